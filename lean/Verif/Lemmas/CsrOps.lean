import Verif.Model.CsrOps
import Verif.Lemmas.CsrConvert

/-!
# `convert_csr_`
-/

namespace Pigo

variable {W : Type}

theorem mapE_load {α : Type} (a : List α) (s k : Nat) (h : s + k ≤ a.length) :
    mapE (load a) (List.range' s k) = .ok ((a.drop s).take k) := by
  induction k generalizing s with
  | zero => simp [mapE]
  | succ k ih =>
    rw [List.range'_succ, mapE, load_ok (List.getElem?_eq_getElem (by omega)), ok_bind, ih (s + 1) (by omega), ok_bind]
    rw [List.drop_eq_getElem_cons (show s < a.length by omega), List.take_succ_cons]

theorem loadRange_ok {α : Type} {a : List α} {s e : Nat} (hs : s ≤ e) (h : e ≤ a.length) :
    loadRange a s e = .ok ((a.drop s).take (e - s)) := mapE_load a s (e - s) (by omega)

theorem mapE_mem_ok {α β : Type} {f : α → M β} {g : α → β} {l : List α} (h : ∀ a ∈ l, f a = .ok (g a)) :
    mapE f l = .ok (l.map g) := by
  induction l with
  | nil => rfl
  | cons a l ih =>
    rw [mapE, h a (List.mem_cons_self ..), ok_bind, ih (fun b hb => h b (List.mem_cons_of_mem _ hb)), ok_bind]; rfl

theorem mapE_nested {α β : Type} {f : α → M β} {g : α → β} {its : List (List α)} (h : ∀ a ∈ its.flatten, f a = .ok (g a)) :
    mapE (fun vs => mapE f vs) its = .ok (its.map (fun vs => vs.map g)) :=
  mapE_mem_ok (fun vs hvs => mapE_mem_ok (fun a ha => h a (List.mem_flatten.mpr ⟨vs, hvs, ha⟩)))

theorem flatten_threads {α β : Type} (g : α → List β) (its : List (List α)) :
    ((its.map (fun vs => vs.map g)).map List.flatten).flatten = its.flatten.flatMap g := by
  induction its with
  | nil => rfl
  | cons a its ih => simp only [List.map_cons, List.flatten_cons, ih, List.flatMap_append]; rw [List.flatMap_def, List.flatMap_def]

theorem flatMap_congr' {α β : Type} {l : List α} {f g : α → List β} (h : ∀ a ∈ l, f a = g a) : l.flatMap f = l.flatMap g := by
  rw [List.flatMap_def, List.flatMap_def, List.map_congr_left h]

/-- Consecutive blocks. -/
theorem blocks_at {α : Type} (pos : Nat → Nat) (g : Nat → List α) (n : Nat) (h0 : pos 0 = 0)
    (h : ∀ v, v < n → pos (v + 1) = pos v + (g v).length) :
    (List.range n).flatMap (fun v => blockActs (pos v) (g v)) = blockActs 0 ((List.range n).flatMap g) ∧
      ((List.range n).flatMap g).length = pos n := by
  induction n with
  | zero => simp [blockActs, h0]
  | succ n ih =>
    obtain ⟨h1, h2⟩ := ih (fun v hv => h v (by omega))
    rw [List.range_succ, List.flatMap_append, List.flatMap_append, blockActs_append, h1, h2]
    refine ⟨by simp, ?_⟩
    rw [List.length_append, h2, h n (by omega)]
    simp

/-! ### Stores to the three arrays -/

/-- The stores to `x_`. -/
def xsOf : List (Act W) → List (Nat × Nat) := List.filterMap (fun a => match a with | .setX i v => some (i, v) | _ => none)
/-- The stores to `y_`. -/
def ysOf : List (Act W) → List (Nat × Nat) := List.filterMap (fun a => match a with | .setY i v => some (i, v) | _ => none)
/-- The stores to `w_`. -/
def wsOf : List (Act W) → List (Nat × W) := List.filterMap (fun a => match a with | .setW i v => some (i, v) | _ => none)
/-- No copies within `w_`. -/
def NoCopy (l : List (Act W)) : Prop := ∀ a ∈ l, ∀ d s, a ≠ .copyW d s

theorem run_mem (sched : List (Act W)) (hn : NoCopy sched) : ∀ (s : Mem W) (x' y' : List Nat) (w' : List W),
    runActs storeAct (xsOf sched) s.x = .ok x' → runActs storeAct (ysOf sched) s.y = .ok y' →
    runActs storeAct (wsOf sched) s.w = .ok w' → runActs stepAct sched s = .ok ⟨x', y', w'⟩ := by
  induction sched with
  | nil =>
    intro s x' y' w' h1 h2 h3
    simp only [xsOf, ysOf, wsOf, List.filterMap_nil, runActs] at h1 h2 h3 ⊢
    injection h1 with h1; injection h2 with h2; injection h3 with h3
    rw [← h1, ← h2, ← h3]
  | cons a sched ih =>
    intro s x' y' w' h1 h2 h3
    have ih' := ih (fun b hb => hn b (List.mem_cons_of_mem _ hb))
    cases a with
    | setX i v =>
      simp only [xsOf, ysOf, wsOf, List.filterMap_cons, runActs, storeAct, stepAct] at h1 h2 h3 ⊢
      cases hs : store s.x i v with
      | error e => rw [hs] at h1; cases h1
      | ok x1 => rw [hs, ok_bind] at h1; exact ih' ⟨x1, s.y, s.w⟩ _ _ _ h1 h2 h3
    | setY i v =>
      simp only [xsOf, ysOf, wsOf, List.filterMap_cons, runActs, storeAct, stepAct] at h1 h2 h3 ⊢
      cases hs : store s.y i v with
      | error e => rw [hs] at h2; cases h2
      | ok x1 => rw [hs, ok_bind] at h2; exact ih' ⟨s.x, x1, s.w⟩ _ _ _ h1 h2 h3
    | setW i v =>
      simp only [xsOf, ysOf, wsOf, List.filterMap_cons, runActs, storeAct, stepAct] at h1 h2 h3 ⊢
      cases hs : store s.w i v with
      | error e => rw [hs] at h3; cases h3
      | ok x1 => rw [hs, ok_bind] at h3; exact ih' ⟨s.x, s.y, x1⟩ _ _ _ h1 h2 h3
    | copyW d c => exact absurd rfl (hn _ (List.mem_cons_self ..) d c)

/-! ### The entries of a row -/

/-- The entries stored for an entry `p` of row `v`. -/
def csrEntryW (cfg : Cfg) (v : Nat) (p : Nat × W) : List (Nat × Nat × W) :=
  (csrEntry cfg v p.1).map (fun q => (q.1, q.2, p.2))

/-- The entries stored by `convert_csr_`. -/
def csrEntries (cfg : Cfg) (rows : List (List (Nat × W))) : List (Nat × Nat × W) :=
  (List.range rows.length).flatMap (fun v => (rows.getD v []).flatMap (csrEntryW cfg v))

/-- Weight argument of `putEntry`. -/
def wOpt (wgt : Bool) (w : W) : Option W := if wgt then some w else none

theorem putEntry_proj (wgt : Bool) (w : W) (l : List (Nat × Nat)) : ∀ pos,
    xsOf (putEntry pos (wOpt wgt w) l) = blockActs pos (l.map Prod.fst) ∧
    ysOf (putEntry pos (wOpt wgt w) l) = blockActs pos (l.map Prod.snd) ∧
    wsOf (putEntry pos (wOpt wgt w) l) = (if wgt then blockActs pos (l.map (fun _ => w)) else []) ∧
    NoCopy (putEntry pos (wOpt wgt w) l) := by
  induction l with
  | nil => intro pos; cases wgt <;> simp [putEntry, xsOf, ysOf, wsOf, blockActs, NoCopy]
  | cons p l ih =>
    intro pos
    obtain ⟨h1, h2, h3, h4⟩ := ih (pos + 1)
    obtain ⟨a, b⟩ := p
    cases wgt with
    | true =>
      simp only [wOpt, if_true, xsOf, ysOf, wsOf] at h1 h2 h3 h4
      simp only [putEntry, xsOf, ysOf, wsOf, wOpt, if_true, List.filterMap_append, h1, h2, h3]
      refine ⟨by simp [blockActs], by simp [blockActs], by simp [blockActs], ?_⟩
      intro c hc d s
      simp only [List.mem_append, List.mem_cons, List.not_mem_nil, or_false] at hc
      rcases hc with ((rfl | rfl) | rfl) | hc
      · exact nofun
      · exact nofun
      · exact nofun
      · exact h4 c hc d s
    | false =>
      simp only [wOpt, xsOf, ysOf, wsOf] at h1 h2 h3 h4
      simp only [putEntry, xsOf, ysOf, wsOf, wOpt, List.filterMap_append, h1, h2, h3]
      refine ⟨by simp [blockActs], by simp [blockActs], by simp, ?_⟩
      intro c hc d s
      simp only [List.mem_append, List.mem_cons, List.not_mem_nil, or_false] at hc
      rcases hc with ((rfl | rfl) | hc) | hc
      · exact nofun
      · exact nofun
      · cases hc
      · exact h4 c hc d s

theorem csrEntryW_length (cfg : Cfg) (v : Nat) (p : Nat × W) : (csrEntryW cfg v p).length = (csrEntry cfg v p.1).length := by
  simp [csrEntryW]

theorem csrRowActs_proj (cfg : Cfg) (wgt : Bool) (v : Nat) (r : List (Nat × W)) : ∀ pos,
    let acts := csrRowActs cfg v pos (r.map (fun p => (p.1, wOpt wgt p.2)))
    let es := r.flatMap (csrEntryW cfg v)
    xsOf acts = blockActs pos (es.map (fun e => e.1)) ∧
    ysOf acts = blockActs pos (es.map (fun e => e.2.1)) ∧
    wsOf acts = (if wgt then blockActs pos (es.map (fun e => e.2.2)) else []) ∧ NoCopy acts := by
  induction r with
  | nil => intro pos; cases wgt <;> simp [csrRowActs, xsOf, ysOf, wsOf, blockActs, NoCopy]
  | cons p r ih =>
    intro pos
    obtain ⟨h1, h2, h3, h4⟩ := ih (pos + (csrEntry cfg v p.1).length)
    obtain ⟨g1, g2, g3, g4⟩ := putEntry_proj wgt p.2 (csrEntry cfg v p.1) pos
    have e1 : (csrEntryW cfg v p).map (fun e => e.1) = (csrEntry cfg v p.1).map Prod.fst := by simp [csrEntryW]
    have e2 : (csrEntryW cfg v p).map (fun e => e.2.1) = (csrEntry cfg v p.1).map Prod.snd := by simp [csrEntryW]
    have e3 : (csrEntryW cfg v p).map (fun e => e.2.2) = (csrEntry cfg v p.1).map (fun _ => p.2) := by simp [csrEntryW]
    simp only [List.map_cons, csrRowActs, List.flatMap_cons, List.map_append, blockActs_append, List.length_map]
    rw [xsOf, ysOf, wsOf, List.filterMap_append, List.filterMap_append, List.filterMap_append, ← xsOf, ← ysOf, ← wsOf,
      h1, h2, h3, g1, g2, g3, e1, e2, e3]
    refine ⟨by rw [csrEntryW_length], by rw [csrEntryW_length], ?_, ?_⟩
    · cases wgt
      · rfl
      · rw [csrEntryW_length]; rfl
    · intro c hc
      rcases List.mem_append.mp hc with hc | hc
      · exact g4 c hc
      · exact h4 c hc

/-- Number of stored entries per CSR entry. -/
def csrFactor (cfg : Cfg) : Nat := if cfg.sym && !cfg.ut then 2 else 1

theorem csrEntry_length (cfg : Cfg) (v u : Nat) : (csrEntry cfg v u).length = csrFactor cfg := by
  rcases cfg with ⟨s, u', l⟩
  cases s <;> cases u' <;> simp [csrEntry, csrFactor]

theorem csrRow_entries_length (cfg : Cfg) (v : Nat) (r : List (Nat × W)) :
    (r.flatMap (csrEntryW cfg v)).length = csrFactor cfg * r.length := by
  induction r with
  | nil => simp
  | cons p r ih => simp only [List.flatMap_cons, List.length_append, ih, csrEntryW_length, csrEntry_length, List.length_cons,
      Nat.mul_add, Nat.mul_one, Nat.add_comm]

theorem IsCsr.load_off {c : Csr W} {wgt : Bool} {rows : List (List (Nat × W))} (h : IsCsr c wgt rows) {v : Nat}
    (hv : v ≤ rows.length) : load c.offsets v = .ok (rows.take v).flatten.length := by
  rw [h.offsets]
  exact load_ok (by rw [offsetsOf_getElem? _ (by simpa using hv), take_sum_length])

theorem take_flatten_le {α : Type} (rows : List (List α)) (v : Nat) : (rows.take v).flatten.length ≤ rows.flatten.length := by
  have : rows.flatten.length = (rows.take v).flatten.length + (rows.drop v).flatten.length := by
    rw [← List.length_append, ← List.flatten_append, List.take_append_drop]
  omega

/-- Loading a row. -/
theorem IsCsr.load_row {c : Csr W} {wgt : Bool} {rows : List (List (Nat × W))} (h : IsCsr c wgt rows) {v : Nat}
    {r : List (Nat × W)} (hr : rows[v]? = some r) :
    load c.offsets v = .ok (rows.take v).flatten.length ∧
    load c.offsets (v + 1) = .ok ((rows.take v).flatten.length + r.length) ∧
    loadRange c.endpoints (rows.take v).flatten.length ((rows.take v).flatten.length + r.length) = .ok (r.map Prod.fst) ∧
    (wgt = true → loadRange c.weights (rows.take v).flatten.length ((rows.take v).flatten.length + r.length) =
      .ok (r.map Prod.snd)) := by
  have hv := (List.getElem?_eq_some_iff.mp hr).1
  have e : (rows.take (v + 1)).flatten.length = (rows.take v).flatten.length + r.length := by
    rw [flatten_take_succ rows hr, List.length_append]
  have hle := take_flatten_le rows (v + 1)
  refine ⟨h.load_off (by omega), by rw [← e]; exact h.load_off (by omega), ?_, fun hw => ?_⟩
  · rw [loadRange_ok (by omega) (by rw [h.endpoints, List.length_map]; omega), Nat.add_sub_cancel_left, h.endpoints,
      ← List.map_drop, ← List.map_take, flatten_slice rows hr]
  · rw [loadRange_ok (by omega) (by rw [h.weights hw, List.length_map]; omega), Nat.add_sub_cancel_left, h.weights hw,
      ← List.map_drop, ← List.map_take, flatten_slice rows hr]

theorem zip_wOpt (wgt : Bool) (r : List (Nat × W)) :
    (r.map Prod.fst).zip (if wgt then (r.map Prod.snd).map some else List.replicate (r.map Prod.fst).length none) =
      r.map (fun p => (p.1, wOpt wgt p.2)) := by
  induction r with
  | nil => simp
  | cons p r ih =>
    cases wgt with
    | true => simpa [wOpt] using ih
    | false => simpa [wOpt, List.replicate_succ] using ih

theorem csrRow_eq {c : Csr W} {wgt : Bool} {rows : List (List (Nat × W))} (h : IsCsr c wgt rows) {stor : Storage}
    (hs : wgt = true → stor ≠ .vector) (cfg : Cfg) {v : Nat} {r : List (Nat × W)} (hr : rows[v]? = some r) :
    csrRow stor cfg wgt c v = .ok (csrRowActs cfg v (csrFactor cfg * (rows.take v).flatten.length)
      (r.map (fun p => (p.1, wOpt wgt p.2)))) := by
  obtain ⟨h1, h2, h3, h4⟩ := h.load_row hr
  have e : (if cfg.sym && !cfg.ut then (rows.take v).flatten.length * 2 else (rows.take v).flatten.length) =
      csrFactor cfg * (rows.take v).flatten.length := by
    unfold csrFactor; split <;> omega
  unfold csrRow
  rw [h1, ok_bind, h2, ok_bind, h3, ok_bind, e]
  cases hw : wgt with
  | true =>
    rw [← zip_wOpt true, if_pos rfl, loadWeights, if_neg (fun hc => hs hw hc.1), h4 hw]
    rfl
  | false =>
    rw [← zip_wOpt false]
    rfl

/-- All executions of `convert_csr_` without a not-yet-implemented flag combination. -/
theorem convertCsr_all {ow T : Nat} {stor : Storage} {cfg : Cfg} {wgt : Bool} {c : Csr W} {rows : List (List (Nat × W))}
    (h : IsCsr c wgt rows) (hs : wgt = true → stor ≠ .vector) (hsl : cfg.sl = false) (hut : cfg.ut = true → cfg.sym = true)
    (hm : csrFactor cfg * c.m < 2 ^ ow) :
    (convertCsr ow T stor cfg wgt c).All (fun r => r.n = c.n ∧ Holds r wgt (csrEntries cfg rows)) := by
  unfold convertCsr
  refine R.All.bind R.All.any (fun nr _ => ?_)
  refine R.All.bind R.All.any (fun nc _ => ?_)
  refine R.All.bind (P := fun m => m = csrFactor cfg * c.m) (R.All.lift (a := csrFactor cfg * c.m) ?_ rfl) (fun m hmm => ?_)
  · unfold csrFactor at hm ⊢
    split
    · rename_i h1
      rw [if_pos h1] at hm
      rw [Nat.mul_comm c.m 2, Nat.mod_eq_of_lt hm]
    · split
      · rename_i h1 h2
        simp only [Bool.and_eq_true, Bool.not_eq_true'] at h2
        rw [hut h2.2] at h2
        simp at h2
      · simp
  subst hmm
  rw [hsl, if_neg (by simp)]
  refine R.All.bind R.All.any (fun j _ => ?_)
  refine R.All.bind (P := OmpDyn c.n T) (R.All.choose (fun _ h => h)) (fun its hits => ?_)
  have hlen := h.n
  have hlt : ∀ v ∈ its.flatten, v < rows.length := by
    intro v hv
    have := List.mem_range.mp (hits.all.mem_iff.mp hv)
    omega
  let acts : Nat → List (Act W) := fun v => csrRowActs cfg v (csrFactor cfg * (rows.take v).flatten.length)
      ((rows.getD v []).map (fun p => (p.1, wOpt wgt p.2)))
  let ents : Nat → List (Nat × Nat × W) := fun v => (rows.getD v []).flatMap (csrEntryW cfg v)
  have hrow : ∀ v, v < rows.length → rows[v]? = some (rows.getD v []) := by
    intro v hv
    rw [List.getD_eq_getElem?_getD, List.getElem?_eq_getElem hv]; rfl
  refine R.All.bind (P := fun t => t = its.map (fun vs => vs.map acts))
    (R.All.lift (mapE_nested (fun v hv => csrRow_eq h hs cfg (hrow v (hlt v hv)))) rfl) (fun t ht => ?_)
  subst ht
  have hpos : ∀ v, v < rows.length → csrFactor cfg * (rows.take (v + 1)).flatten.length =
      csrFactor cfg * (rows.take v).flatten.length + (ents v).length := by
    intro v hv
    rw [flatten_take_succ rows (hrow v hv), List.length_append, Nat.mul_add, csrRow_entries_length]
  have hents : (csrEntries cfg rows).length = csrFactor cfg * c.m := by
    have := (blocks_at (fun v => csrFactor cfg * (rows.take v).flatten.length) ents rows.length (by simp) hpos).2
    rw [List.take_length, ← h.m] at this
    exact this
  have hb : ∀ {α : Type} (f : Nat × Nat × W → α), (List.range rows.length).flatMap (fun v =>
      blockActs (csrFactor cfg * (rows.take v).flatten.length) ((ents v).map f)) = blockActs 0 ((csrEntries cfg rows).map f) := by
    intro α f
    have := (blocks_at (fun v => csrFactor cfg * (rows.take v).flatten.length) (fun v => (ents v).map f) rows.length (by simp)
      (by simpa using hpos)).1
    rw [this, csrEntries, map_flatMap']
  refine R.All.bind (P := fun s : Mem W => s = ⟨(csrEntries cfg rows).map (fun e => e.1), (csrEntries cfg rows).map (fun e => e.2.1),
      if wgt then (csrEntries cfg rows).map (fun e => e.2.2) else []⟩) (R.All.par (fun sched hsc => ?_)) (fun s hs => ?_)
  · have hp : sched.Perm ((List.range rows.length).flatMap acts) := by
      have := hsc.perm
      rw [flatten_threads] at this
      rw [← hlen]
      exact this.trans (hits.all.flatMap_right acts)
    have proj : ∀ {β : Type} (g : Act W → Option β), (sched.filterMap g).Perm
        ((List.range rows.length).flatMap (fun v => (acts v).filterMap g)) := by
      intro β g
      have := hp.filterMap g
      rwa [List.filterMap_flatMap] at this
    refine ⟨_, run_mem sched ?_ _ _ _ (if wgt then (csrEntries cfg rows).map (fun e => e.2.2) else [])
      (run_fill ?_ _ ?_) (run_fill ?_ _ ?_) ?_, rfl⟩
    · intro a ha
      obtain ⟨v, _, hv⟩ := List.mem_flatMap.mp (hp.mem_iff.mp ha)
      exact (csrRowActs_proj cfg wgt v (rows.getD v []) _).2.2.2 a hv
    · refine (proj _).trans (List.Perm.of_eq ?_)
      rw [← hb]
      apply flatMap_congr'
      intro v _
      exact (csrRowActs_proj cfg wgt v (rows.getD v []) _).1
    · simp [allocCoo, hents]
    · refine (proj _).trans (List.Perm.of_eq ?_)
      rw [← hb]
      apply flatMap_congr'
      intro v _
      exact (csrRowActs_proj cfg wgt v (rows.getD v []) _).2.1
    · simp [allocCoo, hents]
    · have hw3 : wsOf sched = sched.filterMap _ := rfl
      cases hw : wgt with
      | true =>
        refine run_fill ((proj _).trans (List.Perm.of_eq ?_)) _ (by simp [allocCoo, hents])
        rw [if_pos rfl, ← hb]
        apply flatMap_congr'
        intro v _
        have := (csrRowActs_proj cfg wgt v (rows.getD v []) (csrFactor cfg * (rows.take v).flatten.length)).2.2.1
        rw [if_pos hw] at this
        exact this
      | false =>
        have : wsOf sched = [] := by
          refine List.Perm.eq_nil ((proj _).trans (List.Perm.of_eq ?_))
          rw [List.flatMap_eq_nil_iff]
          intro v _
          have := (csrRowActs_proj cfg wgt v (rows.getD v []) (csrFactor cfg * (rows.take v).flatten.length)).2.2.1
          rw [if_neg (by simp [hw])] at this
          exact this
        rw [this]
        rfl
  subst hs
  refine R.All.pure ⟨rfl, ⟨hents.symm, rfl, rfl, fun hw => ?_⟩⟩
  simp [hw]

end Pigo
