import Verif.Spec.SessionRetype
import Verif.Lemmas.SessionRun
import Verif.Props.Retype2

/-!
# Operations that change the types, on the graphs the objects hold
-/

namespace Pigo.Session

variable {W V : Type}

theorem does_cases {N : Nat} {ok : W → Prop} {wlt : W → W → Prop} : ∀ {k k' : Kind} {p : Prog k k'} {s s' : Net W}, Spec.Does wlt p s s' → Within N ok s →
    (Spec.Writes p → s.es ≠ []) → Within N ok s' ∧ s'.es.length ≤ Spec.peak p s.es.length ∧ (s.es ≠ [] → s'.es ≠ [])
  | _, _, .done, s, s', h, hs, _ => by
    have h : s' = s := h
    subst h
    exact ⟨hs, Nat.le_refl _, fun g => g⟩
  | _, _, .step T op p, s, s', h, hs, hw => by
    obtain ⟨s1, h1, h2⟩ := h
    rw [writes_step] at hw
    obtain ⟨a1, a2, a3⟩ := step_cases h1 hs (fun g => hw (.inl g))
    obtain ⟨b1, b2, b3⟩ := does_cases h2 a1 (fun g => a3 (hw (.inr g)))
    refine ⟨b1, ?_, fun g => b3 (a3 g)⟩
    rw [peak_step]
    exact Nat.le_trans b2 (peak_mono p a2)

theorem reweigh_view {wgt : Bool} {conv : W → V} {es : List (Nat × Nat × W)} {s : Net W} (hp : (es.map (view wgt)).Perm s.es) :
    ((Pigo.Spec.reweighted conv es).map (view wgt)).Perm (Spec.reweigh wgt conv s).es := by
  have := hp.map (fun e => (e.1, e.2.1, if wgt then e.2.2.map conv else none))
  rw [List.map_map] at this
  refine List.Perm.trans (List.Perm.of_eq ?_) this
  rw [Pigo.Spec.reweighted, List.map_map]
  apply List.map_congr_left
  intro e _
  cases wgt <;> rfl

theorem reweigh_swap {wgt : Bool} {conv : W → V} {s : Net W} :
    Spec.reweigh wgt conv ⟨s.n, s.es.map Spec.swap⟩ = ⟨(Spec.reweigh wgt conv s).n, (Spec.reweigh wgt conv s).es.map Spec.swap⟩ := by
  simp [Spec.reweigh, Spec.swap]

/-- The sizes fit in the new types. -/
structure Room (E' : Types V) (s : Net W) : Prop where
  labels : s.n + 1 < 2 ^ (8 * E'.lb)
  ends : ∀ e ∈ s.es, e.1 < s.n ∧ e.2.1 < s.n
  m : s.es.length < 2 ^ (8 * E'.ob)

theorem room_swap {E' : Types V} {s : Net W} (h : Room E' s) : Room E' (⟨s.n, s.es.map Spec.swap⟩ : Net W) :=
  ⟨h.labels, fun e he => by
    obtain ⟨e', he', rfl⟩ := List.mem_map.mp he
    exact ⟨(h.ends e' he').2, (h.ends e' he').1⟩, by dsimp only; rw [List.length_map]; exact h.m⟩

variable [Inhabited W] {E : Types W} {E' : Types V}

theorem toCsrTo_is {T : Nat} (hT : 0 < T) {wgt : Bool} {conv : W → V} {c : Coo W} {s : Net W} (h : Spec.CooIs wgt c s) (hr : Room E' s) :
    (convertCooTo (8 * E'.lb) (8 * E'.ob) T wgt conv c).All (fun r => Spec.CsrIs wgt r (Spec.reweigh wgt conv s)) := by
  obtain ⟨es, hh, hp⟩ := cooIs_holds h
  have hlab := hr.labels
  have hends : ∀ e ∈ es, e.1 < s.n ∧ e.2.1 < s.n := fun e he => hr.ends _ (hp.mem_iff.mp (List.mem_map_of_mem (f := view wgt) he))
  have hfit : Pigo.Spec.Fits (8 * E'.lb) (8 * E'.ob) s.n 0 0 es :=
    ⟨fun e he => (hends e he).1, fun e he => by have := (hends e he).2; omega, .inr (by omega), by omega, Nat.two_pow_pos _, Nat.two_pow_pos _,
      by rw [perm_len hp]; exact hr.m⟩
  have e := truncated_fit (conv := conv) hfit
  have hn : c.n % 2 ^ (8 * E'.lb) = s.n := by rw [h.n]; exact Nat.mod_eq_of_lt hfit.n
  refine (convertCooTo_trunc (conv := conv) hT hh ?_ ?_).mono ?_
  · rw [e, hn]
    intro x hx
    obtain ⟨y, hy, rfl⟩ := List.mem_map.mp hx
    exact (hends y hy).1
  · rw [hn]
    exact hfit.offsets
  · rintro r ⟨h1, _⟩
    rw [e, hn] at h1
    refine rowsOf_is h1 ?_ rfl (reweigh_view hp)
    intro x hx
    obtain ⟨y, hy, rfl⟩ := List.mem_map.mp hx
    exact (hends y hy).1

theorem toGraphTo_is {T : Nat} (hT : 0 < T) {wgt : Bool} {conv : W → V} {c : Coo W} {s : Net W} (h : Spec.CooIs wgt c s) (hr : Room E' s) :
    (fromCooTo (8 * E'.lb) (8 * E'.ob) T wgt conv c).All (fun g => Spec.Is wgt .graph g (Spec.reweigh wgt conv s)) := by
  refine R.All.bind (copy_is h) (fun cp hcp => ?_)
  refine R.All.bind (toCsrTo_is hT (transpose_is hcp) (room_swap hr)) (fun i hi => ?_)
  refine R.All.bind (toCsrTo_is hT h hr) (fun o ho => R.All.pure ⟨ho, ?_⟩)
  rw [reweigh_swap] at hi
  exact hi

theorem toMatrixTo_is {T : Nat} (hT : 0 < T) {wgt : Bool} {conv : W → V} {c : Coo W} {s : Net W} (h : Spec.CooIs wgt c s) (hr : Room E' s) :
    (matrixFromCooTo (8 * E'.lb) (8 * E'.ob) T wgt conv c).All (fun g => Spec.Is wgt .matrix g (Spec.reweigh wgt conv s)) := by
  refine R.All.bind (copy_is h) (fun cp hcp => ?_)
  refine R.All.bind (toCsrTo_is hT (transpose_is hcp) (room_swap hr)) (fun i hi => ?_)
  refine R.All.bind (toCsrTo_is hT h hr) (fun o ho => R.All.pure ⟨ho, ?_⟩)
  rw [reweigh_swap] at hi
  exact hi

theorem csrIs_m {wgt : Bool} {c : Csr W} {s : Net W} (h : Spec.CsrIs wgt c s) : c.m = s.es.length := by
  rw [← h.edges.length_eq, ← List.length_map (f := Spec.ends), edges_ends h.valid]
  exact ValidCsr.pairs_length (isCsr_of_valid h.valid (default : W))

theorem castCsr_is {lw ow : Nat} {wgt : Bool} {conv : W → V} {c : Csr W} {s : Net W} (h : Spec.CsrIs wgt c s) (hn : s.n < 2 ^ lw)
    (hends : ∀ e ∈ s.es, e.1 < s.n ∧ e.2.1 < s.n) (hm : s.es.length < 2 ^ ow) :
    Spec.CsrIs wgt (castCsr lw ow conv c) (Spec.reweigh wgt conv s) := by
  have hl : ∀ u ∈ c.endpoints, u < 2 ^ lw := by
    intro u hu
    obtain ⟨e, he, rfl⟩ := endpoint_edge h.valid hu
    have := (hends e (h.edges.mem_iff.mp he)).2
    omega
  have hcn : c.n < 2 ^ lw := by rw [h.n]; exact hn
  refine ⟨castCsr_valid h.valid hcn (by rw [csrIs_m h]; exact hm), ?_, ?_⟩
  · show narrow lw c.n = s.n
    rw [narrow_lt hcn, h.n]
  · refine List.Perm.trans (List.Perm.of_eq ?_) (h.edges.map (fun e => (e.1, e.2.1, if wgt then e.2.2.map conv else none)))
    unfold Spec.csrEdges
    rw [show (castCsr lw ow conv c).n = c.n from narrow_lt hcn, map_flatMap']
    apply flatMap_congr'
    intro v _
    rw [castCsr_row hl, show Pigo.Spec.rowWeights (castCsr lw ow conv c) v = (Pigo.Spec.rowWeights c v).map conv from by
      show ((c.weights.map conv).drop _).take _ = _
      rw [← List.map_drop, ← List.map_take]; rfl]
    cases wgt with
    | true =>
      rw [if_pos rfl, if_pos rfl, List.map_map, List.zip_map_right, List.zip_map_right, List.map_map, List.map_map, List.map_map]
      rfl
    | false =>
      rw [if_neg (by decide), if_neg (by decide), List.map_map]
      generalize Pigo.Spec.row c v = l
      induction l with
      | nil => rfl
      | cons a l ih => simpa using ih

theorem reweigh_flag (f : Flags) {wgt : Bool} {conv : W → V} {s : Net W} : Spec.reweigh wgt conv (flagNet f s) = flagNet f (Spec.reweigh wgt conv s) := by
  cases f <;> simp [Spec.reweigh, flagNet, Spec.swap, Spec.order]

theorem toCooTo_is [Inhabited V] {lw ow T : Nat} {stor : Storage} {wgt : Bool} {conv : W → V} {c : Csr W} {s : Net W} (f : Flags) (h : Spec.CsrIs wgt c s)
    (hst : wgt = true → stor ≠ .vector) (hn : s.n < 2 ^ lw) (hends : ∀ e ∈ s.es, e.1 < s.n ∧ e.2.1 < s.n)
    (hm : flagFactor f * s.es.length < 2 ^ ow) :
    (convertCsrTo lw ow T stor f.cfg wgt conv c).All (fun r => Spec.CooIs wgt r (Spec.reweigh wgt conv (flagNet f s))) := by
  rw [convertCsrTo_eq, reweigh_flag]
  have hm1 : s.es.length < 2 ^ ow := by
    cases f <;> simp only [flagFactor] at hm <;> omega
  refine toCoo_is f (castCsr_is h hn hends hm1) hst ?_
  rw [show (Spec.reweigh wgt conv s).es.length = s.es.length from List.length_map _]
  exact hm

/-! ## removing duplicates -/

theorem mem_triples {rows : List (List (Nat × W))} {e : Nat × Nat × W} : e ∈ rowTriples rows ↔ e.1 < rows.length ∧ e.2 ∈ rows.getD e.1 [] := by
  rw [rowTriples, List.mem_flatMap]
  constructor
  · rintro ⟨v, hv, he⟩
    obtain ⟨p, hp, rfl⟩ := List.mem_map.mp he
    exact ⟨List.mem_range.mp hv, hp⟩
  · rintro ⟨h1, h2⟩
    exact ⟨e.1, List.mem_range.mpr h1, List.mem_map.mpr ⟨e.2, h2, rfl⟩⟩

omit [Inhabited W] in
theorem rows_map {rows : List (List (Nat × W))} {g : List (Nat × W) → List (Nat × V)} (hg : g [] = []) (v : Nat) :
    (rows.map g).getD v [] = g (rows.getD v []) := by
  rw [List.getD_eq_getElem?_getD, List.getD_eq_getElem?_getD, List.getElem?_map]
  cases rows[v]? with
  | none => exact hg.symm
  | some r => rfl

theorem dupsTo_is (hw : Pigo.Spec.StrictWeak E.wlt) {lw nlw now T : Nat} (hT : 0 < T) {wgt nw : Bool} (hnw : nw = true → wgt = true) {conv : W → V} {c : Csr W} {s : Net W}
    (h : Spec.CsrIs wgt c s) (hlab : s.n + 1 < 2 ^ lw) (hnlab : s.n + 1 < 2 ^ nlw) (hends : ∀ e ∈ s.es, e.1 < s.n ∧ e.2.1 < s.n)
    (hm : s.es.length < 2 ^ now) :
    (withoutDupsTo lw nlw now T wgt nw E.wlt conv c).All (fun r => ∃ s', Spec.Distinct E.wlt s s' ∧ Spec.CsrIs nw r.2 (Spec.reweigh nw conv s')) := by
  have hl : ∀ u ∈ c.endpoints, u < s.n := by
    intro u hu
    obtain ⟨e, he, rfl⟩ := endpoint_edge h.valid hu
    exact (hends e (h.edges.mem_iff.mp he)).2
  obtain ⟨rows, hi, hall⟩ := withoutDupsTo_rows (lw := lw) (nlw := nlw) (now := now) (T := T) hT hnw E.wlt conv c h.valid
    (fun u hu => by have := hl u hu; omega) (fun u hu => by have := hl u hu; omega) (by rw [h.n]; omega) (.inr (by rw [h.n]; omega))
    (fewEntries_of_m h.valid (by rw [csrIs_m h]; exact hm))
  have hp : ((rowTriples rows).map (view wgt)).Perm s.es := by
    rw [← isCsr_edges hi]
    exact h.edges
  refine hall.mono ?_
  rintro r ⟨rows', h1, hlen, hn1, _, _, _, _, hrows, _, _, h2⟩
  have hlt : ∀ {v}, v < rows'.length → _ := fun {v} hv => hrows v _ _ (getD_some (rows := rows) (v := v) (by omega)) (getD_some hv)
  have hmem : ∀ {e : Nat × Nat × W}, e ∈ rowTriples (rows'.map dedupRow) ↔ e.1 < rows'.length ∧ e.2 ∈ dedupRow (rows'.getD e.1 []) := by
    intro e
    rw [mem_triples, List.length_map, rows_map rfl]
  have hfst : ∀ {v u : Nat}, v < rows'.length → (u ∈ (dedupRow (rows'.getD v [])).map Prod.fst ↔ u ∈ (rows.getD v []).map Prod.fst) := by
    intro v u hv
    rw [dedupRow_mem]
    exact (hlt hv).1.mem_iff
  refine ⟨⟨s.n, (rowTriples (rows'.map dedupRow)).map (view wgt)⟩, ⟨rfl, ?_, ?_, ?_, ?_⟩, h2.valid, ?_, ?_⟩
  · have e : ((rowTriples (rows'.map dedupRow)).map (view wgt)).map Spec.ends = distinctPairs rows' := by
      rw [List.map_map, rowTriples, distinctPairs, map_flatMap', List.length_map]
      apply flatMap_congr'
      intro v _
      rw [rows_map rfl, List.map_map]
      rfl
    dsimp only
    rw [e]
    exact distinctPairs_nodup (fun v hv => (hlt hv).2.1)
  · intro e he
    obtain ⟨t, ht, rfl⟩ := List.mem_map.mp he
    obtain ⟨hv, hd⟩ := hmem.mp ht
    refine hp.mem_iff.mp ?_
    cases wgt with
    | true =>
      refine List.mem_map_of_mem (mem_triples.mpr ⟨by omega, ?_⟩)
      exact ((hlt hv).2.2 rfl).1.mem_iff.mp ((dedupRow_sublist _).subset hd)
    | false =>
      obtain ⟨q, hq, hqe⟩ := List.mem_map.mp ((hfst hv).mp (List.mem_map_of_mem hd))
      refine List.mem_map.mpr ⟨(t.1, q), mem_triples.mpr ⟨by show t.1 < _; omega, hq⟩, ?_⟩
      show (t.1, q.1, none) = (t.1, t.2.1, none)
      rw [hqe]
  · intro e he
    obtain ⟨t, ht, rfl⟩ := List.mem_map.mp (hp.mem_iff.mpr he)
    obtain ⟨hv, hd⟩ := mem_triples.mp ht
    rw [← hlen] at hv
    obtain ⟨q, hq, hqe⟩ := List.mem_map.mp ((hfst hv).mpr (List.mem_map_of_mem hd))
    refine List.mem_map.mpr ⟨view wgt (t.1, q), List.mem_map_of_mem (hmem.mpr ⟨hv, hq⟩), ?_⟩
    show (t.1, q.1) = (t.1, t.2.1)
    rw [hqe]
  · intro e' he' e he hee w w' hw1 hw2
    obtain ⟨t', ht', rfl⟩ := List.mem_map.mp he'
    obtain ⟨t, ht, rfl⟩ := List.mem_map.mp (hp.mem_iff.mpr he)
    cases wgt with
    | false => simp [view, wOpt] at hw1
    | true =>
      obtain ⟨hv', hd'⟩ := hmem.mp ht'
      obtain ⟨hv, hd⟩ := mem_triples.mp ht
      obtain ⟨v', u', x'⟩ := t'
      obtain ⟨v, u, x⟩ := t
      simp only [view, wOpt, Spec.ends, Prod.mk.injEq, if_true, Option.some.injEq] at hee hw1 hw2
      obtain ⟨rfl, rfl⟩ := hee
      subst hw1 hw2
      obtain ⟨g1, g2, g3⟩ := hlt hv'
      obtain ⟨g3, g4⟩ := g3 rfl
      intro hlt'
      refine dedupRow_first (fun a b => ¬ pairLt E.wlt b a) ?_ g4 g2 hd' (g3.mem_iff.mpr hd) rfl ?_
      · rintro a (h | ⟨_, h⟩)
        · omega
        · exact hw.irrefl _ h
      · exact .inr ⟨by show ¬ u < u; omega, hlt'⟩
  · show r.2.n = s.n
    rw [h2.n, List.length_map, hlen, ← hi.n, h.n]
  · rw [isCsr_edges h2]
    refine List.Perm.of_eq ?_
    show _ = List.map _ (List.map _ _)
    rw [List.map_map, rowTriples, rowTriples, map_flatMap', map_flatMap', List.length_map, List.length_map]
    apply flatMap_congr'
    intro v _
    rw [rows_map rfl, rows_map rfl, List.map_map, List.map_map, List.map_map]
    apply List.map_congr_left
    intro q _
    cases nw with
    | false => rfl
    | true => rw [hnw rfl]; rfl

/-! ## one change of types -/

theorem growth_factor {k k' : Kind} (op : Conv k k') : opFactor op.same = Spec.growth op := by
  cases op with
  | toCoo f => cases f <;> rfl
  | _ => rfl

theorem conv_all [Inhabited V] (hw : Pigo.Spec.StrictWeak E.wlt) {T : Nat} (hT : 0 < T) {k k' : Kind} (op : Conv k k') {conv : W → V} {o : Obj W k} {s : Net W}
    (h : Spec.Is E.wk.wgt k o s) (hends : ∀ e ∈ s.es, e.1 < s.n ∧ e.2.1 < s.n) (hlab : s.n + 1 < 2 ^ (8 * E.lb)) (hlab' : s.n + 1 < 2 ^ (8 * E'.lb))
    (hm : Spec.growth op * s.es.length < 2 ^ (8 * E'.ob)) (hal : Spec.Allowed E E' op) :
    (op.run E E' conv T o).All (fun o' => ∃ s2, Spec.Step E.wlt op.same s s2 ∧ Spec.Is E'.wk.wgt k' o' (Spec.reweigh E'.wk.wgt conv s2)) := by
  have hm1 : s.es.length < 2 ^ (8 * E'.ob) := by
    refine Nat.lt_of_le_of_lt ?_ hm
    refine Nat.le_mul_of_pos_left _ ?_
    cases op with
    | toCoo f => cases f <;> simp [Spec.growth]
    | _ => simp [Spec.growth]
  have hroom : Room E' s := ⟨hlab', hends, hm1⟩
  cases op with
  | toCsr =>
    have hal : E'.wk.wgt = E.wk.wgt := hal
    rw [Conv.run, hal]
    exact (toCsrTo_is hT h hroom).mono (fun r hr => ⟨s, same_refl s, hr⟩)
  | toGraph =>
    have hal : E'.wk.wgt = E.wk.wgt := hal
    rw [Conv.run, hal]
    exact (toGraphTo_is hT h hroom).mono (fun r hr => ⟨s, same_refl s, hr⟩)
  | toMatrix =>
    have hal : E'.wk.wgt = E.wk.wgt := hal
    rw [Conv.run, hal]
    exact (toMatrixTo_is hT h hroom).mono (fun r hr => ⟨s, same_refl s, hr⟩)
  | toCoo f =>
    have hal : E'.wk.wgt = E.wk.wgt ∧ _ := hal
    rw [Conv.run, hal.1]
    refine (toCooTo_is f h hal.2 (by omega) hends ?_).mono (fun r hr => ⟨flagNet f s, ?_, hr⟩)
    · have e : Spec.growth (.toCoo f) = flagFactor f := by cases f <;> rfl
      rw [← e]
      exact hm
    · cases f <;> exact same_refl _
  | withoutDups =>
    exact R.All.bind (dupsTo_is hw hT hal h hlab hlab' hends hm1) (fun r hr => R.All.pure hr)

end Pigo.Session
