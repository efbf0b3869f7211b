import Verif.Lemmas.RaceCsr
import Verif.Lemmas.RaceEl
import Verif.Lemmas.CsrDedup

/-!
# No data race in CSR to COO, sorting, removing duplicates
-/

namespace Pigo

open Spec (Access Conflict Race reads writes atomics)

variable {W : Type} {α β S : Type}

theorem drf_all {p : D α} {q : R α} {k : α → D β} {P : α → Prop} (hp : p.drf) (hq : p.out = q) (h : q.All P)
    (hk : ∀ a, P a → (k a).drf) : (p >>= k).drf := by
  refine drf_bind hp fun a ha => ?_
  rw [hq] at ha
  obtain ⟨b, hb, hP⟩ := h _ ha
  cases hb
  exact hk a hP

theorem mapE_mem {f : α → M β} {l : List α} {bs : List β} (h : mapE f l = .ok bs) {b : β} (hb : b ∈ bs) : ∃ a ∈ l, f a = .ok b := by
  obtain ⟨t, ht⟩ := List.mem_iff_getElem?.mp hb
  obtain ⟨a, ha, hf⟩ := mapE_get h t ht
  exact ⟨a, List.mem_of_getElem? ha, hf⟩

/-- A loop whose iterations keep to intervals of their own. -/
theorem no_race_rows {f : Nat → M (List α)} {step : α → S → M S} {foot : α → S → List Access} {its : List (List Nat)}
    {threads : List (List (List α))} {s : S} {n : Nat} (h : mapE (fun vs => mapE f vs) its = .ok threads)
    (hp : its.flatten.Perm (List.range n)) (lo hi : Nat → Nat) (hd : ∀ v w, v < w → w < n → hi v ≤ lo w)
    (hw : ∀ v, v < n → ∀ l, f v = .ok l → ∀ a ∈ l, ∀ s1, ∀ x ∈ foot a s1, Within (lo v) (hi v) x) :
    ¬ Race step foot (threads.map List.flatten) s := by
  have hn : its.flatten.Nodup := hp.nodup_iff.mpr List.nodup_range
  have key : ∀ (t : Nat) la, (threads.map List.flatten)[t]? = some la → ∀ a ∈ la, ∃ vs v l, its[t]? = some vs ∧ v ∈ vs ∧ v < n ∧
      f v = .ok l ∧ a ∈ l := by
    intro t la hla a ha
    rw [List.getElem?_map] at hla
    cases h1 : threads[t]? with
    | none => rw [h1] at hla; cases hla
    | some tl =>
      rw [h1] at hla
      injection hla with hla
      subst hla
      obtain ⟨vs, hvs, hf⟩ := mapE_get h t h1
      obtain ⟨l, hl, hal⟩ := List.mem_flatten.mp ha
      obtain ⟨v, hv, hfv⟩ := mapE_mem hf hl
      exact ⟨vs, v, l, hvs, hv, List.mem_range.mp (hp.mem_iff.mp (List.mem_flatten.mpr ⟨vs, List.mem_of_getElem? hvs, hv⟩)), hfv, hal⟩
  refine no_race_static fun t u la lb htu hla hlb a ha b hb s1 s2 x hx y hy hc => ?_
  obtain ⟨vs, v, l, h1, h2, h3, h4, h5⟩ := key t la hla a ha
  obtain ⟨ws, w, k, i1, i2, i3, i4, i5⟩ := key u lb hlb b hb
  have hne := getElem?_ne_of_nodup_flatten hn htu h1 i1 h2 i2
  have a1 := hw v h3 l h4 a h5 s1 x hx
  have a2 := hw w i3 k i4 b i5 s2 y hy
  have a3 := hc.2.1
  unfold Within at a1 a2
  rcases Nat.lt_or_gt_of_ne hne with h | h
  · have := hd v w h i3; omega
  · have := hd w v h h3; omega

/-- Monotone offsets. -/
def MonoOff (c : Csr W) : Prop := ∀ v, v < c.n → Spec.off c v ≤ Spec.off c (v + 1)

theorem MonoOff.le {c : Csr W} (h : MonoOff c) {v w : Nat} (hvw : v ≤ w) (hw : w ≤ c.n) : Spec.off c v ≤ Spec.off c w := by
  induction w with
  | zero => rw [show v = 0 by omega]; exact Nat.le_refl _
  | succ w ih =>
    rcases Nat.lt_or_ge v (w + 1) with h' | h'
    · exact Nat.le_trans (ih (by omega) (by omega)) (h w (by omega))
    · rw [show v = w + 1 by omega]; exact Nat.le_refl _

theorem load_off {c : Csr W} {v s : Nat} (h : load c.offsets v = .ok s) : Spec.off c v = s := by
  unfold load at h
  cases h1 : c.offsets[v]? with
  | none => rw [h1] at h; cases h
  | some a =>
    rw [h1] at h
    cases h
    simp [Spec.off, List.getD_eq_getElem?_getD, h1]

theorem bind_inv {o : M α} {f : α → M β} {b : β} (h : (o >>= f) = .ok b) : ∃ a, o = .ok a ∧ f a = .ok b := by
  cases o with
  | error e => cases h
  | ok a => exact ⟨a, rfl, h⟩

theorem loadRange_len {a : List α} {s e : Nat} {l : List α} (h : loadRange a s e = .ok l) : l.length = e - s := by
  rw [mapE_len h, List.length_range']

theorem putEntry_supp (w : Option W) : ∀ (l : List (Nat × Nat)) (pos : Nat), ∀ a ∈ putEntry pos w l, ∀ i ∈ a.supp,
    pos ≤ i ∧ i < pos + l.length
  | [], _, a, ha => by simp [putEntry] at ha
  | (x, y) :: l, pos, a, ha => by
    intro i hi
    rw [List.length_cons]
    rw [putEntry.eq_def] at ha
    simp only at ha
    rcases List.mem_append.mp ha with ha | ha
    · have : i = pos := by
        cases w <;> simp at ha
        · rcases ha with rfl | rfl <;> simpa [Act.supp] using hi
        · rcases ha with rfl | rfl | rfl <;> simpa [Act.supp] using hi
      omega
    · have := putEntry_supp w l (pos + 1) a ha i hi
      omega

theorem csrEntry_len (cfg : Cfg) (v u : Nat) : (csrEntry cfg v u).length = csrFactor cfg := by
  unfold csrEntry csrFactor
  obtain ⟨sym, ut, sl⟩ := cfg
  cases sym <;> cases ut <;> simp

theorem csrRowActs_supp (cfg : Cfg) (v : Nat) : ∀ (l : List (Nat × Option W)) (pos : Nat), ∀ a ∈ csrRowActs cfg v pos l, ∀ i ∈ a.supp,
    pos ≤ i ∧ i < pos + csrFactor cfg * l.length
  | [], _, a, ha => by simp [csrRowActs] at ha
  | (u, w) :: l, pos, a, ha => by
    intro i hi
    rw [csrRowActs, csrEntry_len] at ha
    rw [List.length_cons, Nat.mul_succ]
    rcases List.mem_append.mp ha with ha | ha
    · have := putEntry_supp w _ pos a ha i hi
      rw [csrEntry_len] at this
      omega
    · have := csrRowActs_supp cfg v l _ a ha i hi
      omega

theorem csrRow_supp {stor : Storage} {cfg : Cfg} {wgt : Bool} {c : Csr W} {v : Nat} {l : List (Act W)}
    (h : csrRow stor cfg wgt c v = .ok l) :
    ∀ a ∈ l, ∀ i ∈ a.supp, csrFactor cfg * Spec.off c v ≤ i ∧ i < csrFactor cfg * Spec.off c v + csrFactor cfg * (Spec.off c (v + 1) - Spec.off c v) := by
  unfold csrRow at h
  obtain ⟨s, hs, h⟩ := bind_inv h
  obtain ⟨e, he, h⟩ := bind_inv h
  obtain ⟨us, hus, h⟩ := bind_inv h
  have hl : ∃ ws, l = csrRowActs cfg v (if cfg.sym && !cfg.ut then s * 2 else s) (us.zip ws) := by
    cases wgt
    · simp only [Bool.false_eq_true, if_false, ok_bind] at h
      injection h with h
      exact ⟨_, h.symm⟩
    · simp only [if_true] at h
      obtain ⟨ws, _, h⟩ := bind_inv h
      injection h with h
      exact ⟨_, h.symm⟩
  obtain ⟨ws, rfl⟩ := hl
  intro a ha i hi
  have h1 := csrRowActs_supp cfg v _ _ a ha i hi
  have e1 : (if cfg.sym && !cfg.ut then s * 2 else s) = csrFactor cfg * s := by
    unfold csrFactor; split <;> omega
  rw [e1] at h1
  rw [load_off hs, load_off he]
  have h2 : (us.zip ws).length ≤ e - s := by
    rw [List.length_zip, loadRange_len hus]; omega
  have h3 := Nat.mul_le_mul_left (csrFactor cfg) h2
  omega

/-- `COO(CSR&)` for monotone offsets. -/
theorem convertCsr_drf {ow T : Nat} {stor : Storage} {cfg : Cfg} {wgt : Bool} {c : Csr W} (h : MonoOff c) :
    (dConvertCsr ow T stor cfg wgt c).drf := by
  refine drf_any fun nr => drf_any fun nc => drf_lift fun m _ => ?_
  split
  · exact drf_run _
  · refine drf_any fun j => drf_choose fun its hits => drf_lift fun threads hth => drf_bind ?_ fun _ _ => drf_pure _
    refine drf_par acc_act (no_race_rows hth hits.all (fun v => csrFactor cfg * Spec.off c v)
      (fun v => csrFactor cfg * Spec.off c (v + 1)) (fun v w h1 h2 => Nat.mul_le_mul_left _ (h.le h1 (by omega))) ?_)
    intro v hv l hl a ha s1 x hx
    have h1 := csrRow_supp hl a ha _ (footAct_supp hx)
    have h2 := h v hv
    refine ⟨h1.1, ?_⟩
    rw [← Nat.mul_add, show Spec.off c v + (Spec.off c (v + 1) - Spec.off c v) = Spec.off c (v + 1) by omega] at h1
    exact h1.2

theorem footSort_within {wgt : Bool} {c : Csr W} {v : Nat} {s : β} {x : Access} (h : x ∈ footSort wgt c.offsets v s) :
    Spec.off c v ≤ x.idx ∧ x.idx < Spec.off c (v + 1) := by
  unfold footSort at h
  split at h
  · rename_i a b ha hb
    have e1 : Spec.off c v = a := by simp [Spec.off, List.getD_eq_getElem?_getD, ha]
    have e2 : Spec.off c (v + 1) = b := by simp [Spec.off, List.getD_eq_getElem?_getD, hb]
    rw [e1, e2]
    obtain ⟨i, hi, hx⟩ := List.mem_flatMap.mp h
    rw [List.mem_range'_1] at hi
    have : x.idx = i := by
      cases wgt <;> simp at hx
      · rcases hx with rfl | rfl <;> rfl
      · rcases hx with rfl | rfl | rfl | rfl <;> rfl
    omega
  · cases h

theorem sortCsr_drf {T : Nat} {wgt : Bool} {wlt : W → W → Prop} {c : Csr W} (h : MonoOff c) : (dSortCsr T wgt wlt c).drf := by
  refine drf_choose fun sl hsl => drf_choose fun sp hsp => drf_choose fun its hits => drf_bind ?_ fun _ _ => drf_pure _
  refine drf_par (acc_sort _ _ (fun v l => (hsl v l).1.length_eq) (fun v l => (hsp v l).1.length_eq))
    (no_race_loop1 hits.all fun v w hv hw hne s1 s2 x hx y hy hc => ?_)
  have h1 := footSort_within hx
  have h2 := footSort_within hy
  have h3 := hc.2.1
  rcases Nat.lt_or_gt_of_ne hne with h' | h'
  · have := h.le (v := v + 1) (w := w) h' (by omega); omega
  · have := h.le (v := w + 1) (w := v) h' (by omega); omega

theorem no_race_own {arr : String} {T : Nat} {f : Nat → Nat} {st : List Nat} :
    ¬ Race storeAct (footStore arr) ((List.range T).map (fun tid => [(tid, f tid)])) st := by
  refine no_race_intervals (fun t => t) (fun t => t + 1) (fun t u h _ => h) fun t l hl a ha s1 x hx => ?_
  rw [List.getElem?_map] at hl
  cases h1 : (List.range T)[t]? with
  | none => rw [h1] at hl; cases hl
  | some u =>
    rw [h1] at hl
    obtain ⟨_, rfl⟩ := List.getElem?_eq_some_iff.mp h1
    rw [List.getElem_range] at hl
    injection hl with hl
    subst hl
    rw [List.mem_singleton] at ha
    subst ha
    rw [footStore, List.mem_singleton] at hx
    subst hx
    exact ⟨Nat.le_refl _, Nat.lt_succ_self _⟩

theorem dupActs_within {ncur : Nat} {l : List (Nat × Option W)} {arr arr' : String} : ∀ a ∈ dupActs ncur l, ∀ (s : β),
    ∀ x ∈ footStore2 arr arr' a s, Within ncur (ncur + l.length) x := by
  intro a ha s x hx
  unfold dupActs at ha
  obtain ⟨p, hp, ha⟩ := List.mem_flatMap.mp ha
  have hb := block_within hp
  have : x.idx = p.1 := by
    cases h : p.2.2 with
    | none =>
      rw [h] at ha
      simp at ha
      subst ha
      rw [footStore2, List.mem_singleton] at hx
      subst hx; rfl
    | some w =>
      rw [h] at ha
      simp at ha
      rcases ha with rfl | rfl <;> · rw [footStore2, List.mem_singleton] at hx; subst hx; rfl
  unfold Within
  rw [this]
  exact hb

/-- `new_csr_without_dups`. -/
theorem withoutDups_drf {lw T : Nat} (hT : 0 < T) {wgt : Bool} {wlt : W → W → Prop} {c : Csr W} {rows : List (List (Nat × W))}
    (h : IsCsr c wgt rows) (hmono : MonoOff c) {B : Nat} (hB : ∀ u ∈ c.endpoints, u < B) (hlw : B < 2 ^ lw) (hfit : Spec.OffsetsFit lw c.n) :
    (dWithoutDups lw T wgt wlt c).drf := by
  refine drf_all (sortCsr_drf hmono) (dSortCsr_out ..) (sortCsr_all h) fun c1 hc1 => ?_
  obtain ⟨rows', h1, hlen, hn, hm, hnr, hnc, ho, hwt, hrows⟩ := hc1
  have hp1 : plusOne lw c1.n = c1.n + 1 := plusOne_fit (by rw [hn]; exact hfit)
  simp only [hp1]
  have hbound : ∀ v, v < rows'.length → (dedupRow (rows'.getD v [])).length < 2 ^ lw := by
    intro v hv
    have hr' := getD_some hv
    have hr : rows[v]? = some (rows.getD v []) := getD_some (by omega)
    obtain ⟨g1, g2, _⟩ := hrows v _ _ hr hr'
    have := strict_length (B := B) ((dedupRow (rows'.getD v [])).map Prod.fst) 0 (dedupRow_sorted _ g2) (by
      intro u hu
      refine ⟨Nat.zero_le _, hB u ?_⟩
      rw [dedupRow_mem, g1.mem_iff] at hu
      rw [h.endpoints, List.map_flatten]
      exact List.mem_flatten.mpr ⟨_, List.mem_map_of_mem (List.mem_of_getElem? hr), hu⟩)
    rw [List.length_map] at this
    omega
  let deg : Nat → Nat := fun v => (dedupRow (rows'.getD v [])).length
  have hdeg : ∀ v, v < rows'.length → dupDeg lw c1 v = .ok (deg v) := fun v hv => dupDeg_eq h1 (getD_some hv) (hbound v hv)
  have hn1 : c1.n = rows'.length := h1.n
  refine drf_any fun jd => drf_choose fun its hits => ?_
  have hlt : ∀ {its : List (List Nat)}, OmpDyn c1.n T its → ∀ v ∈ its.flatten, v < rows'.length := by
    intro its hits v hv
    have := List.mem_range.mp (hits.all.mem_iff.mp hv)
    omega
  refine drf_lift fun counts hcounts => ?_
  have hcounts' : counts = its.map (fun vs => vs.map (fun v => (v, deg v))) := by
    have := mapE_nested (f := fun v => dupDeg lw c1 v >>= fun d => .ok (v, d)) (g := fun v => (v, deg v)) (its := its)
      (fun v hv => by rw [hdeg v (hlt hits v hv)]; rfl)
    rw [hcounts] at this
    cases this; rfl
  subst hcounts'
  refine drf_all (q := R.par storeAct (its.map (fun vs => vs.map (fun v => (v, deg v)))) (alloc jd c1.n)) ?_ rfl (P := fun d => d = alloc deg c1.n)
    (R.All.par (fun sched hs => ⟨_, fill_dyn hits deg hs _ (by simp), rfl⟩)) (fun degs hdegs => ?_)
  · have := no_race_loop (step := storeAct) (foot := footStore "degs") (its := its) (body := fun v => [(v, deg v)])
      (s := alloc jd c1.n) hits.all (by
        intro e f _ _ hne a ha b hb s1 s2 p hp q hq hc
        simp only [List.mem_singleton] at ha hb
        subst ha; subst hb
        simp only [footStore, List.mem_singleton] at hp hq
        subst hp; subst hq
        exact hne hc.2.1)
    have e : its.map (fun es => es.flatMap (fun v => [(v, deg v)])) = its.map (fun vs => vs.map (fun v => (v, deg v))) := by
      congr 1; funext l
      rw [List.flatMap_def]
      clear hits
      induction l with
      | nil => rfl
      | cons a l ih => rw [List.map_cons, List.flatten_cons, ih]; rfl
    rw [e] at this
    exact drf_par (acc_store _) this
  have hnewM : ((its.map (fun vs => vs.map (fun v => (v, deg v)))).map (fun t => (t.map Prod.snd).sum)).sum = degs.sum := by
    rw [hdegs, alloc]
    have e : ∀ its : List (List Nat), ((its.map (fun vs => vs.map (fun v => (v, deg v)))).map (fun t => (t.map Prod.snd).sum)).sum =
        (its.flatten.map deg).sum := by
      intro its
      induction its with
      | nil => rfl
      | cons a its ih =>
        rw [List.map_cons, List.map_cons, List.sum_cons, ih, List.flatten_cons, List.map_append, List.sum_append, List.map_map]
        rfl
    rw [e]
    exact (hits.all.map deg).sum_nat
  have hdl : degs.length = c1.n := by rw [hdegs]; simp
  refine drf_any fun j => drf_any fun js => ?_
  refine drf_all (q := R.par storeAct _ (alloc js T)) (drf_par (acc_store _) no_race_own) rfl
    (P := fun s => s = (List.range T).map (fun tid => (slice degs c1.n T tid).sum)) (R.All.par (fun sched hs => ?_)) (fun starts hstarts => ?_)
  · refine ⟨_, run_fill (vs := (List.range T).map (fun tid => (slice degs c1.n T tid).sum)) ?_ _ (by simp), rfl⟩
    refine hs.perm.trans (List.Perm.of_eq ?_)
    rw [← range_eq_blockActs (fun tid => (slice degs c1.n T tid).sum)]
    induction List.range T with
    | nil => rfl
    | cons a l ih => simp [ih]
  subst hstarts
  refine drf_all (q := R.par storeAct _ (alloc j.offsets (c1.n + 1))) (drf_par (acc_store _) (no_race_offsets _)) rfl (P := fun o => o = offsetsOf degs)
    (R.All.par (fun sched hs => ?_)) (fun offs hoffs => ?_)
  · rw [hnewM] at hs
    exact ⟨_, run_offsets hT hdl hs _ (by simp), rfl⟩
  subst hoffs
  have hdegrows : degs = (rows'.map dedupRow).map List.length := by
    rw [hdegs, alloc, hn1, List.map_map]
    exact map_range_getD rows' (fun r => (dedupRow r).length)
  have hoff : ∀ v, v ≤ rows'.length → load (offsetsOf degs) v = .ok ((rows'.map dedupRow).take v).flatten.length := by
    intro v hv
    rw [hdegrows]
    exact load_ok (by rw [offsetsOf_getElem? _ (by simpa using hv), take_sum_length])
  have hpos : ∀ v, v < rows'.length → ((rows'.map dedupRow).take (v + 1)).flatten.length =
      ((rows'.map dedupRow).take v).flatten.length + (dedupRow (rows'.getD v [])).length := by
    intro v hv
    rw [flatten_take_succ (rows'.map dedupRow) (r := dedupRow (rows'.getD v [])) (by rw [List.getElem?_map, getD_some hv]; rfl),
      List.length_append]
  refine drf_choose fun its2 hits2 => drf_lift fun threads hth => drf_bind ?_ fun _ _ => drf_pure _
  refine drf_par (acc_store2 (by decide)) ?_
  refine no_race_rows hth hits2.all (fun v => ((rows'.map dedupRow).take v).flatten.length)
    (fun v => ((rows'.map dedupRow).take (v + 1)).flatten.length) (fun v w hvw _ => ?_) ?_
  · rw [← take_sum_length, ← take_sum_length]
    exact take_sum_mono _ hvw
  · intro v hv l hl a ha s1 x hx
    rw [dupCopy_eq h1 (getD_some (by omega)) (hoff v (by omega))] at hl
    injection hl with hl
    subst hl
    have := dupActs_within a ha s1 x hx
    rw [List.length_map] at this
    rw [hpos v (by omega)]
    exact this

end Pigo
