import Verif.Lemmas.CsrRows

/-!
# `convert_coo_` as a whole
-/

namespace Pigo

variable {W : Type}

/-- The rows of a list of entries, each in the order of the list. -/
def groupRows (n : Nat) (es : List (Nat × Nat × W)) : List (List (Nat × W)) :=
  (List.range n).map (fun v => (es.filter (fun e => e.1 == v)).map (fun e => e.2))

theorem run_inc {ow : Nat} {x : List Nat} {xe : Nat → Nat} {n : Nat} (sched : List Nat) : ∀ (f : Nat → Nat),
    (∀ e ∈ sched, x[e]? = some (xe e)) → (∀ e ∈ sched, xe e < n) →
    (∀ v, f v + (byRow xe sched v).length < 2 ^ ow) →
    runActs (incAct ow x) sched (alloc f n) = .ok (alloc (fun v => f v + (byRow xe sched v).length) n) := by
  induction sched with
  | nil => intro f _ _ _; simp [runActs, byRow]
  | cons e sched ih =>
    intro f hx hn hb
    have h1 := hx e (List.mem_cons_self ..)
    have h2 := hn e (List.mem_cons_self ..)
    have h3 := hb (xe e)
    rw [byRow_cons_self, List.length_cons] at h3
    simp only [runActs, incAct, load_ok h1, ok_bind, load_alloc _ h2]
    rw [if_pos (by omega), store_alloc _ h2, ok_bind, ih]
    · congr 1
      apply alloc_congr
      intro v _
      by_cases hv : v = xe e
      · subst hv
        rw [if_pos rfl, byRow_cons_self, List.length_cons]; omega
      · rw [if_neg hv, byRow_cons_ne _ _ _ (Ne.symm hv)]
    · exact fun a ha => hx a (List.mem_cons_of_mem _ ha)
    · exact fun a ha => hn a (List.mem_cons_of_mem _ ha)
    · intro v
      have := hb v
      by_cases hv : v = xe e
      · subst hv; rw [if_pos rfl]; rw [byRow_cons_self, List.length_cons] at this; omega
      · rw [if_neg hv]; rwa [byRow_cons_ne _ _ _ (Ne.symm hv)] at this

theorem byRow_length_le (xe : Nat → Nat) (C : List Nat) (v : Nat) : (byRow xe C v).length ≤ C.length :=
  List.length_filter_le _ _

theorem filterMap_getElem?_range {α : Type} (l : List α) : (List.range l.length).filterMap (fun i => l[i]?) = l := by
  induction l with
  | nil => rfl
  | cons a l ih =>
    rw [List.length_cons, List.range_succ_eq_map, List.filterMap_cons]
    simp only [List.getElem?_cons_zero, List.filterMap_map]
    congr 1

/-- `C` lists indices of `es`; grouping indices and then looking up is grouping the looked-up entries. -/
theorem grouped_lookup (es : List (Nat × Nat × W)) (d : W) (C : List Nat) (hC : ∀ e ∈ C, e < es.length) (v : Nat) :
    (byRow (fun e => (es[e]?.map (fun a => a.1)).getD 0) C v).map
        (fun e => ((es[e]?.map (fun a => a.2.1)).getD 0, (es[e]?.map (fun a => a.2.2)).getD d)) =
      ((C.filterMap (fun e => es[e]?)).filter (fun e => e.1 == v)).map (fun e => e.2) := by
  induction C with
  | nil => rfl
  | cons e C ih =>
    have ih' := ih (fun a ha => hC a (List.mem_cons_of_mem _ ha))
    have he := hC e (List.mem_cons_self ..)
    have hg : es[e]? = some es[e] := List.getElem?_eq_getElem he
    rw [List.filterMap_cons, hg]
    simp only
    by_cases hv : (es[e]).1 = v
    · rw [List.filter_cons_of_pos (by simpa using hv), List.map_cons, ← ih']
      simp [byRow, hv, hg]
    · rw [List.filter_cons_of_neg (by simpa using hv), ← ih']
      simp [byRow, hv, hg]

theorem map_flatMap' {α β γ : Type} (l : List α) (f : α → List β) (g : β → γ) :
    (l.flatMap f).map g = l.flatMap (fun a => (f a).map g) := by
  induction l with
  | nil => rfl
  | cons a l ih => simp [ih]

theorem plusOne_fit {lw n : Nat} (h : Spec.OffsetsFit lw n) : plusOne lw n = n + 1 := by
  unfold plusOne
  rcases h with h | h
  · rw [if_pos h]
  · rw [Nat.mod_eq_of_lt h, ite_self]

/-- All executions of the first phases: the degrees, and the sums of the threads' blocks of them. -/
theorem countDegrees_all {ow T n m : Nat} (hT : 0 < T) {x : List Nat} {xe : Nat → Nat} (hxe : ∀ e, e < m → x[e]? = some (xe e))
    (hxn : ∀ e, e < m → xe e < n) (hm : m < 2 ^ ow) :
    (countDegrees ow T n m x).All (fun p => p = (degsOf xe (List.range m) n,
      (List.range T).map (fun tid => (slice (degsOf xe (List.range m) n) n T tid).sum))) := by
  unfold countDegrees
  refine R.All.bind R.All.any (fun jl _ => ?_)
  refine R.All.bind R.All.any (fun js _ => ?_)
  refine R.All.bind R.All.any (fun ja _ => ?_)
  -- zero
  refine R.All.bind (P := OmpFor n T) (R.All.choose (fun _ h => h)) (fun its0 hits0 => ?_)
  refine R.All.bind (P := fun all => all = alloc (fun _ => 0) n) (R.All.par (fun sched hs => ?_)) (fun all hall => ?_)
  · refine ⟨_, run_fill (vs := alloc (fun _ => 0) n) ?_ _ (by simp), rfl⟩
    refine hs.perm.trans ?_
    have e : (its0.map (fun vs => vs.map (fun v => (v, 0)))).flatten = its0.flatten.map (fun v => (v, 0)) := by
      rw [List.map_flatten]
    rw [e]
    refine (hits0.all.map _).trans (List.Perm.of_eq ?_)
    exact range_eq_blockActs (fun _ => 0) n
  subst hall
  -- count
  refine R.All.bind (P := OmpFor m T) (R.All.choose (fun _ h => h)) (fun its1 hits1 => ?_)
  refine R.All.bind (P := fun all => all = degsOf xe (List.range m) n) (R.All.par (fun sched hs => ?_)) (fun all hall => ?_)
  · have hp : sched.Perm (List.range m) := hs.perm.trans hits1.all
    have hmem : ∀ e ∈ sched, e < m := fun e he => List.mem_range.mp (hp.mem_iff.mp he)
    refine ⟨_, run_inc (xe := xe) sched _ (fun e he => hxe e (hmem e he)) (fun e he => hxn e (hmem e he)) ?_, ?_⟩
    · intro v
      have := byRow_length_le xe sched v
      rw [hp.length_eq, List.length_range] at this
      omega
    · rw [← degsOf_perm xe hp]
      exact alloc_congr (fun v _ => Nat.zero_add _)
  have halllen : all.length = n := by rw [hall]; simp [degsOf]
  -- copy, sums
  refine R.All.par (fun sched hs => ?_)
  · have hperm := hs.perm
    have hb := blocks_prefix n T T (slice all n T) (fun i hi => slice_length hT hi halllen)
    rw [slices_flatten hT halllen] at hb
    refine ⟨_, run_sum _ _ _ _ _ _ _ (run_fill (vs := all) ?_ _ (by simp [halllen]))
      (run_fill (vs := (List.range T).map (fun tid => (slice all n T tid).sum)) ?_ _ (by simp)), by rw [← hall]⟩
    · refine (hperm.filterMap _).trans (List.Perm.of_eq ?_)
      rw [← hb.1]
      induction List.range T with
      | nil => rfl
      | cons a l ih =>
        simp only [List.map_cons, List.flatten_cons, List.filterMap_append, ih, List.filterMap_map]
        congr 1
        simp only [List.filterMap_cons, List.filterMap_nil, Sum.getLeft?, List.append_nil]
        exact List.filterMap_some
    · refine (hperm.filterMap _).trans (List.Perm.of_eq ?_)
      rw [← range_eq_blockActs (fun tid => (slice all n T tid).sum)]
      induction List.range T with
      | nil => rfl
      | cons a l ih =>
        simp only [List.map_cons, List.flatten_cons, List.filterMap_append, ih, List.filterMap_map]
        rw [show (Sum.getRight? ∘ Sum.inl : (Nat × Nat) → Option (Nat × Nat)) = fun _ => none from rfl]
        simp [Sum.getRight?]

/-- `convertCoo` with the assignment of the iterations and the interleaving of the scatter loop fixed. -/
def convertAt (lw ow T : Nat) (wgt : Bool) (coo : Coo W) (sched : List ScatAct) : R (Csr W) := do
  let n := coo.n
  let m := coo.m
  let j ← R.any (CsrJunk W)
  let (label, starts) ← countDegrees ow T n m coo.x
  let starts := prefixSums 0 starts
  let offsets ← R.par storeAct (offsetThreads n m T label starts) (alloc j.offsets (plusOne lw n))
  let s ← R.lift (runActs (scatStep coo.x coo.y coo.w offsets) sched
    { degs := label, pos := fun _ => none, endpoints := alloc j.endpoints m,
      weights := if wgt then alloc j.weights m else [] })
  pure { offsets := offsets, endpoints := s.endpoints, weights := s.weights, n := n, m := m,
         nrows := coo.nrows, ncols := coo.ncols }

/-- The executions of `convertCoo` are those of `convertAt` for the possible interleavings. -/
theorem convertCoo_out {lw ow T : Nat} (hT : 0 < T) {wgt : Bool} {c : Coo W} {out : M (Csr W)} :
    (convertCoo lw ow T wgt c).Out out ↔ ∃ its sched, OmpFor c.m T its ∧
      Interleave (its.map (fun es => es.flatMap (scatIter wgt))) sched ∧ (convertAt lw ow T wgt c sched).Out out := by
  constructor
  · rintro ⟨o, ho, h⟩
    cases o with
    | error f => exact ⟨_, _, OmpFor.one _ _ hT, interleave_flatten _, .error f, ho, h⟩
    | ok j =>
      obtain ⟨o1, ho1, h⟩ := h
      cases o1 with
      | error f => exact ⟨_, _, OmpFor.one _ _ hT, interleave_flatten _, .ok j, ho, .error f, ho1, h⟩
      | ok ls =>
        obtain ⟨o2, ho2, h⟩ := h
        cases o2 with
        | error f => exact ⟨_, _, OmpFor.one _ _ hT, interleave_flatten _, .ok j, ho, .ok ls, ho1, .error f, ho2, h⟩
        | ok offs =>
          obtain ⟨o3, ⟨its, hits, rfl⟩, h⟩ := h
          obtain ⟨o4, ⟨sched, hs, rfl⟩, h⟩ := h
          exact ⟨its, sched, hits, hs, .ok j, ho, .ok ls, ho1, .ok offs, ho2, _, rfl, h⟩
  · rintro ⟨its, sched, hits, hs, o, ho, h⟩
    refine ⟨o, ho, ?_⟩
    cases o with
    | error f => exact h
    | ok j =>
      obtain ⟨o1, ho1, h⟩ := h
      refine ⟨o1, ho1, ?_⟩
      cases o1 with
      | error f => exact h
      | ok ls =>
        obtain ⟨o2, ho2, h⟩ := h
        refine ⟨o2, ho2, ?_⟩
        cases o2 with
        | error f => exact h
        | ok offs =>
          obtain ⟨o3, ho3, h⟩ := h
          refine ⟨.ok its, ⟨its, hits, rfl⟩, o3, ⟨sched, hs, ho3⟩, h⟩

/-- The executions of `convert_coo_` with a given interleaving of the last loop: the rows list the entries in the order in which
that loop takes them. -/
theorem convertAt_all {lw ow T : Nat} (hT : 0 < T) {wgt : Bool} {c : Coo W} {es : List (Nat × Nat × W)} (hc : Holds c wgt es)
    (hlab : ∀ e ∈ es, e.1 < c.n) (hm : c.m < 2 ^ ow) (hn : Spec.OffsetsFit lw c.n) {its2 : List (List Nat)} (hits2 : OmpFor c.m T its2)
    {sched : List ScatAct} (hs : Interleave (its2.map (fun es => es.flatMap (scatIter wgt))) sched) :
    (convertAt lw ow T wgt c sched).All (fun r => r.m = c.m ∧ r.nrows = c.nrows ∧ r.ncols = c.ncols ∧
      IsCsr r wgt (groupRows c.n ((caps sched).filterMap (fun e => es[e]?)))) := by
  have hmlen : c.m = es.length := hc.m
  unfold convertAt
  simp only [plusOne_fit hn]
  refine R.All.bind R.All.any (fun j _ => ?_)
  let d : W := j.weights 0
  let xe : Nat → Nat := fun e => (es[e]?.map (fun a => a.1)).getD 0
  let ye : Nat → Nat := fun e => (es[e]?.map (fun a => a.2.1)).getD 0
  let we : Nat → W := fun e => (es[e]?.map (fun a => a.2.2)).getD d
  have hxe : ∀ e, e < c.m → c.x[e]? = some (xe e) := by
    intro e he
    rw [hmlen] at he
    simp [hc.x, xe, he]
  have hye : ∀ e, e < c.m → c.y[e]? = some (ye e) := by
    intro e he
    rw [hmlen] at he
    simp [hc.y, ye, he]
  have hwe : wgt = true → ∀ e, e < c.m → c.w[e]? = some (we e) := by
    intro hw e he
    rw [hmlen] at he
    simp [hc.w hw, we, he]
  have hxn : ∀ e, e < c.m → xe e < c.n := by
    intro e he
    rw [hmlen] at he
    simp only [xe, List.getElem?_eq_getElem he, Option.map_some, Option.getD_some]
    exact hlab _ (List.getElem_mem he)
  refine R.All.bind (countDegrees_all hT hxe hxn hm) ?_
  rintro _ rfl
  generalize hall : degsOf xe (List.range c.m) c.n = all
  replace hall := hall.symm
  have halllen : all.length = c.n := by rw [hall]; simp [degsOf]
  -- offsets
  have hsum : all.sum = c.m := by
    rw [hall, degs_sum _ _ _ (fun e he => hxn e (List.mem_range.mp he)), List.length_range]
  refine R.All.bind (P := fun o => o = offsetsOf all) (R.All.par (fun sched hs => ?_)) (fun offs hoffs => ?_)
  · rw [← hsum] at hs
    exact ⟨_, run_offsets hT halllen hs _ (by simp), rfl⟩
  subst hoffs
  -- scatter
  refine R.All.bind (P := fun s => ∃ C, C.Perm (List.range c.m) ∧ C = caps sched ∧
      s.endpoints = (grouped xe C c.n).map ye ∧ (wgt = true → s.weights = (grouped xe C c.n).map we))
    ?_ (fun s hs => ?_)
  · have hperm := hs.perm
    rw [flatten_iters] at hperm
    have hC : (caps sched).Perm (List.range c.m) := by
      have := caps_perm hperm
      rw [caps_iters] at this
      exact this.trans hits2.all
    have hW : (wrs sched).Perm (caps sched) := by
      have := wrs_perm hperm
      rw [wrs_iters] at this
      exact (this.trans hits2.all).trans hC.symm
    have hWW : wgt = true → (wws sched).Perm (caps sched) := by
      intro hw
      have := wws_perm hperm
      rw [hw, wws_iters] at this
      exact (this.trans hits2.all).trans hC.symm
    have hWF : wgt = false → wws sched = [] := by
      intro hw
      have := wws_perm hperm
      rw [hw, wws_iters_false] at this
      exact this.eq_nil
    have hG : Guarded [] sched := Guarded.interleave hs [] (by
      intro l hl
      obtain ⟨es', _, rfl⟩ := List.mem_map.mp hl
      exact scatIters_guarded wgt es')
    have hmem : ∀ e ∈ caps sched, e < c.m := fun e he => List.mem_range.mp (hC.mem_iff.mp he)
    have hnd : (caps sched).Nodup := hC.nodup_iff.mpr List.nodup_range
    have hgp := grouped_perm xe (caps sched) c.n (fun e he => hxn e (hmem e he))
    have hgnd : (grouped xe (caps sched) c.n).Nodup := hgp.nodup_iff.mpr hnd
    have hgl : (grouped xe (caps sched) c.n).length = c.m := by rw [hgp.length_eq, hC.length_eq, List.length_range]
    have slots : ∀ {α : Type} (f : Nat → α) (l : List Nat), l.Perm (caps sched) →
        (l.map (fun e => (slotOf xe (caps sched) c.n e, f e))).Perm (blockActs 0 ((grouped xe (caps sched) c.n).map f)) := by
      intro α f l hl
      have e1 : l.map (fun e => (slotOf xe (caps sched) c.n e, f e)) =
          l.map (fun e => (0 + (grouped xe (caps sched) c.n).idxOf e, f e)) := by
        apply List.map_congr_left
        intro e he
        have he' := hl.mem_iff.mp he
        rw [slot_eq_idxOf _ _ _ _ (hxn e (hmem e he')) he', Nat.zero_add]
      rw [e1, ← idxOf_map_blockActs _ f hgnd 0]
      exact (hl.trans hgp.symm).map _
    have hdeg : all = degsOf xe (caps sched) c.n := by rw [hall, degsOf_perm xe hC]
    obtain ⟨st', h1, h2, h3⟩ := run_scatter (x := c.x) (y := c.y) (w := c.w) (xe := xe) (ye := ye) (we := we) (n := c.n)
      hnd (fun e he => hxe e (hmem e he)) (fun e he => hxn e (hmem e he)) (fun e he => hye e (hmem e he)) sched [] (fun _ => none)
      (alloc j.endpoints c.m) ((grouped xe (caps sched) c.n).map ye) (if wgt then alloc j.weights c.m else [])
      (if wgt then (grouped xe (caps sched) c.n).map we else []) rfl hG
      (by
        intro e he
        cases hw : wgt with
        | true => exact hwe hw e (hmem e ((hWW hw).mem_iff.mp he))
        | false => rw [hWF hw] at he; cases he)
      (by simp)
      (run_fill (slots ye _ hW) _ (by simp [hgl]))
      (by
        cases hw : wgt with
        | true => exact run_fill (slots we _ (hWW hw)) _ (by simp [hgl])
        | false => rw [hWF hw]; rfl)
    refine R.All.lift (a := st') (by dsimp only; rw [hdeg]; exact h1) ⟨caps sched, hC, rfl, h2, ?_⟩
    · intro hw; rw [h3, if_pos hw]
  obtain ⟨C, hC, hC1, he, hw⟩ := hs
  subst hC1
  refine R.All.pure ⟨rfl, rfl, rfl, ?_⟩
  · have hmem : ∀ e ∈ caps sched, e < c.m := fun e he => List.mem_range.mp (hC.mem_iff.mp he)
    have hlook := grouped_lookup es d (caps sched) (fun e he => by rw [← hmlen]; exact hmem e he)
    have hrows : (groupRows c.n ((caps sched).filterMap (fun e => es[e]?))).flatten = (grouped xe (caps sched) c.n).map (fun e => (ye e, we e)) := by
      rw [groupRows, grouped, map_flatMap', List.flatMap_def]
      congr 1
      apply List.map_congr_left
      intro v _
      exact (hlook v).symm
    refine ⟨by simp [groupRows], ?_, ?_, ?_, ?_⟩
    · show c.m = _
      rw [hrows, List.length_map, (grouped_perm xe (caps sched) c.n (fun e he => hxn e (hmem e he))).length_eq, hC.length_eq, List.length_range]
    · show offsetsOf all = _
      rw [hall, ← degsOf_perm xe hC, degsOf, alloc, groupRows, List.map_map]
      congr 1
      apply List.map_congr_left
      intro v _
      show _ = ((((caps sched).filterMap (fun e => es[e]?)).filter (fun e => e.1 == v)).map (fun e => e.2)).length
      rw [← hlook v, List.length_map]
    · show s.endpoints = _
      rw [he, hrows, List.map_map]; rfl
    · intro h
      show s.weights = _
      rw [hw h, hrows, List.map_map]; rfl

/-- All executions of `convert_coo_`: a CSR whose rows list the entries in some order, with one thread in
the order of the COO. -/
theorem convertCoo_all {lw ow T : Nat} (hT : 0 < T) {wgt : Bool} {c : Coo W} {es : List (Nat × Nat × W)} (hc : Holds c wgt es)
    (hlab : ∀ e ∈ es, e.1 < c.n) (hm : c.m < 2 ^ ow) (hn : Spec.OffsetsFit lw c.n) :
    (convertCoo lw ow T wgt c).All (fun r => r.m = c.m ∧ r.nrows = c.nrows ∧ r.ncols = c.ncols ∧
      ∃ es' : List (Nat × Nat × W), es'.Perm es ∧ (T = 1 → es' = es) ∧ IsCsr r wgt (groupRows c.n es')) := by
  intro out hout
  obtain ⟨its, sched, hits, hs, hout⟩ := (convertCoo_out hT).mp hout
  obtain ⟨r, rfl, h1, h2, h3, h4⟩ := convertAt_all hT hc hlab hm hn hits hs out hout
  refine ⟨r, rfl, h1, h2, h3, _, ?_, ?_, h4⟩
  · have hperm := hs.perm
    rw [flatten_iters] at hperm
    have := caps_perm hperm
    rw [caps_iters] at this
    have := (this.trans hits.all).filterMap (fun e => es[e]?)
    rwa [hc.m, filterMap_getElem?_range] at this
  · rintro rfl
    rw [hits.seq] at hs
    rw [Interleave.single hs, caps_iters, hc.m, filterMap_getElem?_range]

/-- There is an execution. -/
theorem convertCoo_any [Nonempty W] {lw ow T : Nat} (hT : 0 < T) (wgt : Bool) (c : Coo W) : (convertCoo lw ow T wgt c).Any := by
  obtain ⟨d⟩ := ‹Nonempty W›
  have : Nonempty (CsrJunk W) := ⟨⟨fun _ => 0, fun _ => 0, fun _ => d⟩⟩
  unfold convertCoo countDegrees
  refine R.Any.bind R.Any.any (fun _ => R.Any.bind (R.Any.bind R.Any.any (fun _ => R.Any.bind R.Any.any (fun _ =>
    R.Any.bind R.Any.any (fun _ => R.Any.bind (R.Any.choose (OmpFor.one _ _ hT)) (fun _ => R.Any.bind (R.Any.par ..) (fun _ =>
    R.Any.bind (R.Any.choose (OmpFor.one _ _ hT)) (fun _ => R.Any.bind (R.Any.par ..) (fun _ => R.Any.par ..))))))))
    (fun _ => R.Any.bind (R.Any.par ..) (fun _ => R.Any.bind (R.Any.choose (OmpFor.one _ _ hT)) (fun _ => R.Any.bind (R.Any.par ..) (fun _ =>
    R.Any.pure _)))))

end Pigo
