import Verif.Spec.Retype
import Verif.Lemmas.RetypeDups
import Verif.Props.CrossFile
import Verif.Props.CsrSort
import Verif.Props.Cut

/-!
# C102: conversions between objects of different label, ordinal and weight types
-/

namespace Pigo

variable {W V : Type}

/-! ## COO to CSR -/

/-- What the conversion gives in terms of the truncated entries. -/
theorem convertCooTo_trunc {lw ow T : Nat} (hT : 0 < T) {wgt : Bool} {conv : W → V} {c : Coo W} {es : List (Nat × Nat × W)} (hc : Holds c wgt es)
    (hlab : ∀ e ∈ Spec.truncated lw ow conv es, e.1 < c.n % 2 ^ lw) (hfit : Spec.OffsetsFit lw (c.n % 2 ^ lw)) :
    (convertCooTo lw ow T wgt conv c).All (fun r => Spec.RowsOf r wgt (c.n % 2 ^ lw) (Spec.truncated lw ow conv es) ∧
      r.nrows = c.nrows % 2 ^ lw ∧ r.ncols = c.ncols % 2 ^ lw) := by
  rw [convertCooTo_eq, convertCoo_first]
  have hh := castCoo_holds (lw := lw) (ow := ow) (conv := conv) hc
  refine (convertCoo_all hT hh hlab (narrow_bound _ _) hfit).mono ?_
  rintro r ⟨h1, h2, h3, es', h4, _, h5⟩
  exact ⟨rowsOf_of ⟨by rw [h5.n]; simp [groupRows]; rfl, h1, h2, h3, es', h4, h5⟩ hh rfl, h2, h3⟩

theorem truncated_fit {lw ow n nr nc : Nat} {conv : W → V} {es : List (Nat × Nat × W)} (h : Spec.Fits lw ow n nr nc es) :
    Spec.truncated lw ow conv es = Spec.reweighted conv es := by
  unfold Spec.truncated Spec.reweighted
  rw [Nat.mod_eq_of_lt h.m, List.take_length]
  apply List.map_congr_left
  intro e he
  rw [Nat.mod_eq_of_lt (h.cols e he), Nat.mod_eq_of_lt (Nat.lt_trans (h.rows e he) h.n)]

/-- C102: a CSR built from a COO with other label, ordinal and weight types holds the same graph, with converted weights, if the
sizes and the labels fit in the types of the CSR; any number of threads, any schedule. -/
theorem C102_coo_to_csr (lw ow T : Nat) (hT : 0 < T) (wgt : Bool) (conv : W → V) (c : Coo W) (es : List (Nat × Nat × W)) (n nr nc : Nat)
    (hc : Spec.CooIs c wgt es n nr nc) (hfit : Spec.Fits lw ow n nr nc es) :
    (convertCooTo lw ow T wgt conv c).All (fun r => Spec.RowsOf r wgt n (Spec.reweighted conv es) ∧ r.nrows = nr ∧ r.ncols = nc) := by
  have e := truncated_fit (conv := conv) hfit
  obtain ⟨hh, hn, hr, hcc⟩ := hc
  have h := convertCooTo_trunc (lw := lw) (ow := ow) (conv := conv) hT hh (by
    rw [e, hn, Nat.mod_eq_of_lt hfit.n]
    intro x hx
    obtain ⟨y, hy, rfl⟩ := List.mem_map.mp hx
    exact hfit.rows y hy) (by rw [hn, Nat.mod_eq_of_lt hfit.n]; exact hfit.offsets)
  rwa [e, hn, hr, hcc, Nat.mod_eq_of_lt hfit.n, Nat.mod_eq_of_lt hfit.nrows, Nat.mod_eq_of_lt hfit.ncols] at h

/-- C102, values that do not fit: sizes and labels are cut to the low bits, entries beyond the number that `O` can count are
dropped, and no execution reports anything — as long as the cut labels are below the cut `n`. -/
theorem C102_truncated (lw ow T : Nat) (hT : 0 < T) (wgt : Bool) (conv : W → V) (c : Coo W) (es : List (Nat × Nat × W))
    (hc : Holds c wgt es) (hlab : ∀ e ∈ Spec.truncated lw ow conv es, e.1 < c.n % 2 ^ lw) (hfit : Spec.OffsetsFit lw (c.n % 2 ^ lw)) :
    (convertCooTo lw ow T wgt conv c).All (fun r => Spec.RowsOf r wgt (c.n % 2 ^ lw) (Spec.truncated lw ow conv es) ∧
      r.nrows = c.nrows % 2 ^ lw ∧ r.ncols = c.ncols % 2 ^ lw) :=
  convertCooTo_trunc hT hc hlab hfit

/-- The increments of the degrees with a label outside of the array. -/
theorem runInc_outside {ow : Nat} {x : List Nat} : ∀ (sched degs : List Nat) (k : Nat), (∀ d ∈ degs, d ≤ k) → k + sched.length < 2 ^ ow →
    (∃ e ∈ sched, ∀ v, x[e]? = some v → degs.length ≤ v) → runActs (incAct ow x) sched degs = .error .oob
  | [], _, _, _, _, h => by obtain ⟨_, h, _⟩ := h; cases h
  | e :: sched, degs, k, hk, hb, h => by
    rw [runActs, incAct]
    simp only [List.length_cons] at hb
    cases hx : x[e]? with
    | none => simp only [load, hx]; rfl
    | some v =>
      have hlx : load x e = .ok v := by simp only [load, hx]
      rw [hlx, ok_bind]
      by_cases hv : v < degs.length
      · have hld : load degs v = .ok degs[v] := by simp only [load, List.getElem?_eq_getElem hv]
        rw [hld, ok_bind]
        have hd := hk _ (List.getElem_mem hv)
        rw [if_pos (by omega), store, if_pos hv, ok_bind]
        refine runInc_outside sched _ (k + 1) ?_ (by omega) ?_
        · intro d hdm
          rcases List.mem_or_eq_of_mem_set hdm with hdm | rfl
          · have := hk d hdm; omega
          · omega
        · obtain ⟨e', he', hout⟩ := h
          rcases List.mem_cons.mp he' with rfl | he'
          · have := hout v hx; omega
          · exact ⟨e', he', fun u hu => by rw [List.length_set]; exact hout u hu⟩
      · have hld : load degs v = .error .oob := by simp only [load, List.getElem?_eq_none (Nat.le_of_not_lt hv)]
        rw [hld]; rfl

theorem countDegrees_outside {ow T n m : Nat} {x : List Nat} (hm : m < 2 ^ ow) (h : ∃ e, e < m ∧ ∀ v, x[e]? = some v → n ≤ v) :
    (countDegrees ow T n m x).Outside := by
  unfold countDegrees
  refine R.Outside.after R.All.any (fun j1 _ => R.Outside.after R.All.any (fun j2 _ => R.Outside.after R.All.any (fun j3 _ => ?_)))
  refine R.Outside.after (R.All.choose (Q := OmpFor n T) (fun _ h => h)) (fun its hits => ?_)
  refine R.Outside.after (Q := fun a => a = alloc (fun _ => 0) n) (R.All.par (fun sched hs => ⟨_, fill_dyn hits.dyn (fun _ => 0) hs _ (by simp), rfl⟩)) ?_
  rintro all rfl
  refine R.Outside.after (R.All.choose (Q := OmpFor m T) (fun _ h => h)) (fun its2 hits2 => ?_)
  refine R.Outside.bind_left ?_
  rintro out ⟨sched, hs, rfl⟩
  have hp := hs.perm.trans hits2.all
  refine runInc_outside sched _ 0 ?_ (by rw [hp.length_eq, List.length_range]; omega) ?_
  · intro d hd
    simp only [alloc, List.mem_map] at hd
    obtain ⟨_, _, rfl⟩ := hd
    exact Nat.le_refl 0
  · obtain ⟨e, he, hv⟩ := h
    exact ⟨e, hp.mem_iff.mpr (List.mem_range.mpr he), fun v hx => by rw [alloc_length]; exact hv v hx⟩

/-- C102, values that do not fit: if a cut row label is not below the cut `n`, every execution accesses memory outside of the
arrays. -/
theorem C102_outside (lw ow T : Nat) (wgt : Bool) (conv : W → V) (c : Coo W) (es : List (Nat × Nat × W))
    (hc : Holds c wgt es) (hlab : ∃ e ∈ Spec.truncated lw ow conv es, c.n % 2 ^ lw ≤ e.1) :
    ∀ out, (convertCooTo lw ow T wgt conv c).Out out → out = .error .oob := by
  rw [convertCooTo_eq, convertCoo_first]
  have hh := castCoo_holds (lw := lw) (ow := ow) (conv := conv) hc
  show R.Outside _
  unfold convertCoo
  refine R.Outside.after R.All.any (fun j _ => R.Outside.bind_left (countDegrees_outside (narrow_bound _ _) ?_))
  obtain ⟨e, he, hle⟩ := hlab
  obtain ⟨i, hi, rfl⟩ := List.mem_iff_getElem.mp he
  refine ⟨i, ?_, ?_⟩
  · rw [hh.m]; exact hi
  · intro v hv
    rw [hh.x, List.getElem?_map, show (es.take (narrow ow es.length)).map (castEntry lw conv) = Spec.truncated lw ow conv es from rfl,
      List.getElem?_eq_getElem hi] at hv
    injection hv with hv
    rw [← hv]; exact hle

/-- C102 does not hold for labels that do not fit: the COO of the loop at vertex `2^lw` (so `n = 2^lw + 1`) becomes the CSR of one
vertex with a loop at vertex 0, in every execution and without an error. -/
theorem C102_wrong_vertex_violated (lw ow T : Nat) (hT : 0 < T) (hlw : 0 < lw) (how : 0 < ow) :
    let c : Coo Unit := { x := [2 ^ lw], y := [2 ^ lw], w := [], n := 2 ^ lw + 1, m := 1, nrows := 2 ^ lw + 1, ncols := 2 ^ lw + 1 }
    (convertCooTo lw ow T false (fun w => w) c).Any ∧
    (convertCooTo lw ow T false (fun w => w) c).All (fun r => r.n = 1 ∧ r.m = 1 ∧ Spec.row r 0 = [0]) := by
  intro c
  have hp : 1 < 2 ^ lw := Nat.one_lt_two_pow (by omega)
  have hpo : 1 < 2 ^ ow := Nat.one_lt_two_pow (by omega)
  have hmod : (2 ^ lw + 1) % 2 ^ lw = 1 := by rw [Nat.add_mod_left, Nat.mod_eq_of_lt hp]
  have hh : Holds c false [(2 ^ lw, 2 ^ lw, ())] := ⟨rfl, rfl, rfl, fun h => by cases h⟩
  have ht : Spec.truncated lw ow (fun w => w) [(2 ^ lw, 2 ^ lw, ())] = [(0, 0, ())] := by
    simp [Spec.truncated, Nat.mod_eq_of_lt hpo]
  refine ⟨by rw [convertCooTo_eq]; exact convertCoo_any hT _ _, ?_⟩
  have hfit : Spec.OffsetsFit lw 1 := by
    by_cases h : lw < 32
    · exact .inl h
    · exact .inr (Nat.lt_of_lt_of_le (by decide : 1 + 1 < 2 ^ 32) (Nat.pow_le_pow_right (by omega) (by omega)))
  have h := convertCooTo_trunc (lw := lw) (ow := ow) (conv := fun w => w) hT hh (by
    rw [ht]
    intro e he
    rw [List.mem_singleton] at he
    subst he
    show 0 < (2 ^ lw + 1) % 2 ^ lw
    omega) (by show Spec.OffsetsFit lw ((2 ^ lw + 1) % 2 ^ lw); rw [hmod]; exact hfit)
  refine h.mono ?_
  rintro r ⟨hr, _, _⟩
  have hn : c.n % 2 ^ lw = 1 := hmod
  rw [ht, hn] at hr
  refine ⟨hr.size, hr.m, ?_⟩
  have := hr.rows 0 (by omega)
  exact List.perm_singleton.mp this

/-- C102 does not hold for more entries than the ordinal type counts: `2^ow` entries or more are cut to `m mod 2^ow`, silently.
Here: `2^ow` entries become none. -/
theorem C102_lost_entries_violated (lw ow T : Nat) (hT : 0 < T) (hlw : 0 < lw) (wgt : Bool) (conv : W → V) (c : Coo W)
    (es : List (Nat × Nat × W)) (n nr nc : Nat) (hc : Spec.CooIs c wgt es n nr nc) (hn : n < 2 ^ lw) (hfit : Spec.OffsetsFit lw n)
    (hm : es.length = 2 ^ ow) :
    (convertCooTo lw ow T wgt conv c).All (fun r => r.n = n ∧ r.m = 0 ∧ ∀ v, v < n → Spec.row r v = []) := by
  obtain ⟨hh, hcn, _, _⟩ := hc
  have ht : Spec.truncated lw ow conv es = [] := by simp [Spec.truncated, hm]
  have h := convertCooTo_trunc (lw := lw) (ow := ow) (conv := conv) hT hh (by rw [ht]; intro e he; cases he)
    (by rw [hcn, Nat.mod_eq_of_lt hn]; exact hfit)
  refine h.mono ?_
  rintro r ⟨hr, _, _⟩
  rw [ht, hcn, Nat.mod_eq_of_lt hn] at hr
  exact ⟨hr.size, hr.m, fun v hv => List.perm_nil.mp (hr.rows v hv)⟩

/-! ## DiGraph and Matrix -/

theorem fits_transposed {lw ow n nr nc : Nat} {es : List (Nat × Nat × W)} (h : Spec.Fits lw ow n nr nc es) (hc : ∀ e ∈ es, e.2.1 < n) :
    Spec.Fits lw ow n nr nc (Spec.transposed es) where
  rows := by
    intro e he
    obtain ⟨x, hx, rfl⟩ := List.mem_map.mp he
    exact hc x hx
  cols := by
    intro e he
    obtain ⟨x, hx, rfl⟩ := List.mem_map.mp he
    exact Nat.lt_trans (h.rows x hx) h.n
  n := h.n
  offsets := h.offsets
  nrows := h.nrows
  ncols := h.ncols
  m := by rw [Spec.transposed, List.length_map]; exact h.m

/-- C102: a DiGraph built from a COO of other types holds the graph: the out-graph its entries, the in-graph its transposed
entries. -/
theorem C102_digraph (lw ow T : Nat) (hT : 0 < T) (wgt : Bool) (conv : W → V) (c : Coo W) (es : List (Nat × Nat × W)) (n nr nc : Nat)
    (hc : Spec.CooIs c wgt es n nr nc) (hfit : Spec.Fits lw ow n nr nc es) (hcol : ∀ e ∈ es, e.2.1 < n) :
    (fromCooTo lw ow T wgt conv c).All (fun g => Spec.RowsOf g.outG wgt n (Spec.reweighted conv es) ∧
      Spec.RowsOf g.inG wgt n (Spec.transposed (Spec.reweighted conv es)) ∧ g.outG.nrows = nr ∧ g.outG.ncols = nc) := by
  obtain ⟨hx, hy, hw⟩ := holds_lengths hc.holds
  refine R.All.bind (copyCoo_all hx hy hw) (fun cp hcp => ?_)
  have h1 : Holds (transposeCoo cp) wgt (Spec.transposed es) := by rw [hcp]; exact transpose_holds (copy_holds hc.holds)
  have h2 : Spec.CooIs (transposeCoo cp) wgt (Spec.transposed es) n nr nc := ⟨h1, by rw [hcp]; exact hc.n, by rw [hcp]; exact hc.nrows,
    by rw [hcp]; exact hc.ncols⟩
  refine R.All.bind (C102_coo_to_csr lw ow T hT wgt conv _ _ n nr nc h2 (fits_transposed hfit hcol)) (fun i hi => ?_)
  refine R.All.bind (C102_coo_to_csr lw ow T hT wgt conv _ _ n nr nc hc hfit) (fun o ho => R.All.pure ⟨ho.1, ?_, ho.2⟩)
  have := hi.1
  rwa [show Spec.reweighted conv (Spec.transposed es) = Spec.transposed (Spec.reweighted conv es) by
    simp [Spec.reweighted, Spec.transposed]] at this

/-- C102: a Matrix built from a COO of other types. -/
theorem C102_matrix (lw ow T : Nat) (hT : 0 < T) (wgt : Bool) (conv : W → V) (c : Coo W) (es : List (Nat × Nat × W)) (n nr nc : Nat)
    (hc : Spec.CooIs c wgt es n nr nc) (hfit : Spec.Fits lw ow n nr nc es) (hcol : ∀ e ∈ es, e.2.1 < n) :
    (matrixFromCooTo lw ow T wgt conv c).All (fun a => Spec.RowsOf a.csr wgt n (Spec.reweighted conv es) ∧
      Spec.RowsOf a.csc wgt n (Spec.transposed (Spec.reweighted conv es)) ∧ a.nrows = nr ∧ a.ncols = nc) := by
  obtain ⟨hx, hy, hw⟩ := holds_lengths hc.holds
  refine R.All.bind (copyCoo_all hx hy hw) (fun cp hcp => ?_)
  have h1 : Holds (transposeCoo cp) wgt (Spec.transposed es) := by rw [hcp]; exact transpose_holds (copy_holds hc.holds)
  have h2 : Spec.CooIs (transposeCoo cp) wgt (Spec.transposed es) n nr nc := ⟨h1, by rw [hcp]; exact hc.n, by rw [hcp]; exact hc.nrows,
    by rw [hcp]; exact hc.ncols⟩
  refine R.All.bind (C102_coo_to_csr lw ow T hT wgt conv _ _ n nr nc h2 (fits_transposed hfit hcol)) (fun i hi => ?_)
  refine R.All.bind (C102_coo_to_csr lw ow T hT wgt conv _ _ n nr nc hc hfit) (fun o ho => R.All.pure ⟨ho.1, ?_, ho.2⟩)
  have := hi.1
  rwa [show Spec.reweighted conv (Spec.transposed es) = Spec.transposed (Spec.reweighted conv es) by
    simp [Spec.reweighted, Spec.transposed]] at this

/-! ## CSR to COO -/

theorem castCsr_valid {lw ow : Nat} {conv : W → V} {wgt : Bool} {c : Csr W} (h : Spec.ValidCsr c wgt) (hn : c.n < 2 ^ lw) (hm : c.m < 2 ^ ow) :
    Spec.ValidCsr (castCsr lw ow conv c) wgt where
  offsets := by rw [castCsr, narrow_lt hn]; exact h.offsets
  first := h.first
  mono := by
    intro v hv
    rw [castCsr, narrow_lt hn] at hv
    exact h.mono v hv
  last := by
    show Spec.off c (narrow lw c.n) = narrow ow c.m
    rw [narrow_lt hn, narrow_lt hm]; exact h.last
  endpoints := by
    show (c.endpoints.map _).length = narrow ow c.m
    rw [List.length_map, narrow_lt hm]; exact h.endpoints
  weights := fun hw => by
    show (c.weights.map _).length = narrow ow c.m
    rw [List.length_map, narrow_lt hm]; exact h.weights hw

theorem castCsr_row {lw ow : Nat} {conv : W → V} {c : Csr W} (hl : ∀ u ∈ c.endpoints, u < 2 ^ lw) (v : Nat) :
    Spec.row (castCsr lw ow conv c) v = Spec.row c v := by
  show ((c.endpoints.map (narrow lw)).drop _).take _ = _
  rw [map_narrow hl]; rfl

theorem castCsr_pairs {lw ow : Nat} {conv : W → V} {c : Csr W} (hn : c.n < 2 ^ lw) (hl : ∀ u ∈ c.endpoints, u < 2 ^ lw) :
    Spec.pairs (castCsr lw ow conv c) = Spec.pairs c := by
  unfold Spec.pairs
  rw [show (castCsr lw ow conv c).n = c.n from narrow_lt hn]
  exact flatMap_congr' (fun v _ => by rw [castCsr_row hl])

theorem castCsr_triples {lw ow : Nat} {conv : W → V} {c : Csr W} (hn : c.n < 2 ^ lw) (hl : ∀ u ∈ c.endpoints, u < 2 ^ lw) :
    Spec.triples (castCsr lw ow conv c) = Spec.reweighted conv (Spec.triples c) := by
  unfold Spec.triples Spec.reweighted
  rw [show (castCsr lw ow conv c).n = c.n from narrow_lt hn, map_flatMap']
  refine flatMap_congr' (fun v _ => ?_)
  rw [castCsr_row hl, show Spec.rowWeights (castCsr lw ow conv c) v = (Spec.rowWeights c v).map conv from by
    show ((c.weights.map conv).drop _).take _ = _
    rw [← List.map_drop, ← List.map_take]; rfl, List.zip_map_right, List.map_map, List.map_map]
  rfl

/-- C102: a COO built from a CSR of other types has the entries of the CSR in order, each stored as the flags of the COO say, if the
sizes and the labels fit. -/
theorem C102_csr_to_coo [Inhabited V] (lw ow T : Nat) (stor : Storage) (cfg : Cfg) (wgt : Bool) (conv : W → V) (c : Csr W)
    (hc : Spec.ValidCsr c wgt) (hs : wgt = true → stor ≠ .vector) (hsl : cfg.sl = false) (hut : cfg.ut = true → cfg.sym = true)
    (hn : c.n < 2 ^ lw) (hl : ∀ u ∈ c.endpoints, u < 2 ^ lw) (hm : (if cfg.sym && !cfg.ut then 2 else 1) * c.m < 2 ^ ow) :
    (convertCsrTo lw ow T stor cfg wgt conv c).All (fun r => r.n = c.n ∧ r.x.length = r.m ∧ r.y.length = r.m ∧
      r.x.zip r.y = (Spec.pairs c).flatMap (Spec.flagged cfg)) := by
  have hm1 : c.m < 2 ^ ow := by split at hm <;> omega
  have hv := castCsr_valid (conv := conv) hc hn hm1
  have hi := isCsr_of_valid hv (default : V)
  rw [convertCsrTo_eq]
  refine (convertCsr_all (T := T) (ow := ow) hi hs hsl hut ?_).mono (fun r hr => ?_)
  · rw [show (castCsr lw ow conv c).m = c.m from narrow_lt hm1]
    unfold csrFactor
    split at hm
    · rename_i h; rw [if_pos h]; exact hm
    · rename_i h; rw [if_neg h]; exact hm
  · obtain ⟨h1, hh⟩ := hr
    obtain ⟨a1, a2, a3⟩ := holds_xy hh
    refine ⟨by rw [h1]; exact narrow_lt hn, a2, a3, ?_⟩
    rw [a1, csrEntries_xy hi cfg, castCsr_pairs hn hl]
    exact flatMap_congr' (fun p _ => csrEntry_flagged p)

/-- C102 with weights: every stored entry carries the converted weight of its CSR entry. -/
theorem C102_csr_to_coo_weighted [Inhabited V] (lw ow T : Nat) (stor : Storage) (cfg : Cfg) (conv : W → V) (c : Csr W)
    (hc : Spec.ValidCsr c true) (hs : stor ≠ .vector) (hsl : cfg.sl = false) (hut : cfg.ut = true → cfg.sym = true)
    (hn : c.n < 2 ^ lw) (hl : ∀ u ∈ c.endpoints, u < 2 ^ lw) (hm : (if cfg.sym && !cfg.ut then 2 else 1) * c.m < 2 ^ ow) :
    (convertCsrTo lw ow T stor cfg true conv c).All (fun r => r.n = c.n ∧
      Holds r true ((Spec.triples c).flatMap (fun t => (Spec.flagged cfg (t.1, t.2.1)).map (fun q => (q.1, q.2, conv t.2.2))))) := by
  have hm1 : c.m < 2 ^ ow := by split at hm <;> omega
  have hv := castCsr_valid (conv := conv) hc hn hm1
  have hi := isCsr_of_valid hv (default : V)
  rw [convertCsrTo_eq]
  refine (convertCsr_all (T := T) (ow := ow) hi (fun _ => hs) hsl hut ?_).mono (fun r hr => ?_)
  · rw [show (castCsr lw ow conv c).m = c.m from narrow_lt hm1]
    unfold csrFactor
    split at hm
    · rename_i h; rw [if_pos h]; exact hm
    · rename_i h; rw [if_neg h]; exact hm
  · obtain ⟨h1, hh⟩ := hr
    refine ⟨by rw [h1]; exact narrow_lt hn, ?_⟩
    rw [csrEntries_triples hi cfg, castCsr_triples hn hl, Spec.reweighted, List.flatMap_map] at hh
    have e : (Spec.triples c).flatMap (fun t => (csrEntry cfg t.1 t.2.1).map (fun q => (q.1, q.2, conv t.2.2))) =
        (Spec.triples c).flatMap (fun t => (Spec.flagged cfg (t.1, t.2.1)).map (fun q => (q.1, q.2, conv t.2.2))) :=
      flatMap_congr' (fun t _ => by rw [csrEntry_flagged (cfg := cfg) (t.1, t.2.1)])
    rw [← e]
    exact hh

end Pigo
