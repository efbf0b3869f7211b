import Verif.Lemmas.GraphLoad
import Verif.Lemmas.CsrRows

/-!
# The CSR loaded from a `.graph` file whose text ends with a newline (or has no integer after the last one)
-/

namespace Pigo

variable {W : Type}

/-- The CSR of `rows`, the first of them having number `base`, whose header declares `n` vertices. -/
def graphCsr (lw n base : Nat) (rows : List (List Nat)) : Csr W :=
  { offsets := List.replicate (base + 1) 0 ++ prefixSums 0 (rows.map List.length), endpoints := rows.flatten, weights := []
    n := n, m := rows.flatten.length, nrows := base + rows.length, ncols := (Spec.maxOf rows.flatten + 1) % 2 ^ lw }

/-- The outcome: the checks on the header, then the CSR. -/
def graphResult (lw ow n m base : Nat) (rows : List (List Nat)) : M (Csr W) :=
  if rows.flatten.length ≠ twice ow m ∧ rows.flatten.length ≠ m then .error .error
  else if base + rows.length < n then .error .error
  else .ok (graphCsr lw n base rows)

/-- The non-leading rows of the body as numbers. -/
noncomputable def keptRows (body : List (List Byte)) : List (List Nat) := (Spec.adjacency body).dropWhile List.isEmpty

theorem keptRows_eq (body : List (List Byte)) : keptRows body = (loadedRows body).map (fun r => r.map decVal) := by
  unfold keptRows loadedRows Spec.adjacency
  induction body with
  | nil => rfl
  | cons l body ih =>
    rw [List.map_cons, List.map_cons, List.dropWhile_cons, List.dropWhile_cons, List.isEmpty_map]
    split
    · exact ih
    · rw [List.map_cons, List.map_map]
      congr 1
      · exact List.map_congr_left (fun r _ => decimal_eq r)
      · refine List.map_congr_left (fun r _ => ?_)
        exact List.map_congr_left (fun r _ => decimal_eq r)

theorem adjacency_flatten (body : List (List Byte)) : (keptRows body).flatten = (Spec.adjacency body).flatten := flatten_dropWhile _

theorem loadGraph_result {μ : Mapping} (hpad : 0 < μ.pad) {n m : Nat} {body : List (List Byte)} {tail : List Byte}
    (h : Spec.GraphFile μ.bytes n m body tail) (htail : Spec.digitRuns tail = []) {lw ow T : Nat} (hT : 0 < T)
    (hn : fileBase body tail + (keptRows body).length + 1 < 2 ^ lw) (hm : (Spec.adjacency body).flatten.length < 2 ^ ow)
    (hl : ∀ u ∈ (Spec.adjacency body).flatten, u < 2 ^ lw) (out : M (Csr W)) :
    LoadGraph μ lw ow T out ↔ out = graphResult lw ow (n % 2 ^ lw) (m % 2 ^ ow) (fileBase body tail) (keptRows body) := by
  have e1 : (loadedRows body).length = (keptRows body).length := by rw [keptRows_eq, List.length_map]
  have e2 : (loadedRows body).flatten.map decVal = (keptRows body).flatten := by rw [keptRows_eq, List.map_flatten]
  have e3 : (loadedRows body).flatten.map (rval lw) = (keptRows body).flatten := by
    rw [← e2]
    refine List.map_congr_left (fun r hr => ?_)
    have : decVal r ∈ (Spec.adjacency body).flatten := by
      rw [← adjacency_flatten, ← e2]; exact List.mem_map_of_mem hr
    exact Nat.mod_eq_of_lt (hl _ this)
  have e4 : ((loadedRows body).flatten ++ Spec.digitRuns tail).length = (keptRows body).flatten.length := by
    rw [htail, List.append_nil, ← e2, List.length_map]
  have e5 : (loadedRows body).map List.length = (keptRows body).map List.length := by
    rw [keptRows_eq, List.map_map]
    exact List.map_congr_left (fun r _ => by simp)
  rw [loadGraph_iff hpad h hT (by rw [e1]; exact hn) (by rw [e4, adjacency_flatten]; exact hm)]
  have e6 : graphOffsets (fileBase body tail) (loadedRows body) (Spec.digitRuns tail) =
      List.replicate (fileBase body tail + 1) 0 ++ prefixSums 0 ((keptRows body).map List.length) := by
    unfold graphOffsets
    split
    · rename_i h0
      have : keptRows body = [] := by rw [keptRows_eq, h0]; rfl
      rw [this, htail, List.replicate_succ']
      simp [prefixSums]
    · rw [e5]
  have key : ∀ junk : List Nat, junk.length = (Spec.digitRuns tail).length →
      graphFinish (W := W) lw ow { readN := n % 2 ^ lw, readM := m % 2 ^ ow, n := fileBase body tail + (loadedRows body).length
                                   m := ((loadedRows body).flatten ++ Spec.digitRuns tail).length, base := fileBase body tail
                                   threads := [], colMax := ((loadedRows body).flatten.map (rval lw)).foldl max 0 }
        (graphOffsets (fileBase body tail) (loadedRows body) (Spec.digitRuns tail))
        ((loadedRows body).flatten.map (rval lw) ++ junk) =
      graphResult lw ow (n % 2 ^ lw) (m % 2 ^ ow) (fileBase body tail) (keptRows body) := by
    intro junk hj
    rw [htail] at hj
    have hj : junk = [] := List.length_eq_zero_iff.mp hj
    subst hj
    rw [e6, e3, e4, e1, List.append_nil]
    rfl
  constructor
  · rintro ⟨junk, hj, rfl⟩
    exact key junk hj
  · rintro rfl
    exact ⟨List.replicate (Spec.digitRuns tail).length 0, by simp, (key _ (by simp)).symm⟩

/-! ## Rows -/

theorem graphCsr_off (lw n base : Nat) (rows : List (List Nat)) (i : Nat) (hi : i ≤ rows.length) :
    Spec.off (graphCsr lw n base rows : Csr W) (base + i) = (rows.take i).flatten.length := by
  unfold Spec.off graphCsr
  simp only
  cases i with
  | zero =>
    rw [List.getD_eq_getElem?_getD, List.getElem?_append_left (by simp), List.getElem?_replicate]
    simp
  | succ i =>
    rw [List.getD_eq_getElem?_getD, List.getElem?_append_right (by simp), List.length_replicate,
      show base + (i + 1) - (base + 1) = i from by omega, ← List.getD_eq_getElem?_getD,
      prefixSums_getD _ _ _ (by rw [List.length_map]; omega), ← List.map_take, List.length_flatten]
    omega

theorem graphCsr_off_zero (lw n base : Nat) (rows : List (List Nat)) (i : Nat) (hi : i ≤ base) :
    Spec.off (graphCsr lw n base rows : Csr W) i = 0 := by
  unfold Spec.off graphCsr
  simp only
  rw [List.getD_eq_getElem?_getD, List.getElem?_append_left (by simp; omega), List.getElem?_replicate]
  split <;> rfl

theorem graphCsr_row (lw n base : Nat) (rows : List (List Nat)) {i : Nat} {r : List Nat} (hr : rows[i]? = some r) :
    Spec.row (graphCsr lw n base rows : Csr W) (base + i) = r := by
  obtain ⟨hi, _⟩ := List.getElem?_eq_some_iff.mp hr
  unfold Spec.row
  rw [graphCsr_off _ _ _ _ i (by omega), Nat.add_assoc, graphCsr_off _ _ _ _ (i + 1) (by omega), flatten_take_succ rows hr,
    List.length_append, Nat.add_sub_cancel_left]
  exact flatten_slice rows hr

theorem graphCsr_row_zero (lw n : Nat) (rows : List (List Nat)) : Spec.row (graphCsr lw n 1 rows : Csr W) 0 = [] := by
  unfold Spec.row
  rw [graphCsr_off_zero _ _ _ _ _ (by omega), graphCsr_off_zero _ _ _ _ _ (by omega)]
  simp

theorem graphCsr_valid (lw n base : Nat) (rows : List (List Nat)) (hn : n = base + rows.length) :
    Spec.ValidCsr (graphCsr lw n base rows : Csr W) false where
  offsets := by simp [graphCsr, prefixSums_length, hn]; omega
  first := graphCsr_off_zero _ _ _ _ _ (by omega)
  mono := by
    intro v hv
    have hv : v < n := hv
    by_cases h : v < base
    · rw [graphCsr_off_zero _ _ _ _ v (by omega)]; omega
    · obtain ⟨i, rfl⟩ : ∃ i, v = base + i := ⟨v - base, by omega⟩
      rw [graphCsr_off _ _ _ _ i (by omega), Nat.add_assoc, graphCsr_off _ _ _ _ (i + 1) (by omega),
        flatten_take_succ rows (List.getElem?_eq_getElem (by omega)), List.length_append]
      omega
  last := by
    show Spec.off _ n = _
    rw [hn, graphCsr_off _ _ _ _ rows.length (by omega), List.take_length]
    rfl
  endpoints := rfl
  weights := by intro h; cases h

end Pigo
