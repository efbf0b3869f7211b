import Verif.Model.Examples
import Verif.Spec.Examples
import Verif.Props.CsrFile
import Verif.Props.CsrSort
import Verif.Props.Write

/-!
# Lemmas for the example programs
-/

namespace Pigo

/-! ## binary search -/

/-- `lower_bound` in a sorted range: the first position whose element is not smaller. -/
theorem lowerBound_ok {a : List Nat} {val : Nat} : ∀ (fuel first len : Nat), len < fuel → first + len ≤ a.length →
    ((a.drop first).take len).Pairwise (· ≤ ·) →
    ∃ i, lowerBound a val fuel first len = .ok i ∧ first ≤ i ∧ i ≤ first + len ∧
      (∀ k x, first ≤ k → k < i → a[k]? = some x → x < val) ∧
      (∀ k x, i ≤ k → k < first + len → a[k]? = some x → val ≤ x) := by
  intro fuel
  induction fuel with
  | zero => intro first len h; omega
  | succ fuel ih =>
    intro first len hf hl hs
    rw [lowerBound]
    by_cases h0 : len = 0
    · rw [if_pos h0]
      exact ⟨first, rfl, by omega, by omega, fun k x h1 h2 => by omega, fun k x h1 h2 => by omega⟩
    · rw [if_neg h0]
      have hmid : first + len / 2 < a.length := by omega
      have hget := List.getElem?_eq_getElem hmid
      generalize a[first + len / 2] = x at hget
      have key : ∀ k l : Nat, ∀ y z, first ≤ k → k ≤ l → l < first + len → a[k]? = some y → a[l]? = some z → y ≤ z := by
        intro k l y z h1 h2 h3 hk hl'
        rcases Nat.eq_or_lt_of_le h2 with h2 | h2
        · subst h2; rw [hk] at hl'; injection hl' with h; omega
        · rw [List.pairwise_iff_getElem] at hs
          have hlen : ((a.drop first).take len).length = len := by simp; omega
          have e1 := hs (k - first) (l - first) (by omega) (by omega) (by omega)
          have g1 : ((a.drop first).take len)[k - first]? = some y := by
            rw [List.getElem?_take, if_pos (by omega), List.getElem?_drop, show first + (k - first) = k by omega, hk]
          have g2 : ((a.drop first).take len)[l - first]? = some z := by
            rw [List.getElem?_take, if_pos (by omega), List.getElem?_drop, show first + (l - first) = l by omega, hl']
          rw [List.getElem?_eq_getElem (by omega)] at g1 g2
          injection g1 with g1
          injection g2 with g2
          rw [g1, g2] at e1
          exact e1
      have sub : ∀ first' len', first ≤ first' → first' + len' ≤ first + len → ((a.drop first').take len').Pairwise (· ≤ ·) := by
        intro first' len' h1 h2
        refine hs.sublist ?_
        have e : (a.drop first').take len' = (((a.drop first).take len).drop (first' - first)).take len' := by
          rw [List.drop_take, List.drop_drop, List.take_take, show first + (first' - first) = first' by omega,
            Nat.min_eq_left (by omega)]
        rw [e]
        exact (List.take_sublist _ _).trans (List.drop_sublist _ _)
      simp only [load_ok hget, ok_bind]
      by_cases hx : x < val
      · rw [if_pos hx]
        obtain ⟨i, hi, h1, h2, h3, h4⟩ := ih (first + len / 2 + 1) (len - len / 2 - 1) (by omega) (by omega)
          (sub _ _ (by omega) (by omega))
        refine ⟨i, hi, by omega, by omega, ?_, ?_⟩
        · intro k y hk1 hk2 hy
          by_cases hk : first + len / 2 < k
          · exact h3 k y (by omega) hk2 hy
          · have := key k (first + len / 2) y x hk1 (by omega) (by omega) hy hget
            omega
        · intro k y hk1 hk2 hy
          exact h4 k y hk1 (by omega) hy
      · rw [if_neg hx]
        obtain ⟨i, hi, h1, h2, h3, h4⟩ := ih first (len / 2) (by omega) (by omega) (sub _ _ (by omega) (by omega))
        refine ⟨i, hi, h1, by omega, h3, ?_⟩
        intro k y hk1 hk2 hy
        by_cases hk : k < first + len / 2
        · exact h4 k y hk1 hk hy
        · have := key (first + len / 2) k x y (by omega) (by omega) hk2 hget hy
          omega

/-- `binary_search` in a sorted range finds exactly its elements. -/
theorem binarySearch_ok {a : List Nat} {s e val : Nat} (hse : s ≤ e) (hl : e ≤ a.length)
    (hs : ((a.drop s).take (e - s)).Pairwise (· ≤ ·)) :
    binarySearch a s e val = .ok (decide (val ∈ (a.drop s).take (e - s))) := by
  obtain ⟨i, hi, h1, h2, h3, h4⟩ := lowerBound_ok (val := val) (e - s + 1) s (e - s) (by omega) (by omega) hs
  have hmem : val ∈ (a.drop s).take (e - s) ↔ ∃ k, s ≤ k ∧ k < e ∧ a[k]? = some val := by
    rw [List.mem_iff_getElem?]
    constructor
    · rintro ⟨k, hk⟩
      rw [List.getElem?_take] at hk
      by_cases hkl : k < e - s
      · rw [if_pos hkl, List.getElem?_drop] at hk
        exact ⟨s + k, by omega, by omega, hk⟩
      · rw [if_neg hkl] at hk; cases hk
    · rintro ⟨k, hk1, hk2, hk⟩
      exact ⟨k - s, by rw [List.getElem?_take, if_pos (by omega), List.getElem?_drop, show s + (k - s) = k by omega, hk]⟩
  rw [binarySearch, hi, ok_bind]
  by_cases hie : i = e
  · rw [if_pos hie]
    congr 1
    symm
    rw [decide_eq_false_iff_not, hmem]
    rintro ⟨k, hk1, hk2, hk⟩
    have := h3 k val hk1 (by omega) hk
    omega
  · rw [if_neg hie]
    have hlt : i < a.length := by clear hmem; omega
    have hget := List.getElem?_eq_getElem hlt
    generalize a[i] = x at hget
    rw [load_ok hget, ok_bind]
    congr 1
    have hlt' : i < s + (e - s) := by clear hmem h3 h4; omega
    have hx := h4 i x (Nat.le_refl _) hlt' hget
    by_cases hv : val < x
    · rw [decide_eq_true hv, eq_comm, Bool.not_true, decide_eq_false_iff_not, hmem]
      rintro ⟨k, hk1, hk2, hk⟩
      by_cases hki : k < i
      · have := h3 k val hk1 hki hk; omega
      · have := h4 k val (by omega) (by omega) hk
        have hki' : i ≤ k := by omega
        rcases Nat.eq_or_lt_of_le hki' with h | h
        · subst h; rw [hget] at hk; injection hk with hk; omega
        · rw [List.pairwise_iff_getElem] at hs
          have hlen : ((a.drop s).take (e - s)).length = e - s := by simp; omega
          have e1 := hs (i - s) (k - s) (by omega) (by omega) (by omega)
          have g1 : ((a.drop s).take (e - s))[i - s]? = some x := by
            rw [List.getElem?_take, if_pos (by omega), List.getElem?_drop, show s + (i - s) = i by omega, hget]
          have g2 : ((a.drop s).take (e - s))[k - s]? = some val := by
            rw [List.getElem?_take, if_pos (by omega), List.getElem?_drop, show s + (k - s) = k by omega, hk]
          rw [List.getElem?_eq_getElem (by omega)] at g1 g2
          injection g1 with g1
          injection g2 with g2
          rw [g1, g2] at e1
          omega
    · have : x = val := by omega
      subst this
      rw [decide_eq_false hv, Bool.not_false, eq_comm, decide_eq_true_iff, hmem]
      exact ⟨i, h1, by omega, hget⟩

end Pigo
