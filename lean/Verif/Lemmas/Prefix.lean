import Verif.Lemmas.EdgePlan

/-!
# Two-pass algorithms: counts, prefix sums, block stores
-/

namespace Pigo

variable {α β γ : Type}

theorem mapE_map_ok (f : α → β) (h : β → M γ) (k : α → γ) (l : List α) (hh : ∀ a ∈ l, h (f a) = .ok (k a)) :
    mapE h (l.map f) = .ok (l.map k) := by
  induction l with
  | nil => rfl
  | cons a l ih =>
    rw [List.map_cons, mapE, hh a (List.mem_cons_self ..), ok_bind, ih (fun b hb => hh b (List.mem_cons_of_mem _ hb))]
    rfl

theorem sum_map_length (ls : List (List α)) : (ls.map List.length).sum = ls.flatten.length := by
  rw [List.length_flatten]

theorem startOf_segs (seg : Nat → List α) (T tid : Nat) (h : tid ≤ T) :
    startOf (prefixSums 0 ((List.range T).map (fun i => (seg i).length))) tid =
      (((List.range tid).map seg).flatten).length := by
  rw [startOf_eq _ _ (by simpa using h), ← List.map_take, List.take_range, Nat.min_eq_left h, ← sum_map_length,
    List.map_map]
  rfl

theorem blockThreads_range (seg : Nat → List α) (T p k : Nat) :
    blockThreads p ((List.range' k T).map seg) =
      (List.range' k T).map (fun tid => blockActs (p + (((List.range' k (tid - k)).map seg).flatten).length) (seg tid)) := by
  induction T generalizing p k with
  | zero => rfl
  | succ T ih =>
    rw [List.range'_succ, List.map_cons, List.map_cons, blockThreads, ih]
    congr 1
    · simp
    · apply List.map_congr_left
      intro tid ht
      rw [List.mem_range'_1] at ht
      rw [show tid - k = (tid - (k + 1)) + 1 by omega, List.range'_succ, List.map_cons, List.flatten_cons,
        List.length_append]
      congr 1; omega

/-- Threads storing their segment at the start given by the prefix sums are consecutive blocks. -/
theorem blockThreads_prefix (seg : Nat → List α) (T : Nat) :
    (List.range T).map (fun tid =>
      blockActs (startOf (prefixSums 0 ((List.range T).map (fun i => (seg i).length))) tid) (seg tid)) =
    blockThreads 0 ((List.range T).map seg) := by
  rw [List.range_eq_range', blockThreads_range, ← List.range_eq_range']
  apply List.map_congr_left
  intro tid ht
  rw [startOf_segs seg T tid (Nat.le_of_lt (List.mem_range.mp ht)), Nat.sub_zero, Nat.zero_add, ← List.range_eq_range']

theorem total_segs (seg : Nat → List α) (T : Nat) (hT : 0 < T) :
    (prefixSums 0 ((List.range T).map (fun i => (seg i).length))).getD (T - 1) 0 =
      (((List.range T).map seg).flatten).length := by
  rw [prefixSums_getD _ _ _ (by simp; omega), List.take_of_length_le (by simp; omega), ← sum_map_length, List.map_map,
    Nat.zero_add]
  rfl

end Pigo
