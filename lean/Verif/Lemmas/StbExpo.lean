import Verif.Lemmas.Stb
import Mathlib.Tactic.Positivity
import Mathlib.Algebra.Order.Field.Power

/-!
# Printing floating point numbers: the decimal exponent
-/

namespace Pigo.Stb

theorem testBit_top {m k : Nat} (h : m < 2 ^ (k + 1)) : m.testBit k = decide (2 ^ k ≤ m) := by
  rw [Nat.testBit_eq_decide_div_mod_eq]
  have hp : 0 < 2 ^ k := Nat.pow_pos (by decide)
  congr 1
  by_cases hm : 2 ^ k ≤ m
  · have : m / 2 ^ k = 1 := by
      apply Nat.div_eq_of_lt_le <;> rw [Nat.pow_succ] at * <;> omega
    simp [this, hm]
  · rw [Nat.div_eq_of_lt (by omega)]; simp [hm]

theorem denormLoop_eq (v : Nat) : ∀ (k : Nat) (x : Int), k ≤ 52 → v % 2 ^ 52 < 2 ^ k → v % 2 ^ 52 ≠ 0 →
    ∃ j : Nat, j < k ∧ denormLoop v k x = .ok (x + 1 + j - k) ∧ 2 ^ j ≤ v % 2 ^ 52 ∧ v % 2 ^ 52 < 2 ^ (j + 1) := by
  intro k
  induction k with
  | zero => intro x _ h h0; omega
  | succ k ih =>
    intro x hk h h0
    have hb : v.testBit k = (v % 2 ^ 52).testBit k := by
      rw [Nat.testBit_mod_two_pow]; simp; omega
    rw [denormLoop, hb, testBit_top h]
    by_cases hm : 2 ^ k ≤ v % 2 ^ 52
    · refine ⟨k, by omega, ?_, hm, h⟩
      simp only [hm, decide_true, if_true]; congr 1; push_cast; omega
    · obtain ⟨j, h1, h2, h3, h4⟩ := ih (x - 1) (by omega) (by omega) h0
      refine ⟨j, by omega, ?_, h3, h4⟩
      simp only [hm, decide_false, Bool.false_eq_true, if_false]
      rw [h2]; congr 1; push_cast; omega

/-- The binary exponent is that of the value. -/
theorem findExpo_eq {v : Nat} (hfin : Spec.IsFinite v) (h0 : Spec.dblAbs v ≠ 0) : ∃ ex : ℤ, findExpo v = .ok ex ∧
    -51 ≤ ex ∧ ex ≤ 2046 ∧ (2 : ℚ) ^ (ex - 1023) ≤ Spec.dblAbs v ∧ Spec.dblAbs v < (2 : ℚ) ^ (ex - 1022) := by
  unfold findExpo
  by_cases h : v / 2 ^ 52 % 2048 = 0
  · rw [if_pos h]
    have hd : Spec.dblAbs v = (v % 2 ^ 52 : Nat) * (2 : ℚ) ^ (-1074 : ℤ) := by unfold Spec.dblAbs; rw [if_pos h]
    have hm : v % 2 ^ 52 ≠ 0 := by
      intro hz; apply h0; rw [hd, hz]; simp
    obtain ⟨j, h1, h2, h3, h4⟩ := denormLoop_eq v 52 0 (Nat.le_refl _) (Nat.mod_lt _ (by decide)) hm
    refine ⟨_, h2, by omega, by omega, ?_, ?_⟩
    · rw [hd, show (0 + 1 + (j : ℤ) - (52 : Nat) - 1023) = (j : ℤ) + -1074 by push_cast; ring, zpow_add₀ (by norm_num)]
      apply mul_le_mul_of_nonneg_right _ (by positivity)
      rw [zpow_natCast]; exact_mod_cast h3
    · rw [hd, show (0 + 1 + (j : ℤ) - (52 : Nat) - 1022) = ((j + 1 : Nat) : ℤ) + -1074 by push_cast; ring, zpow_add₀ (by norm_num)]
      apply mul_lt_mul_of_pos_right _ (by positivity)
      rw [zpow_natCast]; exact_mod_cast h4
  · rw [if_neg h]
    have hd : Spec.dblAbs v = ((2 ^ 52 + v % 2 ^ 52 : Nat) : ℚ) * (2 : ℚ) ^ (((v / 2 ^ 52 % 2048 : Nat) : ℤ) - 1075) := by
      unfold Spec.dblAbs; rw [if_neg h]
    have hlt : v % 2 ^ 52 < 2 ^ 52 := Nat.mod_lt _ (by decide)
    unfold Spec.IsFinite at hfin
    refine ⟨_, rfl, by omega, by omega, ?_, ?_⟩
    · rw [hd, show (((v / 2 ^ 52 % 2048 : Nat) : ℤ) - 1023) = ((52 : Nat) : ℤ) + (((v / 2 ^ 52 % 2048 : Nat) : ℤ) - 1075) by push_cast; ring,
        zpow_add₀ (by norm_num)]
      apply mul_le_mul_of_nonneg_right _ (by positivity)
      rw [zpow_natCast]; exact_mod_cast (by omega : 2 ^ 52 ≤ 2 ^ 52 + v % 2 ^ 52)
    · rw [hd, show (((v / 2 ^ 52 % 2048 : Nat) : ℤ) - 1022) = ((53 : Nat) : ℤ) + (((v / 2 ^ 52 % 2048 : Nat) : ℤ) - 1075) by push_cast; ring,
        zpow_add₀ (by norm_num)]
      apply mul_lt_mul_of_pos_right _ (by positivity)
      rw [zpow_natCast]; exact_mod_cast (by omega : 2 ^ 52 + v % 2 ^ 52 < 2 ^ 53)

theorem tens_pos : ∀ e < 1024, 10 ^ (e * 1233 / 4096) ≤ 2 ^ e ∧ 2 ^ (e + 1) ≤ 4 * 10 ^ (e * 1233 / 4096 + 1) := by
  decide +kernel

theorem tens_neg : ∀ f < 1075, 2 ^ f ≤ 10 ^ (f * 617 / 2048 + 1) ∧ 2 * 10 ^ (f * 617 / 2048) ≤ 4 * 2 ^ f := by
  decide +kernel

/-- The estimate of the decimal exponent: low by at most one (of the decimal exponent of every finite nonzero double). -/
theorem tensEst_eq {ex : ℤ} (h1 : -51 ≤ ex) (h2 : ex ≤ 2046) : -330 ≤ tensEst ex ∧ tensEst ex ≤ 330 ∧
    (10 : ℚ) ^ (tensEst ex - 1) ≤ (2 : ℚ) ^ (ex - 1023) ∧ (2 : ℚ) ^ (ex - 1022) ≤ 4 * (10 : ℚ) ^ tensEst ex := by
  unfold tensEst
  by_cases h : ex - 1023 < 0
  · simp only [h, if_true]
    obtain ⟨f, hf⟩ : ∃ f : Nat, ex - 1023 = -(f : ℤ) := ⟨(1023 - ex).toNat, by omega⟩
    obtain ⟨g1, g2⟩ := tens_neg f (by omega)
    have ht : ((ex - 1023) * 617).tdiv 2048 = -((f * 617 / 2048 : Nat) : ℤ) := by
      rw [hf, Int.neg_mul, Int.neg_tdiv]; rfl
    rw [ht, show ex - 1022 = 1 + -(f : ℤ) by omega, hf]
    refine ⟨by omega, by omega, ?_, ?_⟩
    · rw [show -((f * 617 / 2048 : Nat) : ℤ) - 1 = -((f * 617 / 2048 + 1 : Nat) : ℤ) by push_cast; ring, zpow_neg, zpow_neg,
        zpow_natCast, zpow_natCast]
      apply inv_anti₀ (by positivity)
      exact_mod_cast g1
    · rw [zpow_neg, zpow_natCast, zpow_add₀ (by norm_num), zpow_neg, zpow_natCast, zpow_one]
      have g2' : (2 : ℚ) * 10 ^ (f * 617 / 2048) ≤ 4 * 2 ^ f := by exact_mod_cast g2
      rw [← div_eq_mul_inv, ← div_eq_mul_inv, div_le_div_iff₀ (by positivity) (by positivity)]
      exact g2'
  · simp only [h, if_false]
    obtain ⟨e, he⟩ : ∃ e : Nat, ex - 1023 = (e : ℤ) := ⟨(ex - 1023).toNat, by omega⟩
    obtain ⟨g1, g2⟩ := tens_pos e (by omega)
    have ht : ((ex - 1023) * 1233).tdiv 4096 + 1 = ((e * 1233 / 4096 + 1 : Nat) : ℤ) := by
      rw [he]; rfl
    rw [ht, show ex - 1022 = ((e + 1 : Nat) : ℤ) by omega, he]
    refine ⟨by omega, by omega, ?_, ?_⟩
    · rw [show ((e * 1233 / 4096 + 1 : Nat) : ℤ) - 1 = ((e * 1233 / 4096 : Nat) : ℤ) by push_cast; ring, zpow_natCast, zpow_natCast]
      exact_mod_cast g1
    · rw [zpow_natCast, zpow_natCast]; exact_mod_cast g2

/-- The power of ten asked for. -/
theorem power_range {v : Nat} (hfin : Spec.IsFinite v) (h0 : Spec.dblAbs v ≠ 0) : ∃ ex : ℤ, findExpo v = .ok ex ∧
    -330 ≤ tensEst ex ∧ tensEst ex ≤ 330 ∧ (10 : ℚ) ^ 17 ≤ Spec.dblAbs v * (10 : ℚ) ^ (18 - tensEst ex) ∧
    Spec.dblAbs v * (10 : ℚ) ^ (18 - tensEst ex) < 4 * (10 : ℚ) ^ 18 := by
  obtain ⟨ex, h1, h2, h3, h4, h5⟩ := findExpo_eq hfin h0
  obtain ⟨g1, g2, g3, g4⟩ := tensEst_eq h2 h3
  refine ⟨ex, h1, g1, g2, ?_, ?_⟩
  · calc (10 : ℚ) ^ 17 = (10 : ℚ) ^ (tensEst ex - 1) * (10 : ℚ) ^ (18 - tensEst ex) := by
          rw [← zpow_add₀ (by norm_num), ← zpow_natCast]; congr 1; push_cast; ring
      _ ≤ _ := mul_le_mul_of_nonneg_right (g3.trans h4) (by positivity)
  · calc _ < (4 * (10 : ℚ) ^ tensEst ex) * (10 : ℚ) ^ (18 - tensEst ex) :=
          mul_lt_mul_of_pos_right (h5.trans_le g4) (by positivity)
      _ = 4 * (10 : ℚ) ^ 18 := by
          rw [mul_assoc, ← zpow_add₀ (by norm_num), ← zpow_natCast]; congr 2; push_cast; ring

end Pigo.Stb
