import Verif.Lemmas.StbNeg
import Verif.Props.Stb

/-!
# Printing floating point numbers in binary64 arithmetic (C75)
-/

namespace Pigo.Stb

open Spec (IsDouble Rounding)

/-! ## Lemmas -/

theorem gap_pos : ∀ e < 1024, e ≠ 0 → 10 ^ (e * 1233 / 4096) * 2049 ≤ 2 ^ e * 2048 := by decide +kernel

theorem gap_neg : ∀ f < 1075, 2 ^ f * 2049 ≤ 10 ^ (f * 617 / 2048 + 1) * 2048 := by decide +kernel

/-- The power of ten asked for keeps away from `10^17`, unless the number is between 1 and 2. -/
theorem power_gap {v : Nat} (hfin : Spec.IsFinite v) (h0 : Spec.dblAbs v ≠ 0) : ∃ ex : ℤ, findExpo v = .ok ex ∧
    -330 ≤ tensEst ex ∧ tensEst ex ≤ 330 ∧ (10 : ℚ) ^ 17 ≤ Spec.dblAbs v * (10 : ℚ) ^ (18 - tensEst ex) ∧
    Spec.dblAbs v * (10 : ℚ) ^ (18 - tensEst ex) < 4 * (10 : ℚ) ^ 18 ∧ -324 ≤ tensEst ex ∧ tensEst ex ≤ 309 ∧
    ((10 : ℚ) ^ 17 * (2049 / 2048) ≤ Spec.dblAbs v * (10 : ℚ) ^ (18 - tensEst ex) ∨ tensEst ex = 1) := by
  obtain ⟨ex, h1, h2, h3, h4, h5⟩ := findExpo_eq hfin h0
  obtain ⟨ex', h1', r1, r2, r3, r4⟩ := power_range hfin h0
  obtain rfl : ex' = ex := by rw [h1] at h1'; injection h1' with h; exact h.symm
  refine ⟨ex', h1, r1, r2, r3, r4, ?_, ?_, ?_⟩
  · unfold tensEst
    by_cases h : ex' - 1023 < 0
    · simp only [h, if_true]
      obtain ⟨f, hf⟩ : ∃ f : Nat, ex' - 1023 = -(f : ℤ) := ⟨(1023 - ex').toNat, by omega⟩
      have ht : ((ex' - 1023) * 617).tdiv 2048 = -((f * 617 / 2048 : Nat) : ℤ) := by
        rw [hf, Int.neg_mul, Int.neg_tdiv]; rfl
      rw [ht]; omega
    · simp only [h, if_false]
      obtain ⟨e, he⟩ : ∃ e : Nat, ex' - 1023 = (e : ℤ) := ⟨(ex' - 1023).toNat, by omega⟩
      have ht : ((ex' - 1023) * 1233).tdiv 4096 + 1 = ((e * 1233 / 4096 + 1 : Nat) : ℤ) := by rw [he]; rfl
      rw [ht]; omega
  · unfold tensEst
    by_cases h : ex' - 1023 < 0
    · simp only [h, if_true]
      obtain ⟨f, hf⟩ : ∃ f : Nat, ex' - 1023 = -(f : ℤ) := ⟨(1023 - ex').toNat, by omega⟩
      have ht : ((ex' - 1023) * 617).tdiv 2048 = -((f * 617 / 2048 : Nat) : ℤ) := by
        rw [hf, Int.neg_mul, Int.neg_tdiv]; rfl
      rw [ht]; omega
    · simp only [h, if_false]
      obtain ⟨e, he⟩ : ∃ e : Nat, ex' - 1023 = (e : ℤ) := ⟨(ex' - 1023).toNat, by omega⟩
      have ht : ((ex' - 1023) * 1233).tdiv 4096 + 1 = ((e * 1233 / 4096 + 1 : Nat) : ℤ) := by rw [he]; rfl
      rw [ht]; omega
  · have key : (10 : ℚ) ^ (tensEst ex' - 1) * (2049 / 2048) ≤ (2 : ℚ) ^ (ex' - 1023) ∨ tensEst ex' = 1 := by
      unfold tensEst
      by_cases h : ex' - 1023 < 0
      · left
        simp only [h, if_true]
        obtain ⟨f, hf⟩ : ∃ f : Nat, ex' - 1023 = -(f : ℤ) := ⟨(1023 - ex').toNat, by omega⟩
        have ht : ((ex' - 1023) * 617).tdiv 2048 = -((f * 617 / 2048 : Nat) : ℤ) := by
          rw [hf, Int.neg_mul, Int.neg_tdiv]; rfl
        have g := gap_neg f (by omega)
        have g' : ((2 ^ f * 2049 : Nat) : ℚ) ≤ ((10 ^ (f * 617 / 2048 + 1) * 2048 : Nat) : ℚ) := Nat.cast_le.mpr g
        rw [ht, hf, show -((f * 617 / 2048 : Nat) : ℤ) - 1 = -((f * 617 / 2048 + 1 : Nat) : ℤ) by push_cast; ring, zpow_neg,
          zpow_neg, zpow_natCast, zpow_natCast]
        push_cast at g'
        rw [inv_mul_eq_div, div_le_iff₀ (by positivity), inv_mul_eq_div, le_div_iff₀ (by positivity)]
        linarith
      · simp only [h, if_false]
        obtain ⟨e, he⟩ : ∃ e : Nat, ex' - 1023 = (e : ℤ) := ⟨(ex' - 1023).toNat, by omega⟩
        have ht : ((ex' - 1023) * 1233).tdiv 4096 + 1 = ((e * 1233 / 4096 + 1 : Nat) : ℤ) := by rw [he]; rfl
        by_cases he0 : e = 0
        · right
          rw [ht, he0]; norm_num
        · left
          have g := gap_pos e (by omega) he0
          have g' : ((10 ^ (e * 1233 / 4096) * 2049 : Nat) : ℚ) ≤ ((2 ^ e * 2048 : Nat) : ℚ) := Nat.cast_le.mpr g
          rw [ht, he, show ((e * 1233 / 4096 + 1 : Nat) : ℤ) - 1 = ((e * 1233 / 4096 : Nat) : ℤ) by push_cast; ring, zpow_natCast,
            zpow_natCast]
          push_cast at g'
          rw [← mul_div_assoc, div_le_iff₀ (by positivity)]
          exact g'
    rcases key with key | key
    · left
      calc (10 : ℚ) ^ 17 * (2049 / 2048) = (10 : ℚ) ^ (tensEst ex' - 1) * (2049 / 2048) * (10 : ℚ) ^ (18 - tensEst ex') := by
            rw [mul_right_comm, ← zpow_add₀ (by norm_num), ← zpow_natCast]; congr 2; push_cast; ring
        _ ≤ _ := mul_le_mul_of_nonneg_right (key.trans h4) (by positivity)
    · exact .inr key

variable {rnd : ℚ → ℚ} (R : Rounding rnd)
include R

/-- The integer delivered by the floating point part. -/
theorem ddScale_ok {v : Nat} (hfin : Spec.IsFinite v) (h0 : Spec.dblAbs v ≠ 0) : ∃ (ex : ℤ) (b : Nat),
    findExpo v = .ok ex ∧ -330 ≤ tensEst ex ∧ tensEst ex ≤ 330 ∧ ddScale rnd (v % 2 ^ 63) (18 - tensEst ex) = .ok b ∧
    10 ^ 17 ≤ b ∧ b < 10 ^ 19 ∧ (10 : ℚ) ^ 17 ≤ Spec.dblAbs v * (10 : ℚ) ^ (18 - tensEst ex) ∧
    Spec.dblAbs v * (10 : ℚ) ^ (18 - tensEst ex) < 4 * (10 : ℚ) ^ 18 ∧
    |(b : ℚ) * (10 : ℚ) ^ (-(18 - tensEst ex)) - Spec.dblAbs v| ≤ 1 / 10 ^ 16 + 2 * Spec.dblAbs v / 10 ^ 17 ∧
    (0 ≤ 18 - tensEst ex → 18 - tensEst ex ≤ 22 →
      |(b : ℚ) * (10 : ℚ) ^ (-(18 - tensEst ex)) - Spec.dblAbs v| ≤ Spec.dblAbs v / 10 ^ 17 ∧
      ∀ k : Nat, Spec.dblAbs v * (10 : ℚ) ^ (18 - tensEst ex) = k → b = k) := by
  obtain ⟨ex, hex, r1, r2, g1, g2, t1, t2, hgap⟩ := power_gap hfin h0
  have hd : Spec.dblAbs (v % 2 ^ 63) = Spec.dblAbs v := by
    unfold Spec.dblAbs
    have e1 : v % 2 ^ 63 / 2 ^ 52 % 2048 = v / 2 ^ 52 % 2048 := by omega
    have e2 : v % 2 ^ 63 % 2 ^ 52 = v % 2 ^ 52 := by omega
    rw [e1, e2]
  have hd0 : 0 < Spec.dblAbs v := by
    by_contra hc
    have : Spec.dblAbs v * (10 : ℚ) ^ (18 - tensEst ex) ≤ 0 := mul_nonpos_of_nonpos_of_nonneg (not_lt.mp hc) (by positivity)
    have : (0 : ℚ) < (10 : ℚ) ^ 17 := by positivity
    linarith
  obtain ⟨b, hb, herr, hmid⟩ : ∃ b : Nat, ddScale rnd (v % 2 ^ 63) (18 - tensEst ex) = .ok b ∧
      (|(b : ℚ) - Spec.dblAbs v * (10 : ℚ) ^ (18 - tensEst ex)| < 1 + 1 / 2 ^ 20 ∨
        22 < 18 - tensEst ex ∧ |(b : ℚ) - Spec.dblAbs v * (10 : ℚ) ^ (18 - tensEst ex)| ≤
          1 + Spec.dblAbs v * (10 : ℚ) ^ (18 - tensEst ex) / 2 ^ 40) ∧
      (0 ≤ 18 - tensEst ex → 18 - tensEst ex ≤ 22 →
        |(b : ℚ) - Spec.dblAbs v * (10 : ℚ) ^ (18 - tensEst ex)| < 1 ∧
        ∀ k : Nat, Spec.dblAbs v * (10 : ℚ) ^ (18 - tensEst ex) = k → b = k) := by
    rcases lt_or_ge (18 - tensEst ex) 0 with hn | hn
    · obtain ⟨e, he⟩ : ∃ e : Nat, 18 - tensEst ex = -(e : ℤ) := ⟨(tensEst ex - 18).toNat, by omega⟩
      rw [he] at g1 g2 ⊢
      rw [← hd] at g1 g2
      obtain ⟨b, b1, b2⟩ := ddScale_huge R (v := v % 2 ^ 63) (by omega) (by omega) g1 g2
      rw [hd] at b2
      exact ⟨b, b1, .inl b2, by omega⟩
    · obtain ⟨p, hp⟩ : ∃ p : Nat, 18 - tensEst ex = (p : ℤ) := ⟨(18 - tensEst ex).toNat, by omega⟩
      rw [hp, zpow_natCast] at g1 g2 ⊢
      rw [← hd] at g1 g2
      rcases le_or_gt p 22 with hle | hgt
      · have hbig : (2 : ℚ) ^ (-900 : ℤ) ≤ Spec.dblAbs (v % 2 ^ 63) := by
          have e1 : (10 : ℚ) ^ p ≤ (10 : ℚ) ^ 22 := pow_le_pow_right₀ (by norm_num) hle
          have e2 : (10 : ℚ) ^ 17 ≤ Spec.dblAbs (v % 2 ^ 63) * (10 : ℚ) ^ 22 :=
            g1.trans (mul_le_mul_of_nonneg_left e1 (by rw [hd]; exact hd0.le))
          have e3 : (2 : ℚ) ^ (-900 : ℤ) ≤ (2 : ℚ) ^ (-20 : ℤ) := zpow_le_zpow_right₀ (by norm_num) (by norm_num)
          refine e3.trans ?_
          norm_num at e2 ⊢
          linarith
        obtain ⟨b, b1, b2, b3⟩ := ddScale_mid R (v := v % 2 ^ 63) hle hbig g1 g2
        rw [hd] at b2 b3
        exact ⟨b, b1, .inl (b2.trans (by norm_num)), fun _ _ => ⟨b2, b3⟩⟩
      · obtain ⟨b, b1, b2⟩ := ddScale_tiny R (v := v % 2 ^ 63) (by omega) g1 g2 (by omega)
        rw [hd] at b2
        exact ⟨b, b1, .inr ⟨by omega, b2⟩, by omega⟩
  have hpp : (10 : ℚ) ^ (18 - tensEst ex) * (10 : ℚ) ^ (-(18 - tensEst ex)) = 1 := by rw [← zpow_add₀ (by norm_num)]; simp
  have hp0 : (0 : ℚ) < (10 : ℚ) ^ (-(18 - tensEst ex)) := by positivity
  have e2 : (10 : ℚ) ^ (-(18 - tensEst ex)) ≤ Spec.dblAbs v / 10 ^ 17 := by
    rw [le_div_iff₀ (by positivity)]
    calc _ = (10 : ℚ) ^ 17 * (10 : ℚ) ^ (-(18 - tensEst ex)) := by ring
      _ ≤ Spec.dblAbs v * (10 : ℚ) ^ (18 - tensEst ex) * (10 : ℚ) ^ (-(18 - tensEst ex)) := mul_le_mul_of_nonneg_right g1 hp0.le
      _ = _ := by rw [mul_assoc, hpp, mul_one]
  have e3 : (b : ℚ) * (10 : ℚ) ^ (-(18 - tensEst ex)) - Spec.dblAbs v =
      ((b : ℚ) - Spec.dblAbs v * (10 : ℚ) ^ (18 - tensEst ex)) * (10 : ℚ) ^ (-(18 - tensEst ex)) := by
    rw [sub_mul, mul_assoc (Spec.dblAbs v), hpp, mul_one]
  refine ⟨ex, b, hex, r1, r2, hb, ?_, ?_, g1, g2, ?_, fun q1 q2 => ⟨?_, (hmid q1 q2).2⟩⟩
  · -- at least 10^17
    have : ((10 ^ 17 : Nat) : ℚ) < ((b + 1 : Nat) : ℚ) := by
      push_cast
      rcases hgap with hgap | hgap
      · rcases herr with herr | ⟨_, herr⟩
        · rw [abs_lt] at herr
          norm_num at hgap herr ⊢; linarith [herr.1]
        · rw [abs_le] at herr
          norm_num at hgap herr ⊢; linarith [herr.1]
      · have := (hmid (by omega) (by omega)).1
        rw [abs_lt] at this
        linarith [this.1]
    have := Nat.cast_lt.mp this
    omega
  · have : (b : ℚ) < ((10 ^ 19 : Nat) : ℚ) := by
      rw [show ((10 ^ 19 : Nat) : ℚ) = 10000000000000000000 by norm_num]
      rcases herr with herr | ⟨_, herr⟩
      · rw [abs_lt] at herr
        norm_num at g2 herr; linarith [herr.2]
      · rw [abs_le] at herr
        norm_num at g2 herr; linarith [herr.2]
    exact Nat.cast_lt.mp this
  · rw [e3, abs_mul, abs_of_pos hp0]
    rcases herr with herr | ⟨hbig, herr⟩
    · calc _ ≤ (1 + 1 / 2 ^ 20) * (Spec.dblAbs v / 10 ^ 17) := mul_le_mul herr.le e2 hp0.le (by norm_num)
        _ ≤ _ := by norm_num; linarith
    · have hsmall : Spec.dblAbs v ≤ 4 / 10 ^ 5 := by
        have q1 : (10 : ℚ) ^ 23 ≤ (10 : ℚ) ^ (18 - tensEst ex) := by
          rw [← zpow_natCast]; exact zpow_le_zpow_right₀ (by norm_num) (by push_cast; omega)
        have q2 := mul_le_mul_of_nonneg_left q1 hd0.le
        have q3 := q2.trans g2.le
        norm_num at q3 ⊢
        linarith
      calc _ ≤ (1 + Spec.dblAbs v * (10 : ℚ) ^ (18 - tensEst ex) / 2 ^ 40) * (10 : ℚ) ^ (-(18 - tensEst ex)) :=
            mul_le_mul_of_nonneg_right herr hp0.le
        _ = (10 : ℚ) ^ (-(18 - tensEst ex)) + Spec.dblAbs v / 2 ^ 40 := by
            rw [add_mul, one_mul, div_mul_eq_mul_div, mul_assoc (Spec.dblAbs v), hpp, mul_one]
        _ ≤ _ := by norm_num at e2 hsmall ⊢; linarith
  · rw [e3, abs_mul, abs_of_pos hp0]
    calc _ ≤ 1 * (10 : ℚ) ^ (-(18 - tensEst ex)) := mul_le_mul_of_nonneg_right (hmid q1 q2).1.le hp0.le
      _ ≤ _ := by rw [one_mul]; exact e2

omit R in
theorem printDouble_eq {num buf v : Nat} (hfin : Spec.IsFinite v) (h0 : Spec.dblAbs v ≠ 0) {ex : ℤ} {b : Nat}
    (hex : findExpo v = .ok ex) (h1 : -330 ≤ tensEst ex) (h2 : tensEst ex ≤ 330)
    (hb : ddScale rnd (v % 2 ^ 63) (18 - tensEst ex) = .ok b) (hb1 : 10 ^ 17 ≤ b) (hb2 : b < 10 ^ 19) :
    printDouble rnd num buf v =
      .ok (Spec.signed6 (v.testBit 63) (Spec.roundHalfUp ((b : ℚ) * (10 : ℚ) ^ (-(18 - tensEst ex)) * 10 ^ 6))) := by
  unfold printDouble
  rw [toChars_eq hfin (fun h => h0 (dblAbs_zero.mpr h)) hex h1 h2 hb hb1 hb2, nearest6_eq]
  congr 3
  rw [mul_assoc, ← zpow_natCast, ← zpow_add₀ (by norm_num)]
  congr 2
  push_cast; ring

/-! ## C75 -/

/-- **C75.** For every rounding to nearest and every finite double: the code prints a number with six decimals; it
differs from the double by at most half a unit of the sixth decimal (plus `10^-16`, plus two units in the 17th significant
digit).  No integer conversion overflows. -/
theorem C75_accuracy (num buf v : Nat) (hfin : Spec.IsFinite v) :
    ∃ N, printDouble rnd num buf v = .ok (Spec.signed6 (v.testBit 63) N) ∧
      |(N : ℚ) / 10 ^ 6 - Spec.dblAbs v| ≤ 1 / 2 / 10 ^ 6 + 1 / 10 ^ 16 + 2 * Spec.dblAbs v / 10 ^ 17 := by
  by_cases h0 : Spec.dblAbs v = 0
  · refine ⟨0, C67_zero _ num buf v h0, ?_⟩
    rw [h0]; norm_num
  obtain ⟨ex, b, hex, r1, r2, hb, b1, b2, _, _, he, _⟩ := ddScale_ok R hfin h0
  refine ⟨_, printDouble_eq hfin h0 hex r1 r2 hb b1 b2, ?_⟩
  have hn := roundHalfUp_near (x := (b : ℚ) * (10 : ℚ) ^ (-(18 - tensEst ex)) * 10 ^ 6) (by positivity)
  generalize (Spec.roundHalfUp ((b : ℚ) * (10 : ℚ) ^ (-(18 - tensEst ex)) * 10 ^ 6) : ℚ) = N at *
  generalize (b : ℚ) * (10 : ℚ) ^ (-(18 - tensEst ex)) = B at *
  rw [abs_le] at hn he ⊢
  norm_num at hn he ⊢
  constructor <;> linarith [hn.1, hn.2, he.1, he.2]

/-- C75, exact values: multiples of 1/64 (below `10^11`) are printed without any error. -/
theorem C75_exact_fractions (num buf v j : Nat) (hfin : Spec.IsFinite v) (hj : Spec.dblAbs v = (j : ℚ) / 64)
    (hlt : Spec.dblAbs v < 10 ^ 11) : printDouble rnd num buf v = .ok (Spec.signed6 (v.testBit 63) (j * 15625)) := by
  by_cases h0 : Spec.dblAbs v = 0
  · have : j = 0 := by
      rw [h0] at hj
      have : (j : ℚ) = 0 := by linarith
      exact_mod_cast this
    subst this
    exact C67_zero _ num buf v h0
  obtain ⟨ex, b, hex, r1, r2, hb, b1, b2, g1, g2, _, hm⟩ := ddScale_ok R hfin h0
  have hj1 : (1 : ℚ) ≤ j := by
    have : j ≠ 0 := by rintro rfl; simp at hj; exact h0 hj
    exact_mod_cast Nat.one_le_iff_ne_zero.mpr this
  have hp1 : 6 ≤ 18 - tensEst ex := by
    by_contra hc
    have : (10 : ℚ) ^ (18 - tensEst ex) ≤ (10 : ℚ) ^ (5 : ℤ) := zpow_le_zpow_right₀ (by norm_num) (by omega)
    have h3 := g1.trans (mul_le_mul_of_nonneg_left this (by rw [hj]; positivity))
    norm_num at h3 hlt
    linarith
  have hp2 : 18 - tensEst ex ≤ 22 := by
    by_contra hc
    have : (10 : ℚ) ^ (23 : ℤ) ≤ (10 : ℚ) ^ (18 - tensEst ex) := zpow_le_zpow_right₀ (by norm_num) (by omega)
    have h3 := (mul_le_mul_of_nonneg_left this (by rw [hj]; positivity)).trans_lt g2
    rw [hj] at h3
    norm_num at h3
    linarith
  obtain ⟨q, hq⟩ : ∃ q : Nat, 18 - tensEst ex = ((q + 6 : Nat) : ℤ) := ⟨(18 - tensEst ex).toNat - 6, by omega⟩
  have hbk := (hm (by omega) hp2).2 (j * 15625 * 10 ^ q) (by
    rw [hj, hq, zpow_natCast, pow_add]; push_cast; ring)
  rw [printDouble_eq hfin h0 hex r1 r2 hb b1 b2, hbk, hq]
  congr 2
  have : ((j * 15625 * 10 ^ q : Nat) : ℚ) * (10 : ℚ) ^ (-((q + 6 : Nat) : ℤ)) * 10 ^ 6 = ((j * 15625 : Nat) : ℚ) := by
    rw [zpow_neg, zpow_natCast, pow_add]; push_cast; field_simp
  rw [this]
  unfold Spec.roundHalfUp
  rw [Nat.floor_eq_iff (by positivity)]
  constructor <;> linarith

/-- C75, integers below `10^17` are printed exactly. -/
theorem C75_exact_integers (num buf v k : Nat) (hfin : Spec.IsFinite v) (hk : Spec.dblAbs v = k)
    (hlt : k < 10 ^ 17) : printDouble rnd num buf v = .ok (Spec.signed6 (v.testBit 63) (k * 10 ^ 6)) := by
  by_cases h0 : Spec.dblAbs v = 0
  · have : k = 0 := by rw [h0] at hk; exact_mod_cast hk.symm
    subst this
    exact C67_zero _ num buf v h0
  obtain ⟨ex, b, hex, r1, r2, hb, b1, b2, g1, g2, _, hm⟩ := ddScale_ok R hfin h0
  have hk1 : (1 : ℚ) ≤ k := by
    have : k ≠ 0 := by rintro rfl; simp at hk; exact h0 hk
    exact_mod_cast Nat.one_le_iff_ne_zero.mpr this
  have hlt' : (k : ℚ) < 10 ^ 17 := by exact_mod_cast hlt
  have hp1 : 0 ≤ 18 - tensEst ex := by
    by_contra hc
    have : (10 : ℚ) ^ (18 - tensEst ex) ≤ (10 : ℚ) ^ (0 : ℤ) := zpow_le_zpow_right₀ (by norm_num) (by omega)
    have h3 := g1.trans (mul_le_mul_of_nonneg_left this (by rw [hk]; positivity))
    rw [zpow_zero, mul_one, hk] at h3
    linarith
  have hp2 : 18 - tensEst ex ≤ 22 := by
    by_contra hc
    have : (10 : ℚ) ^ (23 : ℤ) ≤ (10 : ℚ) ^ (18 - tensEst ex) := zpow_le_zpow_right₀ (by norm_num) (by omega)
    have h3 := (mul_le_mul_of_nonneg_left this (by rw [hk]; positivity)).trans_lt g2
    rw [hk] at h3
    norm_num at h3
    linarith
  obtain ⟨q, hq⟩ : ∃ q : Nat, 18 - tensEst ex = (q : ℤ) := ⟨(18 - tensEst ex).toNat, by omega⟩
  have hbk := (hm (by omega) hp2).2 (k * 10 ^ q) (by
    rw [hk, hq, zpow_natCast]; push_cast; ring)
  rw [printDouble_eq hfin h0 hex r1 r2 hb b1 b2, hbk, hq]
  congr 2
  have : ((k * 10 ^ q : Nat) : ℚ) * (10 : ℚ) ^ (-(q : ℤ)) * 10 ^ 6 = ((k * 10 ^ 6 : Nat) : ℚ) := by
    rw [zpow_neg, zpow_natCast]; push_cast
    rw [mul_assoc (k : ℚ), mul_inv_cancel₀ (by positivity), mul_one]
    norm_num
  rw [this]
  unfold Spec.roundHalfUp
  rw [Nat.floor_eq_iff (by positivity)]
  constructor <;> linarith

omit R

/-! ## Instances -/

/-- Round to nearest (halves up). -/
def rne (x : ℚ) : ℚ :=
  let q : ℚ := (2 : ℚ) ^ (max (Int.log 2 |x| - 52) (-1074))
  (round (x / q) : ℚ) * q

/-- Roundings exist. -/
theorem rne_rounding : Rounding rne := by
  have hq : ∀ x : ℚ, (0 : ℚ) < (2 : ℚ) ^ (max (Int.log 2 |x| - 52) (-1074)) := fun x => sc_pos _
  refine ⟨fun x => ?_, fun x y hy => ?_⟩
  · unfold rne
    simp only
    refine isDouble_sc (n := round _) ?_ (le_max_right _ _)
    have hx : |x / (2 : ℚ) ^ (max (Int.log 2 |x| - 52) (-1074))| ≤ 2 ^ 53 := by
      rw [abs_div, abs_of_pos (hq x), div_le_iff₀ (hq x), ← zpow_natCast, ← zpow_add₀ (by norm_num)]
      refine (Int.lt_zpow_succ_log_self (b := 2) (by norm_num) |x|).le.trans ?_
      push_cast
      exact zpow_le_zpow_right₀ (by norm_num) (by omega)
    have h3 := abs_sub_round (x / (2 : ℚ) ^ (max (Int.log 2 |x| - 52) (-1074)))
    rw [abs_le] at hx h3 ⊢
    generalize x / (2 : ℚ) ^ (max (Int.log 2 |x| - 52) (-1074)) = z at *
    have hlo : ((-2 ^ 53 - 1 : ℤ) : ℚ) < (round z : ℚ) := by push_cast; linarith
    have hhi : (round z : ℚ) < ((2 ^ 53 + 1 : ℤ) : ℚ) := by push_cast; linarith
    have hlo := Int.cast_lt.mp hlo
    have hhi := Int.cast_lt.mp hhi
    omega
  · by_cases hx00 : x = 0
    · subst hx00
      have : rne 0 = 0 := by unfold rne; simp
      rw [this]; simp
    -- no multiple of the unit is closer
    have hmul : ∀ n : ℤ, |rne x - x| ≤ |sc n (max (Int.log 2 |x| - 52) (-1074)) - x| := by
      intro n
      unfold rne sc
      simp only
      have hqx := hq x
      generalize (2 : ℚ) ^ (max (Int.log 2 |x| - 52) (-1074)) = q at *
      have h := round_le (x / q) n
      have e : ∀ m : ℚ, m * q - x = -((x / q - m) * q) := by intro m; field_simp; ring
      rw [e, e, abs_neg, abs_neg, abs_mul, abs_mul]
      exact mul_le_mul_of_nonneg_right h (abs_nonneg _)
    rcases le_or_gt (Int.log 2 |x| - 52) (-1074) with hs | hs
    · rw [max_eq_right hs] at hmul
      obtain ⟨m, e, h1, h2, rfl⟩ := hy
      obtain ⟨j, rfl⟩ : ∃ j : Nat, e = -1074 + j := ⟨(e + 1074).toNat, by omega⟩
      have := hmul (m * 2 ^ j)
      rwa [sc_shift] at this
    · rw [max_eq_left hs.le] at hmul
      have hx0 : 0 < |x| := abs_pos.mpr hx00
      have hl := Int.zpow_log_le_self (b := 2) (by norm_num) hx0
      push_cast at hl
      generalize Int.log 2 |x| = k at *
      rcases le_or_gt ((2 : ℚ) ^ k) |y| with hb | hb
      · obtain ⟨n, rfl⟩ := isDouble_grid hy k hb
        exact hmul n
      · have hB : sc (2 ^ 52) (k - 52) = (2 : ℚ) ^ k := by
          rw [sc_pow, show k - 52 + ((52 : Nat) : ℤ) = k by norm_num]
        have hB' : sc (-2 ^ 52) (k - 52) = -(2 : ℚ) ^ k := by
          rw [← hB]; unfold sc; push_cast; ring
        rw [abs_lt] at hb
        rcases abs_cases x with ⟨hx, _⟩ | ⟨hx, _⟩
        · refine (hmul (2 ^ 52)).trans ?_
          rw [hB, abs_sub_comm, abs_of_nonneg (by linarith), abs_sub_comm]
          have := le_abs_self (x - y)
          linarith [hb.2]
        · refine (hmul (-2 ^ 52)).trans ?_
          rw [hB', abs_of_nonneg (by linarith)]
          have := le_abs_self (y - x)
          linarith [hb.1]

/-- `mask` is the operation on the bit pattern: clearing the 27 low bits. -/
theorem mask_bits (v : Nat) : mask (Spec.dblAbs v) = Spec.dblAbs (v / 2 ^ 27 * 2 ^ 27) := by
  unfold Spec.dblAbs
  have e1 : v / 2 ^ 27 * 2 ^ 27 / 2 ^ 52 = v / 2 ^ 52 := by omega
  have e2 : v / 2 ^ 27 * 2 ^ 27 % 2 ^ 52 = v % 2 ^ 52 / 2 ^ 27 * 2 ^ 27 := by omega
  rw [e1, e2]
  split
  · by_cases h0 : v % 2 ^ 52 = 0
    · rw [h0]; simp [mask]
    have hlog : ((v % 2 ^ 52 : Nat) : ℚ) * (2 : ℚ) ^ (-1074 : ℤ) < (2 : ℚ) ^ (-1022 : ℤ) := by
      have h1 : ((v % 2 ^ 52 : Nat) : ℚ) < ((2 ^ 52 : Nat) : ℚ) := Nat.cast_lt.mpr (Nat.mod_lt _ (by decide))
      have h2 := mul_lt_mul_of_pos_right h1 (sc_pos (-1074))
      refine h2.trans_le ?_
      rw [Nat.cast_pow, ← zpow_natCast, Nat.cast_ofNat, ← zpow_add₀ (by norm_num)]
      exact zpow_le_zpow_right₀ (by norm_num) (by norm_num)
    have hmax : max (Int.log 2 (((v % 2 ^ 52 : Nat) : ℚ) * (2 : ℚ) ^ (-1074 : ℤ))) (-1022) = -1022 := by
      apply max_eq_right
      have hp : (0 : ℚ) < ((v % 2 ^ 52 : Nat) : ℚ) * (2 : ℚ) ^ (-1074 : ℤ) := by
        have : 0 < ((v % 2 ^ 52 : Nat) : ℚ) := by exact_mod_cast Nat.pos_of_ne_zero h0
        positivity
      have := (Int.lt_zpow_iff_log_lt (b := 2) (by norm_num) hp).mp (by exact_mod_cast hlog)
      omega
    unfold mask
    rw [hmax, show (-1022 : ℤ) - 25 = -1074 + ((27 : Nat) : ℤ) by norm_num, zpow_add₀ (by norm_num), zpow_natCast]
    simp only
    generalize v % 2 ^ 52 = m
    have hq := sc_pos (-1074)
    generalize (2 : ℚ) ^ (-1074 : ℤ) = q at *
    have e : (m : ℚ) * q / (q * 2 ^ 27) = ((m : ℤ) : ℚ) / ((2 ^ 27 : Nat) : ℚ) := by
      push_cast; field_simp; norm_num
    rw [e, Rat.floor_intCast_div_natCast (m : ℤ) (2 ^ 27), show ((m : ℤ) / ((2 ^ 27 : Nat) : ℤ)) = ((m / 2 ^ 27 : Nat) : ℤ) by
      rw [Int.natCast_ediv], Int.cast_natCast, Nat.cast_mul]
    generalize ((m / 2 ^ 27 : Nat) : ℚ) = z
    push_cast
    ring
  · have h := mask_sc (X := ((2 ^ 52 + v % 2 ^ 52 : Nat) : ℤ)) (a := ((v / 2 ^ 52 % 2048 : Nat) : ℤ) - 1075) (by omega) (by omega) (by omega)
    unfold sc at h
    rw [Int.cast_natCast] at h
    rw [h]
    congr 1
    rw [show ((2 ^ 52 + v % 2 ^ 52 : Nat) : ℤ) / 2 ^ 27 * 2 ^ 27 = ((2 ^ 52 + v % 2 ^ 52 / 2 ^ 27 * 2 ^ 27 : Nat) : ℤ) by omega,
      Int.cast_natCast]

/-- 0.1, in any rounding. -/
example : printDouble rne 3 5 0x3FB999999999999A = .ok (str "0.100000") := by
  obtain ⟨N, h, he⟩ := C75_accuracy rne_rounding 3 5 0x3FB999999999999A (by unfold Spec.IsFinite; decide)
  have hd : Spec.dblAbs 0x3FB999999999999A = 3602879701896397 / 36028797018963968 := by
    norm_num [Spec.dblAbs]
  rw [hd, abs_le] at he
  norm_num at he
  have h1 : (99999 : ℚ) < N := by linarith [he.1]
  have h2 : (N : ℚ) < 100001 := by linarith [he.2]
  have h1 : 99999 < N := by exact_mod_cast h1
  have h2 : N < 100001 := by exact_mod_cast h2
  obtain rfl : N = 100000 := by omega
  rw [h]
  decide

/-- -1234.53125 and 2^56. -/
example : printDouble rne 3 5 0xC0934A2000000000 = .ok (str "-1234.531250") := by
  have hd : Spec.dblAbs 0xC0934A2000000000 = ((79010 : Nat) : ℚ) / 64 := by norm_num [Spec.dblAbs]
  rw [C75_exact_fractions rne_rounding 3 5 0xC0934A2000000000 79010 (by unfold Spec.IsFinite; decide) hd (by rw [hd]; norm_num)]
  decide +kernel
example : printDouble rne 3 5 0x4370000000000000 = .ok (str "72057594037927936.000000") := by
  have hd : Spec.dblAbs 0x4370000000000000 = ((2 ^ 56 : Nat) : ℚ) := by norm_num [Spec.dblAbs]
  rw [C75_exact_integers rne_rounding 3 5 0x4370000000000000 (2 ^ 56) (by unfold Spec.IsFinite; decide) hd (by norm_num)]
  decide +kernel

end Pigo.Stb
