import Verif.Lemmas.StbCrude

/-!
# Multiplication by `10^p` for `p ≥ 23`
-/

namespace Pigo.Stb

open Spec (IsDouble Rounding)

theorem dblAbs_isDouble {v : Nat} : IsDouble (Spec.dblAbs v) := by
  unfold Spec.dblAbs
  split
  · refine ⟨((v % 2 ^ 52 : Nat) : ℤ), -1074, ?_, le_refl _, by rw [Int.cast_natCast]⟩
    rw [abs_of_nonneg (by omega)]; omega
  · refine ⟨((2 ^ 52 + v % 2 ^ 52 : Nat) : ℤ), ((v / 2 ^ 52 % 2048 : Nat) : ℤ) - 1075, ?_, by omega, by rw [Int.cast_natCast]⟩
    rw [abs_of_nonneg (by omega)]; omega

theorem Near.mono {ε ε' V : ℚ} {q : ℚ × ℚ} (h : Near ε V q) (hV : 0 ≤ V) (he : ε ≤ ε') : Near ε' V q :=
  ⟨h.sum.trans (mul_le_mul_of_nonneg_right he hV), h.low, h.hi, h.lo⟩

variable {rnd : ℚ → ℚ} (R : Rounding rnd)
include R

theorem ddMultLos_eq (ol a ql y : ℚ) : ddMultLos rnd ol y ql = ddMultLo rnd ol a ql y 0 := by
  unfold ddMultLos ddMultLo
  rw [mul_zero, rnd_zero R, zero_add, rnd_exact R (R.isDouble _), mul_comm y ql]

/-- Table entries: the error of rounding. -/
theorem lit_near {T : ℚ} (hT : 1 ≤ T) : |rnd T - T| ≤ T / 2 ^ 52 := by
  have h := rnd_rel R T
  rw [abs_of_nonneg (by linarith : (0 : ℚ) ≤ T)] at h
  have e : (2 : ℚ) ^ (-1075 : ℤ) ≤ 1 / 2 ^ 53 := by
    rw [one_div, ← zpow_natCast, ← zpow_neg]
    exact zpow_le_zpow_right₀ (by norm_num) (by norm_num)
  have e2 : (1 : ℚ) / 2 ^ 53 ≤ T / 2 ^ 53 := div_le_div_of_nonneg_right hT (by positivity)
  have e3 : T / 2 ^ 52 = T / 2 ^ 53 + T / 2 ^ 53 := by ring
  linarith

theorem lit_small {E T : ℚ} (hT : 1 ≤ T) (h : |E| ≤ T / 2 ^ 52) : |rnd E| ≤ T / 2 ^ 50 := by
  have h1 := rnd_rel R E
  have e : (2 : ℚ) ^ (-1075 : ℤ) ≤ 1 / 2 ^ 53 := by
    rw [one_div, ← zpow_natCast, ← zpow_neg]
    exact zpow_le_zpow_right₀ (by norm_num) (by norm_num)
  have e2 : (1 : ℚ) / 2 ^ 53 ≤ T / 2 ^ 53 := div_le_div_of_nonneg_right hT (by positivity)
  have e3 : |E| / 2 ^ 53 ≤ |E| := div_le_self (abs_nonneg _) (by norm_num)
  have e4 : |rnd E| ≤ |rnd E - E| + |E| := by
    have := abs_add_le (rnd E - E) E
    rwa [sub_add_cancel] at this
  have e5 : T / 2 ^ 50 = T / 2 ^ 52 + T / 2 ^ 52 + T / 2 ^ 53 + 3 * (T / 2 ^ 53) := by ring
  have e6 : 0 ≤ T / 2 ^ 53 := by positivity
  linarith

omit R in
theorem rnd_pow10_dbl {k : Nat} (h : k ≤ 22) : IsDouble ((10 : ℚ) ^ k) := by
  obtain ⟨Y, b, h1, h2, _, h4, _, h6⟩ := pow10_sc k h
  rw [h6]
  exact isDouble_sc (by rw [abs_of_nonneg (by omega)]; omega) (by omega)

/-- The first part of the power, up to `10^44`. -/
theorem raiseBot_near {d : ℚ} {eb : Nat} (hd : IsDouble d) (hd0 : 0 < d) (he : eb ≤ 44)
    (hw : (2 : ℚ) ^ (-1009 : ℤ) ≤ d * (10 : ℚ) ^ (if eb > 22 then 22 else eb)) :
    ∃ q, raiseBot rnd d eb = .ok q ∧ Near (1 / 2 ^ 43) (d * (10 : ℚ) ^ eb) q := by
  unfold raiseBot
  by_cases h0 : eb = 0
  · rw [if_pos h0]
    refine ⟨_, rfl, ⟨?_, ?_, hd, isDouble_zero⟩⟩
    · simp only [h0]
      have : d + 0 - d * 10 ^ 0 = 0 := by ring
      rw [this, abs_zero]; positivity
    · simp only [abs_zero]; positivity
  rw [if_neg h0]
  generalize hk : (if eb > 22 then 22 else eb) = k at *
  have hk22 : k ≤ 22 := by split at hk <;> omega
  have hke : k ≤ eb := by split at hk <;> omega
  have hkr : eb - k ≤ 22 := by split at hk <;> omega
  rw [lit_bot hk22]
  simp only [bind, Except.bind]
  rw [rnd_exact R (rnd_pow10_dbl hk22)]
  have hT : (0 : ℚ) < (10 : ℚ) ^ k := by positivity
  have hV1 : 0 < d * (10 : ℚ) ^ k := by positivity
  have hw' : (2 : ℚ) ^ (-1010 : ℤ) ≤ d * (10 : ℚ) ^ k :=
    le_trans (zpow_le_zpow_right₀ (by norm_num) (by norm_num)) hw
  obtain ⟨m1, m2, m3, m4⟩ := ddMultHi_crude R hd (rnd_pow10_dbl hk22) hd0.le hT.le hw'
  have hn : Near (1 / 2 ^ 46) (d * (10 : ℚ) ^ k) (ddMultHi rnd d ((10 : ℚ) ^ k)) := by
    refine ⟨?_, ?_, m3, m4⟩
    · rw [one_div, inv_mul_eq_div]; exact m1
    · refine m2.trans ?_
      norm_num; linarith
  by_cases hz : eb - k = 0
  · rw [if_pos hz]
    have : k = eb := by omega
    subst this
    exact ⟨_, rfl, hn.mono hV1.le (by norm_num)⟩
  · rw [if_neg hz, lit_bot hkr]
    simp only
    rw [rnd_exact R (rnd_pow10_dbl hkr)]
    refine ⟨_, rfl, ?_⟩
    obtain ⟨n1, n2⟩ := ddRenorm_crude R hn (by norm_num) hw'
    have hT2 : (1 : ℚ) ≤ (10 : ℚ) ^ (eb - k) := one_le_pow₀ (by norm_num)
    have hT0 : (0 : ℚ) < (10 : ℚ) ^ (eb - k) := by positivity
    have hVT : d * (10 : ℚ) ^ eb = d * (10 : ℚ) ^ k * (10 : ℚ) ^ (eb - k) := by
      rw [mul_assoc, ← pow_add]; congr 2; omega
    rw [ddMultLos_eq R _ (ddRenorm rnd (ddMultHi rnd d (10 ^ k)).1 (ddMultHi rnd d (10 ^ k)).2).1, hVT]
    refine (mult_crude R n1 (by norm_num) (by norm_num) hV1 hT0 ?_ (rnd_pow10_dbl hkr) (by simp; positivity)
      (by simp; positivity) ?_).mono (by positivity) (by norm_num)
    · calc (2 : ℚ) ^ (-1009 : ℤ) ≤ d * (10 : ℚ) ^ k := hw
        _ ≤ _ := le_mul_of_one_le_right hV1.le hT2
    · refine n2.trans ?_
      norm_num; linarith

omit R in
theorem top_lit {k : Nat} (hk : k < 13) : lit rnd top k = .ok (rnd ((10 : ℚ) ^ (23 * (k + 1)))) ∧
    ∃ E : ℚ, lit rnd toperr k = .ok (rnd E) ∧ |E| ≤ (10 : ℚ) ^ (23 * (k + 1)) / 2 ^ 52 := by
  have key : ∀ k : Nat, k < 13 → ∃ h : k < toperr.length, ∃ h2 : k < top.length,
      top[k] = (1, 23 * ((k : ℤ) + 1)) ∧ 0 ≤ toperr[k].2 ∧
      toperr[k].1.natAbs * 10 ^ toperr[k].2.toNat * 2 ^ 52 ≤ 10 ^ (23 * (k + 1)) := by decide +kernel
  obtain ⟨h1, h2, h3, h4, h5⟩ := key k hk
  constructor
  · unfold lit
    rw [List.getElem?_eq_getElem h2, h3]
    simp only
    congr 2
    rw [show (23 * ((k : ℤ) + 1)) = ((23 * (k + 1) : Nat) : ℤ) by push_cast; ring, zpow_natCast]
    push_cast; ring
  · refine ⟨(toperr[k].1 : ℚ) * (10 : ℚ) ^ toperr[k].2, ?_, ?_⟩
    · unfold lit
      rw [List.getElem?_eq_getElem h1]
      rfl
    · generalize toperr[k].1 = m at *
      generalize toperr[k].2 = e at *
      obtain ⟨j, rfl⟩ : ∃ j : Nat, e = j := ⟨e.toNat, by omega⟩
      rw [Int.toNat_natCast] at h5
      rw [zpow_natCast, abs_mul, abs_of_pos (by positivity : (0 : ℚ) < 10 ^ j), le_div_iff₀ (by positivity)]
      have : ((m.natAbs * 10 ^ j * 2 ^ 52 : Nat) : ℚ) ≤ ((10 ^ (23 * (k + 1)) : Nat) : ℚ) := by exact_mod_cast h5
      have e : ((m.natAbs : Nat) : ℚ) = |(m : ℚ)| := by rw [Nat.cast_natAbs, Int.cast_abs]
      push_cast at this
      rwa [e] at this

/-- The second part of the power. -/
theorem raiseTop_near {ε V : ℚ} {q : ℚ × ℚ} {et : Nat} (hq : Near ε V q) (h0 : 0 ≤ ε) (hε : ε ≤ 1 / 2 ^ 43)
    (he : et ≤ 13) (hw : (2 : ℚ) ^ (-1009 : ℤ) ≤ V) :
    ∃ q', raiseTop rnd top toperr et q.1 q.2 = .ok q' ∧ Near (ε + 1 / 2 ^ 43) (V * (10 : ℚ) ^ (23 * et)) q' := by
  have hV : 0 < V := lt_of_lt_of_le (sc_pos _) hw
  unfold raiseTop
  by_cases hz : et = 0
  · rw [if_pos hz, hz]
    refine ⟨_, rfl, ?_⟩
    simp only [mul_zero, pow_zero, mul_one]
    exact hq.mono hV.le (by norm_num)
  · rw [if_neg hz]
    obtain ⟨t1, E, t2, t3⟩ := top_lit (rnd := rnd) (k := et - 1) (by omega)
    rw [show et - 1 + 1 = et by omega] at t1 t3
    rw [t1, t2]
    simp only [bind, Except.bind]
    refine ⟨_, rfl, ?_⟩
    have hT : (1 : ℚ) ≤ (10 : ℚ) ^ (23 * et) := one_le_pow₀ (by norm_num)
    generalize (10 : ℚ) ^ (23 * et) = T at *
    obtain ⟨n1, n2⟩ := ddRenorm_crude R hq (hε.trans (by norm_num))
      (le_trans (zpow_le_zpow_right₀ (by norm_num) (by norm_num)) hw)
    refine (mult_crude R n1 (by positivity) ?_ hV (by linarith) ?_ (R.isDouble _) ?_ (lit_small R hT t3) ?_).mono
      (by positivity) ?_
    · norm_num at hε ⊢; linarith
    · exact hw.trans (le_mul_of_one_le_right hV.le hT)
    · refine (lit_near R hT).trans ?_
      norm_num; linarith
    · refine n2.trans ?_
      norm_num; linarith
    · norm_num; linarith

/-- What `scale` computes for powers above 22. -/
theorem ddScale_tiny {v : Nat} {p : Nat} (hp : 23 ≤ p) (h1 : (10 : ℚ) ^ 17 ≤ Spec.dblAbs v * (10 : ℚ) ^ p)
    (h2 : Spec.dblAbs v * (10 : ℚ) ^ p < 4 * (10 : ℚ) ^ 18) (hp2 : p ≤ 342) :
    ∃ b : Nat, ddScale rnd v p = .ok b ∧
      |(b : ℚ) - Spec.dblAbs v * (10 : ℚ) ^ p| ≤ 1 + Spec.dblAbs v * (10 : ℚ) ^ p / 2 ^ 40 := by
  have hV0 : 0 < Spec.dblAbs v * (10 : ℚ) ^ p := lt_of_lt_of_le (by positivity) h1
  have hd0 : 0 < Spec.dblAbs v := pos_of_mul_pos_left hV0 (by positivity)
  have key : ∀ e < 343, 23 ≤ e → topIndex e ≤ 13 ∧ topIndex e * 23 ≤ e ∧ e - topIndex e * 23 ≤ 44 ∧
      e - (if e - topIndex e * 23 > 22 then 22 else e - topIndex e * 23) ≤ 320 := by decide +kernel
  obtain ⟨k1, k2, k3, k4⟩ := key p (by omega) hp
  have hw : (2 : ℚ) ^ (-1009 : ℤ) ≤ Spec.dblAbs v * (10 : ℚ) ^ (if p - topIndex p * 23 > 22 then 22 else p - topIndex p * 23) := by
    generalize hk : (if p - topIndex p * 23 > 22 then 22 else p - topIndex p * 23) = k at *
    have hkp : k ≤ p := by split at hk <;> omega
    have e1 : (10 : ℚ) ^ p = (10 : ℚ) ^ k * (10 : ℚ) ^ (p - k) := by rw [← pow_add]; congr 1; omega
    have e2 : (10 : ℚ) ^ (p - k) ≤ (10 : ℚ) ^ 320 := pow_le_pow_right₀ (by norm_num) k4
    have e3 : (10 : ℚ) ^ 17 ≤ Spec.dblAbs v * (10 : ℚ) ^ k * (10 : ℚ) ^ 320 := by
      refine h1.trans ?_
      rw [e1, ← mul_assoc]
      exact mul_le_mul_of_nonneg_left e2 (by positivity)
    have e4 : (2 : ℚ) ^ (-1009 : ℤ) * (10 : ℚ) ^ 320 ≤ (10 : ℚ) ^ 17 := by
      rw [zpow_neg, inv_mul_le_iff₀ (by positivity)]
      have h : (10 : Nat) ^ 320 ≤ 2 ^ 1009 * 10 ^ 17 := by decide +kernel
      have h' : ((10 ^ 320 : Nat) : ℚ) ≤ ((2 ^ 1009 * 10 ^ 17 : Nat) : ℚ) := Nat.cast_le.mpr h
      rw [Nat.cast_mul, Nat.cast_pow, Nat.cast_pow, Nat.cast_pow] at h'
      exact h'
    have : (2 : ℚ) ^ (-1009 : ℤ) * (10 : ℚ) ^ 320 ≤ Spec.dblAbs v * (10 : ℚ) ^ k * (10 : ℚ) ^ 320 := e4.trans e3
    exact le_of_mul_le_mul_right this (by positivity)
  obtain ⟨q, r1, n1⟩ := raiseBot_near R dblAbs_isDouble hd0 k3 hw
  have hw2 : (2 : ℚ) ^ (-1009 : ℤ) ≤ Spec.dblAbs v * (10 : ℚ) ^ (p - topIndex p * 23) := by
    refine hw.trans (mul_le_mul_of_nonneg_left ?_ hd0.le)
    exact pow_le_pow_right₀ (by norm_num) (by split <;> omega)
  obtain ⟨q', r2, n2⟩ := raiseTop_near R n1 (by norm_num) (le_refl _) k1 hw2
  have hVV : Spec.dblAbs v * (10 : ℚ) ^ (p - topIndex p * 23) * (10 : ℚ) ^ (23 * topIndex p) = Spec.dblAbs v * (10 : ℚ) ^ p := by
    rw [mul_assoc, ← pow_add]; congr 2; omega
  rw [hVV] at n2
  obtain ⟨n3, l3⟩ := ddRenorm_crude R n2 (by norm_num)
    (le_trans (zpow_le_zpow_right₀ (by norm_num) (by norm_num)) (hw2.trans (by
      rw [← hVV]; exact le_mul_of_one_le_right (by positivity) (one_le_pow₀ (by norm_num)))))
  have hr : raise rnd (Spec.dblAbs v) (p : ℤ) = .ok (ddRenorm rnd q'.1 q'.2) := by
    unfold raise
    rw [if_neg (by omega), if_neg (by omega)]
    simp only [Int.natAbs_natCast, bind, Except.bind]
    rw [r1]
    simp only
    rw [r2]
  generalize ddRenorm rnd q'.1 q'.2 = z at *
  obtain ⟨h, y⟩ := z
  have s := abs_le.mp n3.sum
  generalize Spec.dblAbs v * (10 : ℚ) ^ p = V at *
  simp only at s l3
  have l3' := abs_le.mp l3
  norm_num at s l3' h1 h2
  obtain ⟨b, b1, b2, _⟩ := ddScale_of R hr n3.hi n3.lo (by
    norm_num at l3 ⊢
    linarith) (by norm_num; linarith) (by norm_num; linarith)
  refine ⟨b, b1, ?_⟩
  rw [abs_lt] at b2
  rw [abs_le]
  norm_num
  constructor <;> linarith

end Pigo.Stb
