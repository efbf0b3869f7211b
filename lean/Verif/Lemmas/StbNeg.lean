import Verif.Lemmas.StbHuge

/-!
# The tables of negative powers of ten, and `ddScale` for negative powers
-/

namespace Pigo.Stb

open Spec (IsDouble Rounding)

theorem Sharp.mono {ε ε' V : ℚ} {q : ℚ × ℚ} (h : Sharp ε V q) (hV : 0 ≤ V) (he : ε ≤ ε') : Sharp ε' V q :=
  ⟨h.sum.trans (mul_le_mul_of_nonneg_right he hV), h.low, h.hi, h.lo⟩

/-- The entry `m · 10^-f` of an error table against `10^-k` and its nearest double. -/
def TableOk (k : Nat) (m : ℤ) (f : Nat) : Prop :=
  let s := 53 + Nat.log 2 (10 ^ k)
  let n : Nat := (2 * 2 ^ s + 10 ^ k) / (2 * 10 ^ k)
  2 ^ 52 < n ∧ n < 2 ^ 53 ∧ s ≤ 1074 ∧ 2 * ((2 : ℤ) ^ s - n * 10 ^ k).natAbs < 10 ^ k ∧
    ((10 : ℤ) ^ f * 2 ^ s - n * 10 ^ k * 10 ^ f - m * 10 ^ k * 2 ^ s).natAbs * 2 ^ 100 ≤ 10 ^ f * 2 ^ s ∧
    m.natAbs * 10 ^ k * 2 ^ 52 ≤ 10 ^ f

instance (k : Nat) (m : ℤ) (f : Nat) : Decidable (TableOk k m f) := by unfold TableOk; infer_instance

theorem negbot_ok : ∀ k : Nat, k < 22 → ∃ h : k < negboterr.length, ∃ h2 : k < negbot.length,
    negbot[k] = (1, -((k : ℤ) + 1)) ∧ negboterr[k].2 = -(negboterr[k].2.natAbs : ℤ) ∧
    TableOk (k + 1) negboterr[k].1 negboterr[k].2.natAbs := by decide +kernel

theorem negtop_ok : ∀ k : Nat, k < 12 → ∃ h : k < negtoperr.length, ∃ h2 : k < negtop.length,
    negtop[k] = (1, -(23 * ((k : ℤ) + 1))) ∧ negtoperr[k].2 = -(negtoperr[k].2.natAbs : ℤ) ∧
    TableOk (23 * (k + 1)) negtoperr[k].1 negtoperr[k].2.natAbs := by decide +kernel

theorem natAbs_cast (z : ℤ) : ((z.natAbs : Nat) : ℚ) = |(z : ℚ)| := by rw [Nat.cast_natAbs, Int.cast_abs]

variable {rnd : ℚ → ℚ} (R : Rounding rnd)
include R

/-- A table entry and its error, as doubles. -/
theorem table_near {k : Nat} {m : ℤ} {f : Nat} (h : TableOk k m f) (hk : k ≤ 276) :
    |rnd ((10 : ℚ) ^ (-(k : ℤ))) + rnd ((m : ℚ) * (10 : ℚ) ^ (-(f : ℤ))) - (10 : ℚ) ^ (-(k : ℤ))| ≤
      (10 : ℚ) ^ (-(k : ℤ)) / 2 ^ 99 ∧
    |rnd ((m : ℚ) * (10 : ℚ) ^ (-(f : ℤ)))| ≤ (10 : ℚ) ^ (-(k : ℤ)) / 2 ^ 49 := by
  unfold TableOk at h
  simp only at h
  generalize 53 + Nat.log 2 (10 ^ k) = s at h
  generalize (2 * 2 ^ s + 10 ^ k) / (2 * 10 ^ k) = n at h
  obtain ⟨h1, h2, hs, h3, h4, h5⟩ := h
  have hT0 : (0 : ℚ) < (10 : ℚ) ^ k := by positivity
  have hs0 : (0 : ℚ) < (2 : ℚ) ^ s := by positivity
  have hf0 : (0 : ℚ) < (10 : ℚ) ^ f := by positivity
  have hrnd : rnd ((10 : ℚ) ^ (-(k : ℤ))) = sc n (-(s : ℤ)) := by
    apply rnd_unique R (by omega) (by omega) (by omega)
    have h3' : ((2 * ((2 : ℤ) ^ s - n * 10 ^ k).natAbs : Nat) : ℚ) < ((10 ^ k : Nat) : ℚ) := Nat.cast_lt.mpr h3
    rw [Nat.cast_mul, natAbs_cast] at h3'
    push_cast at h3'
    unfold sc
    rw [zpow_neg, zpow_neg, zpow_natCast, zpow_natCast]
    have e : ((10 : ℚ) ^ k)⁻¹ - (n : ℚ) * ((2 : ℚ) ^ s)⁻¹ = ((2 : ℚ) ^ s - n * 10 ^ k) * ((10 : ℚ) ^ k)⁻¹ * ((2 : ℚ) ^ s)⁻¹ := by
      field_simp
    push_cast
    rw [e, abs_mul, abs_mul, abs_of_pos (inv_pos.mpr hT0), abs_of_pos (inv_pos.mpr hs0)]
    have : |(2 : ℚ) ^ s - n * 10 ^ k| * ((10 : ℚ) ^ k)⁻¹ < 1 / 2 := by
      rw [← div_eq_mul_inv, div_lt_iff₀ hT0]; linarith
    calc _ < 1 / 2 * ((2 : ℚ) ^ s)⁻¹ := mul_lt_mul_of_pos_right this (inv_pos.mpr hs0)
      _ = _ := by ring
  -- the error
  have hE : |(m : ℚ) * (10 : ℚ) ^ (-(f : ℤ))| ≤ (10 : ℚ) ^ (-(k : ℤ)) / 2 ^ 52 := by
    have h5' : ((m.natAbs * 10 ^ k * 2 ^ 52 : Nat) : ℚ) ≤ ((10 ^ f : Nat) : ℚ) := Nat.cast_le.mpr h5
    rw [Nat.cast_mul, Nat.cast_mul, natAbs_cast] at h5'
    push_cast at h5'
    rw [zpow_neg, zpow_neg, zpow_natCast, zpow_natCast, abs_mul, abs_of_pos (inv_pos.mpr hf0), ← div_eq_mul_inv,
      div_le_iff₀ hf0, div_mul_eq_mul_div, le_div_iff₀ (by positivity), inv_mul_eq_div, le_div_iff₀ hT0]
    linarith
  have hsum : |sc n (-(s : ℤ)) + (m : ℚ) * (10 : ℚ) ^ (-(f : ℤ)) - (10 : ℚ) ^ (-(k : ℤ))| ≤ (10 : ℚ) ^ (-(k : ℤ)) / 2 ^ 100 := by
    have h4' : ((((10 : ℤ) ^ f * 2 ^ s - n * 10 ^ k * 10 ^ f - m * 10 ^ k * 2 ^ s).natAbs * 2 ^ 100 : Nat) : ℚ) ≤
      ((10 ^ f * 2 ^ s : Nat) : ℚ) := Nat.cast_le.mpr h4
    rw [Nat.cast_mul, natAbs_cast] at h4'
    push_cast at h4'
    unfold sc
    rw [zpow_neg, zpow_neg, zpow_neg, zpow_natCast, zpow_natCast, zpow_natCast]
    push_cast
    have e : (n : ℚ) * ((2 : ℚ) ^ s)⁻¹ + m * ((10 : ℚ) ^ f)⁻¹ - ((10 : ℚ) ^ k)⁻¹ =
        -((10 : ℚ) ^ f * 2 ^ s - n * 10 ^ k * 10 ^ f - m * 10 ^ k * 2 ^ s) * (((10 : ℚ) ^ f * 2 ^ s)⁻¹ * ((10 : ℚ) ^ k)⁻¹) := by
      field_simp; ring
    rw [e, abs_mul, abs_neg, abs_of_pos (by positivity : (0 : ℚ) < ((10 : ℚ) ^ f * 2 ^ s)⁻¹ * ((10 : ℚ) ^ k)⁻¹)]
    rw [le_div_iff₀ (by positivity)]
    generalize |(10 : ℚ) ^ f * 2 ^ s - n * 10 ^ k * 10 ^ f - m * 10 ^ k * 2 ^ s| = D at *
    calc D * (((10 : ℚ) ^ f * 2 ^ s)⁻¹ * ((10 : ℚ) ^ k)⁻¹) * 2 ^ 100
        = D * 2 ^ 100 * ((10 : ℚ) ^ f * 2 ^ s)⁻¹ * ((10 : ℚ) ^ k)⁻¹ := by ring
      _ ≤ 1 * ((10 : ℚ) ^ k)⁻¹ := by
        refine mul_le_mul_of_nonneg_right ?_ (by positivity)
        rw [← div_eq_mul_inv, div_le_one (by positivity)]
        exact h4'
      _ = _ := one_mul _
  -- rounding the error
  have hr := rnd_rel R ((m : ℚ) * (10 : ℚ) ^ (-(f : ℤ)))
  have hη : (2 : ℚ) ^ (-1075 : ℤ) ≤ (10 : ℚ) ^ (-(k : ℤ)) / 2 ^ 105 := by
    have e1 : (10 : ℚ) ^ (-(276 : ℤ)) ≤ (10 : ℚ) ^ (-(k : ℤ)) := zpow_le_zpow_right₀ (by norm_num) (by omega)
    have e2 : (2 : ℚ) ^ (-1075 : ℤ) ≤ (10 : ℚ) ^ (-(276 : ℤ)) / 2 ^ 105 := by
      rw [zpow_neg, zpow_neg, le_div_iff₀ (by positivity), inv_mul_eq_div, div_le_iff₀ (by positivity),
        inv_mul_eq_div, le_div_iff₀ (by positivity)]
      have h : 2 ^ 105 * 10 ^ 276 ≤ 2 ^ 1075 := by decide +kernel
      have h' : ((2 ^ 105 * 10 ^ 276 : Nat) : ℚ) ≤ ((2 ^ 1075 : Nat) : ℚ) := Nat.cast_le.mpr h
      rw [Nat.cast_mul, Nat.cast_pow, Nat.cast_pow, Nat.cast_pow] at h'
      exact h'
    exact e2.trans (div_le_div_of_nonneg_right e1 (by positivity))
  have hT : (0 : ℚ) < (10 : ℚ) ^ (-(k : ℤ)) := by positivity
  rw [hrnd]
  generalize (10 : ℚ) ^ (-(k : ℤ)) = T at *
  generalize (m : ℚ) * (10 : ℚ) ^ (-(f : ℤ)) = E at *
  generalize sc n (-(s : ℤ)) = y at *
  generalize (2 : ℚ) ^ (-1075 : ℤ) = η at *
  have hE2 : |E| / 2 ^ 53 ≤ T / 2 ^ 52 / 2 ^ 53 := div_le_div_of_nonneg_right hE (by positivity)
  rw [abs_le] at hsum hE hr
  generalize |E| / 2 ^ 53 = g at *
  norm_num at *
  rw [abs_le, abs_le]
  constructor <;> constructor <;> linarith

omit R in
theorem lit_neg {t : List (ℤ × ℤ)} {k : Nat} (h : k < t.length) (m : ℤ) (f : Nat) (h1 : t[k].1 = m) (h2 : t[k].2 = -(f : ℤ)) :
    lit rnd t k = .ok (rnd ((m : ℚ) * (10 : ℚ) ^ (-(f : ℤ)))) := by
  unfold lit
  rw [List.getElem?_eq_getElem h]
  subst h1
  rw [← h2]

theorem ddMultLos_eq' (ol d y ye : ℚ) : ddMultLos rnd ol d ye = ddMultLo rnd ol d 0 y ye := by
  unfold ddMultLos ddMultLo
  rw [zero_mul, rnd_zero R, add_zero, rnd_exact R (R.isDouble _)]

omit R in
theorem pow_lo {k : Nat} (hk : k ≤ 276) : (2 : ℚ) ^ (-1000 : ℤ) ≤ (10 : ℚ) ^ (-(k : ℤ)) := by
  have e1 : (10 : ℚ) ^ (-(276 : ℤ)) ≤ (10 : ℚ) ^ (-(k : ℤ)) := zpow_le_zpow_right₀ (by norm_num) (by omega)
  refine le_trans ?_ e1
  rw [zpow_neg, zpow_neg, inv_le_inv₀ (by positivity) (by positivity)]
  have h : 10 ^ 276 ≤ 2 ^ 1000 := by decide +kernel
  have h' : ((10 ^ 276 : Nat) : ℚ) ≤ ((2 ^ 1000 : Nat) : ℚ) := Nat.cast_le.mpr h
  rw [Nat.cast_pow, Nat.cast_pow] at h'
  exact h'

theorem raiseNegBot_sharp {d : ℚ} {eb : Nat} (hd : IsDouble d) (hd0 : 0 < d) (he : eb ≤ 22)
    (hw : 2 ≤ d * (10 : ℚ) ^ (-(eb : ℤ))) :
    ∃ q, raiseNegBot rnd d eb = .ok q ∧ Sharp (1 / 2 ^ 92) (d * (10 : ℚ) ^ (-(eb : ℤ))) q := by
  unfold raiseNegBot
  by_cases h0 : eb = 0
  · rw [if_pos h0]
    refine ⟨_, rfl, ⟨?_, ?_, hd, isDouble_zero⟩⟩
    · simp only [h0]
      have : d + 0 - d * (10 : ℚ) ^ (-((0 : Nat) : ℤ)) = 0 := by simp
      rw [this, abs_zero]; positivity
    · simp only [abs_zero]; positivity
  rw [if_neg h0]
  obtain ⟨h1, h2, h3, h4, h5⟩ := negbot_ok (eb - 1) (by omega)
  rw [lit_neg h2 1 eb (by rw [h3]) (by rw [h3]; simp only; omega), lit_neg h1 _ _ rfl h4]
  rw [show eb - 1 + 1 = eb by omega] at h5
  obtain ⟨t1, t2⟩ := table_near R h5 (by omega)
  simp only [bind, Except.bind, Int.cast_one, one_mul]
  refine ⟨_, rfl, ?_⟩
  rw [ddMultLos_eq' R _ d (rnd ((10 : ℚ) ^ (-(eb : ℤ))))]
  have hs : Sharp 0 d (d, 0) := ⟨by simp, by simp; positivity, hd, isDouble_zero⟩
  have := mult_sharp R hs (by norm_num) (by positivity) (zpow_le_one_of_nonpos₀ (by norm_num) (by omega)) (pow_lo (by omega)) hw
    (R.isDouble _) t1 t2 (by simp; positivity)
  rw [zero_add] at this
  exact this

theorem raiseTop_sharp {ε V : ℚ} {q : ℚ × ℚ} {et : Nat} (hq : Sharp ε V q) (hε : ε ≤ 1 / 2 ^ 85)
    (he : et ≤ 12) (hw : 2 ≤ V * (10 : ℚ) ^ (-((23 * et : Nat) : ℤ))) (hV : 1 ≤ V) :
    ∃ q', raiseTop rnd negtop negtoperr et q.1 q.2 = .ok q' ∧
      Sharp (ε + 1 / 2 ^ 91) (V * (10 : ℚ) ^ (-((23 * et : Nat) : ℤ))) q' := by
  unfold raiseTop
  by_cases hz : et = 0
  · rw [if_pos hz, hz]
    refine ⟨_, rfl, ?_⟩
    simp only [mul_zero, Nat.cast_zero, neg_zero, zpow_zero, mul_one]
    exact hq.mono (by linarith) (by norm_num)
  · rw [if_neg hz]
    obtain ⟨h1, h2, h3, h4, h5⟩ := negtop_ok (et - 1) (by omega)
    rw [lit_neg h2 1 (23 * et) (by rw [h3]) (by rw [h3]; simp only; omega), lit_neg h1 _ _ rfl h4]
    rw [show et - 1 + 1 = et by omega] at h5
    obtain ⟨t1, t2⟩ := table_near R h5 (by omega)
    simp only [bind, Except.bind, Int.cast_one, one_mul]
    refine ⟨_, rfl, ?_⟩
    obtain ⟨n1, n2⟩ := ddRenorm_sharp R hq (hε.trans (by norm_num)) hV
    refine (mult_sharp R n1 ?_ (by positivity) (zpow_le_one_of_nonpos₀ (by norm_num) (by omega)) (pow_lo (by omega)) hw
      (R.isDouble _) t1 t2 ?_).mono (by positivity) ?_
    · norm_num at hε ⊢; linarith
    · refine n2.trans ?_
      norm_num; linarith
    · norm_num; linarith

/-- What `scale` computes for negative powers. -/
theorem ddScale_huge {v : Nat} {e : Nat} (he : 1 ≤ e) (he2 : e ≤ 298)
    (h1 : (10 : ℚ) ^ 17 ≤ Spec.dblAbs v * (10 : ℚ) ^ (-(e : ℤ)))
    (h2 : Spec.dblAbs v * (10 : ℚ) ^ (-(e : ℤ)) < 4 * (10 : ℚ) ^ 18) :
    ∃ b : Nat, ddScale rnd v (-(e : ℤ)) = .ok b ∧ |(b : ℚ) - Spec.dblAbs v * (10 : ℚ) ^ (-(e : ℤ))| < 1 + 1 / 2 ^ 20 := by
  have hV0 : 0 < Spec.dblAbs v * (10 : ℚ) ^ (-(e : ℤ)) := lt_of_lt_of_le (by positivity) h1
  have hd0 : 0 < Spec.dblAbs v := pos_of_mul_pos_left hV0 (by positivity)
  have key : ∀ e < 299, topIndex e ≤ 12 ∧ topIndex e * 23 ≤ e ∧ e - topIndex e * 23 ≤ 22 := by decide +kernel
  obtain ⟨k1, k2, k3⟩ := key e (by omega)
  have hVV : Spec.dblAbs v * (10 : ℚ) ^ (-((e - topIndex e * 23 : Nat) : ℤ)) * (10 : ℚ) ^ (-((23 * topIndex e : Nat) : ℤ)) =
      Spec.dblAbs v * (10 : ℚ) ^ (-(e : ℤ)) := by
    rw [mul_assoc, ← zpow_add₀ (by norm_num)]; congr 2; omega
  have hw : 2 ≤ Spec.dblAbs v * (10 : ℚ) ^ (-((e - topIndex e * 23 : Nat) : ℤ)) := by
    have : (10 : ℚ) ^ (-((23 * topIndex e : Nat) : ℤ)) ≤ 1 := zpow_le_one_of_nonpos₀ (by norm_num) (by omega)
    rw [← hVV] at h1
    have h3 : Spec.dblAbs v * (10 : ℚ) ^ (-((e - topIndex e * 23 : Nat) : ℤ)) * (10 : ℚ) ^ (-((23 * topIndex e : Nat) : ℤ)) ≤
      Spec.dblAbs v * (10 : ℚ) ^ (-((e - topIndex e * 23 : Nat) : ℤ)) * 1 := mul_le_mul_of_nonneg_left this (by positivity)
    rw [mul_one] at h3
    norm_num at h1 h3 ⊢
    linarith
  obtain ⟨q, r1, n1⟩ := raiseNegBot_sharp R dblAbs_isDouble hd0 k3 hw
  obtain ⟨q', r2, n2⟩ := raiseTop_sharp R n1 (by norm_num) k1 (by rw [hVV]; norm_num at h1 ⊢; linarith) (by linarith)
  rw [hVV] at n2
  obtain ⟨n3, l3⟩ := ddRenorm_sharp R n2 (by norm_num) (by norm_num at h1 ⊢; linarith)
  have hr : raise rnd (Spec.dblAbs v) (-(e : ℤ)) = .ok (ddRenorm rnd q'.1 q'.2) := by
    unfold raise
    rw [if_neg (by omega), if_pos (by omega)]
    simp only [Int.natAbs_neg, Int.natAbs_natCast, bind, Except.bind]
    rw [r1]
    simp only
    rw [r2]
  generalize ddRenorm rnd q'.1 q'.2 = z at *
  obtain ⟨h, y⟩ := z
  have s := abs_le.mp n3.sum
  generalize Spec.dblAbs v * (10 : ℚ) ^ (-(e : ℤ)) = V at *
  simp only at s l3
  have l3' := abs_le.mp l3
  norm_num at s l3' h1 h2
  obtain ⟨b, b1, b2, _⟩ := ddScale_of R hr n3.hi n3.lo (by
    norm_num at l3 ⊢
    linarith) (by norm_num; linarith) (by norm_num; linarith)
  refine ⟨b, b1, ?_⟩
  rw [abs_lt] at b2 ⊢
  norm_num
  constructor <;> linarith

end Pigo.Stb
