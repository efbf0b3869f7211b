import Verif.Lemmas.StbScale

/-!
# A rough error analysis of the double-double arithmetic

Good for all magnitudes, subnormal numbers included: relative errors of about `2^-47` per multiplication.
-/

namespace Pigo.Stb

open Spec (IsDouble Rounding)

/-- What the mask takes away is a double. -/
theorem mask_split {x : ℚ} (hx : IsDouble x) (h0 : 0 ≤ x) : IsDouble (x - mask x) ∧ 0 ≤ mask x ∧ mask x ≤ x := by
  unfold mask
  simp only
  generalize hg : max (Int.log 2 x) (-1022) - 25 = g
  have hg1 : -1047 ≤ g := by omega
  have hq := sc_pos g
  refine ⟨?_, ?_, ?_⟩
  · obtain ⟨m, e, h1, h2, rfl⟩ := hx
    rcases le_or_gt g e with h | h
    · obtain ⟨j, rfl⟩ : ∃ j : Nat, e = g + j := ⟨(e - g).toNat, by omega⟩
      have : (m : ℚ) * (2 : ℚ) ^ (g + j) / (2 : ℚ) ^ g = ((m * 2 ^ j : ℤ) : ℚ) := by
        rw [zpow_add₀ (by norm_num), zpow_natCast]; push_cast; field_simp
      rw [this, Int.floor_intCast]
      have e2 : ((m * 2 ^ j : ℤ) : ℚ) * (2 : ℚ) ^ g = (m : ℚ) * (2 : ℚ) ^ (g + j) := by
        rw [zpow_add₀ (by norm_num), zpow_natCast]; push_cast; ring
      rw [e2, sub_self]; exact isDouble_zero
    · obtain ⟨j, rfl⟩ : ∃ j : Nat, g = e + j := ⟨(g - e).toNat, by omega⟩
      have hm0 : 0 ≤ m := by
        by_contra hc
        have : (m : ℚ) < 0 := by exact_mod_cast (by omega : m < 0)
        have := mul_neg_of_neg_of_pos this (sc_pos e)
        linarith
      have e1 : (m : ℚ) * (2 : ℚ) ^ e / (2 : ℚ) ^ (e + j) = (m : ℚ) / ((2 ^ j : Nat) : ℚ) := by
        rw [zpow_add₀ (by norm_num), zpow_natCast]; push_cast; field_simp
      rw [e1, Rat.floor_intCast_div_natCast m (2 ^ j)]
      refine ⟨m % ((2 ^ j : Nat) : ℤ), e, ?_, h2, ?_⟩
      · have a1 := Int.emod_nonneg m (show ((2 ^ j : Nat) : ℤ) ≠ 0 by positivity)
        have a2 : m % ((2 ^ j : Nat) : ℤ) ≤ m := by
            have := Int.emod_add_mul_ediv m ((2 ^ j : Nat) : ℤ)
            have h3 : 0 ≤ ((2 ^ j : Nat) : ℤ) * (m / ((2 ^ j : Nat) : ℤ)) :=
              mul_nonneg (by positivity) (Int.ediv_nonneg hm0 (by positivity))
            omega
        rw [abs_of_nonneg hm0] at h1
        rw [abs_of_nonneg a1]; omega
      · have := Int.emod_add_mul_ediv m ((2 ^ j : Nat) : ℤ)
        have h' : (m : ℚ) = ((m % ((2 ^ j : Nat) : ℤ) : ℤ) : ℚ) + ((2 ^ j : Nat) : ℚ) * ((m / ((2 ^ j : Nat) : ℤ) : ℤ) : ℚ) := by
          exact_mod_cast this.symm
        rw [zpow_add₀ (by norm_num), zpow_natCast]
        generalize ((m % ((2 ^ j : Nat) : ℤ) : ℤ) : ℚ) = r at *
        generalize ((m / ((2 ^ j : Nat) : ℤ) : ℤ) : ℚ) = s at *
        rw [h']
        push_cast; ring
  · have : (0 : ℚ) ≤ (⌊x / (2 : ℚ) ^ g⌋ : ℚ) := by
      exact_mod_cast Int.floor_nonneg.mpr (div_nonneg h0 hq.le)
    positivity
  · have := Int.floor_le (x / (2 : ℚ) ^ g)
    calc _ ≤ x / (2 : ℚ) ^ g * (2 : ℚ) ^ g := mul_le_mul_of_nonneg_right this hq.le
      _ = x := by field_simp

variable {rnd : ℚ → ℚ} (R : Rounding rnd)
include R

/-- The relative error of rounding, but for the smallest numbers. -/
theorem rnd_rel (x : ℚ) : |rnd x - x| ≤ |x| / 2 ^ 53 + (2 : ℚ) ^ (-1075 : ℤ) := by
  have hp : (0 : ℚ) < (2 : ℚ) ^ (-1075 : ℤ) := sc_pos _
  rcases le_or_gt |x| ((2 : ℚ) ^ (-1021 : ℤ)) with h | h
  · have := rnd_err R (k := -1021) (by omega) h
    have h0 := abs_nonneg x
    have : (2 : ℚ) ^ (-1021 - 54 : ℤ) = (2 : ℚ) ^ (-1075 : ℤ) := by norm_num
    have h1 : 0 ≤ |x| / 2 ^ 53 := by positivity
    linarith
  · have hx : 0 < |x| := lt_trans (sc_pos _) h
    have l1 := Int.zpow_log_le_self (b := 2) (by norm_num) hx
    have l2 := Int.lt_zpow_succ_log_self (b := 2) (by norm_num) |x|
    push_cast at l1 l2
    generalize Int.log 2 |x| = k at *
    have hk : -1021 ≤ k + 1 := by
      by_contra hc
      have : (2 : ℚ) ^ (k + 1) ≤ (2 : ℚ) ^ (-1021 : ℤ) := zpow_le_zpow_right₀ (by norm_num) (by omega)
      linarith
    have := rnd_err R hk l2.le
    have e : (2 : ℚ) ^ (k + 1 - 54) = (2 : ℚ) ^ k / 2 ^ 53 := by
      rw [← zpow_natCast, ← zpow_sub₀ (by norm_num)]; congr 1; push_cast; ring
    rw [e] at this
    have h2 : (2 : ℚ) ^ k / 2 ^ 53 ≤ |x| / 2 ^ 53 := div_le_div_of_nonneg_right l1 (by positivity)
    linarith

/-- The error in terms of a bound. -/
theorem rnd_bd {x w : ℚ} (hw : (2 : ℚ) ^ (-1010 : ℤ) ≤ w) (h1 : -(4 * w) ≤ x) (h2 : x ≤ 4 * w) :
    x - w / 2 ^ 50 ≤ rnd x ∧ rnd x ≤ x + w / 2 ^ 50 := by
  have h := rnd_rel R x
  have hx : |x| ≤ 4 * w := abs_le.mpr ⟨h1, h2⟩
  have e : (2 : ℚ) ^ (-1075 : ℤ) = (2 : ℚ) ^ (-1010 : ℤ) / 2 ^ 65 := by
    rw [← zpow_natCast, ← zpow_sub₀ (by norm_num)]; congr 1
  rw [e, abs_le] at h
  have h3 : |x| / 2 ^ 53 ≤ 4 * w / 2 ^ 53 := div_le_div_of_nonneg_right hx (by positivity)
  have h4 : (2 : ℚ) ^ (-1010 : ℤ) / 2 ^ 65 ≤ w / 2 ^ 65 := div_le_div_of_nonneg_right hw (by positivity)
  have hw0 : 0 < w := lt_of_lt_of_le (sc_pos _) hw
  have h5 : 4 * w / 2 ^ 53 + w / 2 ^ 65 ≤ w / 2 ^ 50 := by
    norm_num; linarith
  constructor <;> linarith [h.1, h.2]

/-- The product of two positive doubles. -/
theorem ddMultHi_crude {x y : ℚ} (hx : IsDouble x) (hy : IsDouble y) (hx0 : 0 ≤ x) (hy0 : 0 ≤ y)
    (hw : (2 : ℚ) ^ (-1010 : ℤ) ≤ x * y) :
    |(ddMultHi rnd x y).1 + (ddMultHi rnd x y).2 - x * y| ≤ x * y / 2 ^ 46 ∧ |(ddMultHi rnd x y).2| ≤ x * y / 2 ^ 46 ∧
      IsDouble (ddMultHi rnd x y).1 ∧ IsDouble (ddMultHi rnd x y).2 := by
  obtain ⟨a1, a2, a3⟩ := mask_split hx hx0
  obtain ⟨b1, b2, b3⟩ := mask_split hy hy0
  have hw0 : 0 < x * y := lt_of_lt_of_le (sc_pos _) hw
  refine ⟨?_, ?_, R.isDouble _, R.isDouble _⟩ <;>
  · unfold ddMultHi
    simp only [rnd_exact R a1, rnd_exact R b1]
    generalize mask x = ah at *
    generalize mask y = bh at *
    have hsum : ah * bh + ah * (y - bh) + (x - ah) * bh + (x - ah) * (y - bh) = x * y := by ring
    have p1 : 0 ≤ ah * bh := mul_nonneg a2 b2
    have p2 : 0 ≤ ah * (y - bh) := mul_nonneg a2 (by linarith)
    have p3 : 0 ≤ (x - ah) * bh := mul_nonneg (by linarith) b2
    have p4 : 0 ≤ (x - ah) * (y - bh) := mul_nonneg (by linarith) (by linarith)
    generalize x * y = w at *
    generalize ah * bh = m1 at *
    generalize ah * (y - bh) = m2 at *
    generalize (x - ah) * bh = m3 at *
    generalize (x - ah) * (y - bh) = m4 at *
    obtain ⟨c1, c2⟩ := rnd_bd R (x := w) hw (by linarith) (by linarith)
    obtain ⟨d1, d2⟩ := rnd_bd R (x := m1) hw (by linarith) (by linarith)
    obtain ⟨d3, d4⟩ := rnd_bd R (x := m2) hw (by linarith) (by linarith)
    obtain ⟨d5, d6⟩ := rnd_bd R (x := m3) hw (by linarith) (by linarith)
    obtain ⟨d7, d8⟩ := rnd_bd R (x := m4) hw (by linarith) (by linarith)
    generalize rnd w = oh at *
    generalize rnd m1 = n1 at *
    generalize rnd m2 = n2 at *
    generalize rnd m3 = n3 at *
    generalize rnd m4 = n4 at *
    norm_num at c1 c2 d1 d2 d3 d4 d5 d6 d7 d8
    obtain ⟨f1, f2⟩ := rnd_bd R (x := n1 - oh) hw (by linarith) (by linarith)
    generalize rnd (n1 - oh) = s1 at *
    norm_num at f1 f2
    obtain ⟨f3, f4⟩ := rnd_bd R (x := s1 + n2) hw (by linarith) (by linarith)
    generalize rnd (s1 + n2) = s2 at *
    norm_num at f3 f4
    obtain ⟨f5, f6⟩ := rnd_bd R (x := s2 + n3) hw (by linarith) (by linarith)
    generalize rnd (s2 + n3) = s3 at *
    norm_num at f5 f6
    obtain ⟨f7, f8⟩ := rnd_bd R (x := s3 + n4) hw (by linarith) (by linarith)
    generalize rnd (s3 + n4) = s4 at *
    norm_num at f7 f8 ⊢
    rw [abs_le]
    constructor <;> linarith

/-- High and low part approximate `V`. -/
structure Near (ε V : ℚ) (q : ℚ × ℚ) : Prop where
  sum : |q.1 + q.2 - V| ≤ ε * V
  low : |q.2| ≤ V / 2 ^ 42
  hi : IsDouble q.1
  lo : IsDouble q.2

/-- Renormalisation. -/
theorem ddRenorm_crude {ε V : ℚ} {q : ℚ × ℚ} (hq : Near ε V q) (hε : ε ≤ 1 / 2 ^ 40)
    (hw : (2 : ℚ) ^ (-1010 : ℤ) ≤ V) : Near (ε + 1 / 2 ^ 47) V (ddRenorm rnd q.1 q.2) ∧
      |(ddRenorm rnd q.1 q.2).2| ≤ V / 2 ^ 47 := by
  obtain ⟨⟨s1, s2⟩, ⟨l1, l2⟩, hh, hl⟩ := (⟨abs_le.mp hq.sum, abs_le.mp hq.low, hq.hi, hq.lo⟩ : _ ∧ _ ∧ _ ∧ _)
  obtain ⟨h, l⟩ := q
  simp only at *
  have hw0 : 0 < V := lt_of_lt_of_le (sc_pos _) hw
  have hεV : ε * V ≤ V / 2 ^ 40 := by
    have := mul_le_mul_of_nonneg_right hε hw0.le
    rw [one_div, inv_mul_eq_div] at this; exact this
  have key : |(ddRenorm rnd h l).1 + (ddRenorm rnd h l).2 - (h + l)| ≤ V / 2 ^ 47 ∧
      |(ddRenorm rnd h l).2| ≤ V / 2 ^ 47 := by
    generalize ε * V = t at *
    clear hε hq
    unfold ddRenorm
    simp only
    norm_num at hεV s1 s2 l1 l2
    obtain ⟨f1, f2⟩ := rnd_bd R (x := h + l) hw (by linarith) (by linarith)
    generalize rnd (h + l) = a at *
    norm_num at f1 f2
    obtain ⟨f3, f4⟩ := rnd_bd R (x := a - h) hw (by linarith) (by linarith)
    generalize rnd (a - h) = b at *
    norm_num at f3 f4
    obtain ⟨f5, f6⟩ := rnd_bd R (x := l - b) hw (by linarith) (by linarith)
    generalize rnd (l - b) = c at *
    norm_num at f5 f6 ⊢
    rw [abs_le, abs_le]
    refine ⟨⟨?_, ?_⟩, ?_, ?_⟩ <;> linarith
  obtain ⟨k1, k2⟩ := key
  refine ⟨⟨?_, ?_, R.isDouble _, R.isDouble _⟩, k2⟩
  · rw [abs_le] at k1 ⊢
    generalize (ddRenorm rnd h l).1 = a at *
    generalize (ddRenorm rnd h l).2 = b at *
    have : (ε + 1 / 2 ^ 47) * V = ε * V + V / 2 ^ 47 := by ring
    rw [this]
    constructor <;> linarith [k1.1, k1.2]
  · refine k2.trans ?_
    norm_num; linarith

/-- Multiplication of a double-double number by `T`, given as `y + ye`. -/
theorem mult_crude {ε V T y ye : ℚ} {q : ℚ × ℚ} (hq : Near ε V q) (h0 : 0 ≤ ε) (hε : ε ≤ 1 / 2 ^ 41)
    (hV : 0 < V) (hT : 0 < T) (hw : (2 : ℚ) ^ (-1009 : ℤ) ≤ V * T) (hy : IsDouble y) (hyT : |y - T| ≤ T / 2 ^ 50)
    (hye : |ye| ≤ T / 2 ^ 50) (hlow : |q.2| ≤ V / 2 ^ 46) : Near (ε + 1 / 2 ^ 44) (V * T)
      ((ddMultHi rnd q.1 y).1, ddMultLo rnd (ddMultHi rnd q.1 y).2 q.1 q.2 y ye) := by
  obtain ⟨⟨s1, s2⟩, ⟨l1, l2⟩, hh, hl⟩ := (⟨abs_le.mp hq.sum, abs_le.mp hq.low, hq.hi, hq.lo⟩ : _ ∧ _ ∧ _ ∧ _)
  obtain ⟨a, b⟩ := q
  simp only at *
  have hw0 : 0 < V * T := mul_pos hV hT
  have hw1 : (2 : ℚ) ^ (-1010 : ℤ) ≤ V * T / 2 := by
    have : (2 : ℚ) ^ (-1009 : ℤ) = 2 * (2 : ℚ) ^ (-1010 : ℤ) := by
      rw [show (-1009 : ℤ) = 1 + -1010 by norm_num, zpow_add₀ (by norm_num), zpow_one]
    linarith
  rw [abs_le] at hyT
  have hεV : ε * V ≤ V / 2 ^ 41 := by
    have := mul_le_mul_of_nonneg_right hε hV.le
    rw [one_div, inv_mul_eq_div] at this; exact this
  norm_num at hεV l1 l2
  have ha1 : V * (1 - 1 / 2 ^ 39) ≤ a := by norm_num; linarith
  have ha2 : a ≤ V * (1 + 1 / 2 ^ 39) := by norm_num; linarith
  have ha0 : 0 ≤ a := by norm_num at ha1; linarith
  have hy1 : T * (1 - 1 / 2 ^ 50) ≤ y := by linarith [hyT.1]
  have hy2 : y ≤ T * (1 + 1 / 2 ^ 50) := by linarith [hyT.2]
  have hy0 : 0 ≤ y := by norm_num at hy1; linarith
  -- the three products
  have hA1 : V * T * (1 - 1 / 2 ^ 38) ≤ a * y := by
    calc _ ≤ (V * (1 - 1 / 2 ^ 39)) * (T * (1 - 1 / 2 ^ 50)) := by norm_num; nlinarith
      _ ≤ _ := mul_le_mul ha1 hy1 (by norm_num; linarith) ha0
  have hA2 : a * y ≤ V * T * (1 + 1 / 2 ^ 38) := by
    calc _ ≤ (V * (1 + 1 / 2 ^ 39)) * (T * (1 + 1 / 2 ^ 50)) := mul_le_mul ha2 hy2 hy0 (by norm_num; linarith)
      _ ≤ _ := by norm_num; nlinarith
  have hB : |b * y| ≤ V * T / 2 ^ 45 := by
    rw [abs_mul, abs_of_nonneg hy0]
    calc |b| * y ≤ (V / 2 ^ 46) * (T * (1 + 1 / 2 ^ 50)) := mul_le_mul hlow hy2 hy0 (by positivity)
      _ ≤ _ := by norm_num; nlinarith
  have hC : |a * ye| ≤ V * T / 2 ^ 49 := by
    rw [abs_mul, abs_of_nonneg ha0]
    calc a * |ye| ≤ (V * (1 + 1 / 2 ^ 39)) * (T / 2 ^ 50) := mul_le_mul ha2 hye (abs_nonneg _) (by norm_num; linarith)
      _ ≤ _ := by norm_num; nlinarith
  have hS : |(a + b) * y - V * T| ≤ ε * (V * T) + V * T / 2 ^ 49 := by
    have e1 : (a + b) * y - V * T = (a + b - V) * y + V * (y - T) := by ring
    rw [e1]
    refine (abs_add_le _ _).trans ?_
    rw [abs_mul, abs_mul, abs_of_nonneg hy0, abs_of_pos hV]
    have g1 : |a + b - V| * y ≤ (ε * V) * (T * (1 + 1 / 2 ^ 50)) := mul_le_mul hq.sum hy2 hy0 (by positivity)
    have g2 : V * |y - T| ≤ V * (T / 2 ^ 50) := mul_le_mul_of_nonneg_left (abs_le.mpr hyT) hV.le
    have g3 : (ε * V) * (T * (1 / 2 ^ 50)) ≤ (V * T) / 2 ^ 50 := by
      have : ε * (V * T) ≤ 1 * (V * T) := mul_le_mul_of_nonneg_right (by norm_num at hε ⊢; linarith) hw0.le
      calc _ = ε * (V * T) / 2 ^ 50 := by ring
        _ ≤ 1 * (V * T) / 2 ^ 50 := div_le_div_of_nonneg_right this (by positivity)
        _ = _ := by ring
    have g4 : (ε * V) * (T * (1 + 1 / 2 ^ 50)) = ε * (V * T) + (ε * V) * (T * (1 / 2 ^ 50)) := by ring
    have g5 : V * T / 2 ^ 49 = V * T / 2 ^ 50 + V * (T / 2 ^ 50) := by ring
    linarith
  have hAw : (2 : ℚ) ^ (-1010 : ℤ) ≤ a * y := by
    refine hw1.trans (le_trans ?_ hA1)
    norm_num; linarith
  obtain ⟨m1, m2, m3, m4⟩ := ddMultHi_crude R hh hy ha0 hy0 hAw
  have hw2 : (2 : ℚ) ^ (-1010 : ℤ) ≤ V * T := by linarith
  have hSum : (a + b) * y = a * y + b * y := by ring
  rw [hSum] at hS
  have hgoal : (ε + 1 / 2 ^ 44) * (V * T) = ε * (V * T) + V * T / 2 ^ 44 := by ring
  refine ⟨?_, ?_, m3, R.isDouble _⟩ <;>
  · simp only [hgoal]
    unfold ddMultLo
    generalize (ddMultHi rnd a y).1 = oh at *
    generalize (ddMultHi rnd a y).2 = ol at *
    generalize ε * (V * T) = z at *
    generalize V * T = w at *
    generalize a * y = A at *
    generalize b * y = B at *
    generalize a * ye = C at *
    rw [abs_le] at m1 m2 hS hB hC
    norm_num at m1 m2 hS hB hC hA1 hA2
    obtain ⟨f1, f2⟩ := rnd_bd R (x := C) hw2 (by linarith) (by linarith)
    generalize rnd C = c' at *
    norm_num at f1 f2
    obtain ⟨f3, f4⟩ := rnd_bd R (x := B) hw2 (by linarith) (by linarith)
    generalize rnd B = b' at *
    norm_num at f3 f4
    obtain ⟨f5, f6⟩ := rnd_bd R (x := c' + b') hw2 (by linarith) (by linarith)
    generalize rnd (c' + b') = d' at *
    norm_num at f5 f6
    obtain ⟨f7, f8⟩ := rnd_bd R (x := ol + d') hw2 (by linarith) (by linarith)
    generalize rnd (ol + d') = e' at *
    norm_num at f7 f8 ⊢
    rw [abs_le]
    constructor <;> linarith

end Pigo.Stb
