import Verif.Lemmas.StbTiny

/-!
# Multiplication by `10^p` for negative `p`
-/

namespace Pigo.Stb

open Spec (IsDouble Rounding)

/-- A normal double in normal form. -/
theorem isDouble_normal {x : ℚ} (hx : IsDouble x) (h : (2 : ℚ) ^ (-1022 : ℤ) ≤ x) :
    ∃ X a : ℤ, 2 ^ 52 ≤ X ∧ X < 2 ^ 53 ∧ -1074 ≤ a ∧ x = sc X a := by
  have hx0 : 0 < x := lt_of_lt_of_le (sc_pos _) h
  have l1 := Int.zpow_log_le_self (b := 2) (by norm_num) hx0
  have l2 := Int.lt_zpow_succ_log_self (b := 2) (by norm_num) x
  have l3 : -1022 ≤ Int.log 2 x := by
    have : ((2 : Nat) : ℚ) ^ (-1022 : ℤ) ≤ x := by exact_mod_cast h
    exact (Int.zpow_le_iff_le_log (by norm_num) hx0).mp this
  push_cast at l1 l2
  generalize Int.log 2 x = k at *
  obtain ⟨n, hn⟩ := isDouble_grid hx k (by rw [abs_of_pos hx0]; exact l1)
  refine ⟨n, k - 52, ?_, ?_, by omega, hn⟩
  · have : sc (2 ^ 52) (k - 52) ≤ sc n (k - 52) := by
      rw [sc_pow, ← hn, show k - 52 + ((52 : Nat) : ℤ) = k by norm_num]; exact l1
    exact sc_le_iff.mp this
  · have : sc n (k - 52) < sc (2 ^ 53) (k - 52) := by
      rw [sc_pow, ← hn, show k - 52 + ((53 : Nat) : ℤ) = k + 1 by push_cast; ring]; exact l2
    exact sc_lt_iff.mp this

variable {rnd : ℚ → ℚ} (R : Rounding rnd)
include R

/-- Rounding where the nearest double is known. -/
theorem rnd_unique {x : ℚ} {n e : ℤ} (h1 : 2 ^ 52 < n) (h2 : n < 2 ^ 53) (he : -1074 ≤ e)
    (h : |x - sc n e| < (2 : ℚ) ^ e / 2) : rnd x = sc n e := by
  have hn := R.nearest x (sc n e) (isDouble_sc (by rw [abs_of_nonneg (by omega)]; omega) he)
  rw [abs_sub_comm x] at h
  have hd : |rnd x - sc n e| < (2 : ℚ) ^ e := by
    have : |rnd x - sc n e| ≤ |rnd x - x| + |x - sc n e| := by
      have := abs_add_le (rnd x - x) (x - sc n e)
      rwa [sub_add_sub_cancel] at this
    rw [abs_sub_comm x] at this
    linarith
  rw [abs_lt] at hd
  have hs : sc (2 ^ 52) e ≤ sc (n - 1) e := sc_le e (by omega)
  have hs2 : sc n e - (2 : ℚ) ^ e = sc (n - 1) e := by unfold sc; push_cast; ring
  have hp := sc_pow 52 e
  obtain ⟨m, hm⟩ := isDouble_grid (R.isDouble x) (e + 52) (by
    have := le_abs_self (rnd x)
    rw [show e + 52 = e + ((52 : Nat) : ℤ) by norm_num, ← hp]
    linarith)
  rw [show e + 52 - 52 = e by ring] at hm
  rw [hm] at hd ⊢
  have g1 : sc m e < sc (n + 1) e := by
    have : sc (n + 1) e = sc n e + (2 : ℚ) ^ e := by unfold sc; push_cast; ring
    linarith
  have g2 : sc (n - 1) e < sc m e := by linarith
  have := sc_lt_iff.mp g1
  have := sc_lt_iff.mp g2
  congr 1; omega

/-- The product of two normal doubles. -/
theorem ddMultHi_sharp {x y : ℚ} (hx : IsDouble x) (hy : IsDouble y) (hx0 : (2 : ℚ) ^ (-1022 : ℤ) ≤ x)
    (hy0 : (2 : ℚ) ^ (-1022 : ℤ) ≤ y) (hw : 1 ≤ x * y) :
    |(ddMultHi rnd x y).1 + (ddMultHi rnd x y).2 - x * y| ≤ x * y / 2 ^ 104 ∧ |(ddMultHi rnd x y).2| ≤ x * y / 2 ^ 51 ∧
      IsDouble (ddMultHi rnd x y).1 ∧ IsDouble (ddMultHi rnd x y).2 := by
  obtain ⟨X, a, hX1, hX2, ha, rfl⟩ := isDouble_normal hx hx0
  obtain ⟨Y, b, hY1, hY2, hb, rfl⟩ := isDouble_normal hy hy0
  have hP1 : 2 ^ 52 * 2 ^ 52 ≤ X * Y := mul_le_mul hX1 hY1 (by norm_num) (by omega)
  have hP2 : X * Y ≤ 2 ^ 53 * 2 ^ 53 := mul_le_mul hX2.le hY2.le (by omega) (by norm_num)
  have hab : -1074 ≤ a + b := by
    by_contra hc
    rw [sc_mul] at hw
    have h1 := sc_le (a + b) (show X * Y ≤ 2 ^ 106 by omega)
    rw [sc_pow] at h1
    have h2 : (2 : ℚ) ^ (a + b + (106 : Nat)) < (2 : ℚ) ^ (0 : ℤ) := zpow_lt_zpow_right₀ (by norm_num) (by push_cast; omega)
    rw [zpow_zero] at h2
    linarith
  obtain ⟨O, δ, h1, h2, h3, h4, h5⟩ := ddMultHi_eq R hX1 hX2 hY1 hY2 ha hb hab
  refine ⟨?_, ?_, R.isDouble _, R.isDouble _⟩
  · rw [h1, sc_mul]
    simp only
    rw [sc_add, sc_sub, abs_sc, show O + (X * Y - O + δ) - X * Y = δ by ring, le_div_iff₀ (by positivity)]
    have : sc |δ| (a + b) * 2 ^ 104 = sc (|δ| * 2 ^ 104) (a + b) := by unfold sc; push_cast; ring
    rw [this]
    exact sc_le _ (by omega)
  · rw [h1, sc_mul]
    simp only
    rw [abs_sc, le_div_iff₀ (by positivity)]
    have : sc |X * Y - O + δ| (a + b) * 2 ^ 51 = sc (|X * Y - O + δ| * 2 ^ 51) (a + b) := by unfold sc; push_cast; ring
    rw [this]
    apply sc_le
    have : |X * Y - O + δ| ≤ |X * Y - O| + |δ| := abs_add_le _ _
    omega

/-- High and low part approximate `V`, almost to 90 bits. -/
structure Sharp (ε V : ℚ) (q : ℚ × ℚ) : Prop where
  sum : |q.1 + q.2 - V| ≤ ε * V
  low : |q.2| ≤ V / 2 ^ 45
  hi : IsDouble q.1
  lo : IsDouble q.2

/-- Renormalisation. -/
theorem ddRenorm_sharp {ε V : ℚ} {q : ℚ × ℚ} (hq : Sharp ε V q) (hε : ε ≤ 1 / 2 ^ 80) (hw : 1 ≤ V) :
    Sharp (ε + 1 / 2 ^ 95) V (ddRenorm rnd q.1 q.2) ∧ |(ddRenorm rnd q.1 q.2).2| ≤ V / 2 ^ 49 := by
  obtain ⟨⟨s1, s2⟩, ⟨l1, l2⟩, hh, hl⟩ := (⟨abs_le.mp hq.sum, abs_le.mp hq.low, hq.hi, hq.lo⟩ : _ ∧ _ ∧ _ ∧ _)
  obtain ⟨h, l⟩ := q
  simp only at *
  have hεV : ε * V ≤ V / 2 ^ 80 := by
    have := mul_le_mul_of_nonneg_right hε (by linarith : 0 ≤ V)
    rw [one_div, inv_mul_eq_div] at this; exact this
  have hw1 : (2 : ℚ) ^ (-1010 : ℤ) ≤ 1 / 2 ^ 100 := by
    rw [one_div, ← zpow_natCast, ← zpow_neg]
    exact zpow_le_zpow_right₀ (by norm_num) (by norm_num)
  have hw2 : (2 : ℚ) ^ (-1010 : ℤ) ≤ V / 2 ^ 48 := by
    refine hw1.trans ?_
    norm_num; linarith
  have hw3 : (2 : ℚ) ^ (-1010 : ℤ) ≤ V / 2 ^ 46 := by
    refine hw1.trans ?_
    norm_num; linarith
  have hw4 : (2 : ℚ) ^ (-1010 : ℤ) ≤ V := by
    refine hw1.trans ?_
    norm_num; linarith
  have key : |(ddRenorm rnd h l).1 + (ddRenorm rnd h l).2 - (h + l)| ≤ V / 2 ^ 95 ∧
      |(ddRenorm rnd h l).2| ≤ V / 2 ^ 49 := by
    generalize ε * V = t at *
    clear hε hq
    unfold ddRenorm
    simp only
    norm_num at hεV s1 s2 l1 l2
    obtain ⟨f1, f2⟩ := rnd_bd R (x := h + l) hw4 (by linarith) (by linarith)
    generalize rnd (h + l) = a at *
    norm_num at f1 f2
    obtain ⟨f3, f4⟩ := rnd_bd R (x := a - h) hw3 (by norm_num; linarith) (by norm_num; linarith)
    generalize rnd (a - h) = b at *
    norm_num at f3 f4
    obtain ⟨f5, f6⟩ := rnd_bd R (x := l - b) hw2 (by norm_num; linarith) (by norm_num; linarith)
    generalize rnd (l - b) = c at *
    norm_num at f5 f6 ⊢
    rw [abs_le, abs_le]
    refine ⟨⟨?_, ?_⟩, ?_, ?_⟩ <;> linarith
  obtain ⟨k1, k2⟩ := key
  refine ⟨⟨?_, ?_, R.isDouble _, R.isDouble _⟩, k2⟩
  · rw [abs_le] at k1 ⊢
    generalize (ddRenorm rnd h l).1 = a at *
    generalize (ddRenorm rnd h l).2 = b at *
    have : (ε + 1 / 2 ^ 95) * V = ε * V + V / 2 ^ 95 := by ring
    rw [this]
    constructor <;> linarith [k1.1, k1.2]
  · refine k2.trans ?_
    norm_num; linarith

/-- Multiplication of a double-double number by `T`, given as `y + ye`. -/
theorem mult_sharp {ε V T y ye : ℚ} {q : ℚ × ℚ} (hq : Sharp ε V q) (hε : ε ≤ 1 / 2 ^ 80)
    (hT : 0 < T) (hT1 : T ≤ 1) (hT2 : (2 : ℚ) ^ (-1000 : ℤ) ≤ T) (hw : 2 ≤ V * T) (hy : IsDouble y)
    (hyT : |y + ye - T| ≤ T / 2 ^ 99) (hye : |ye| ≤ T / 2 ^ 49) (hlow : |q.2| ≤ V / 2 ^ 48) :
    Sharp (ε + 1 / 2 ^ 92) (V * T) ((ddMultHi rnd q.1 y).1, ddMultLo rnd (ddMultHi rnd q.1 y).2 q.1 q.2 y ye) := by
  obtain ⟨⟨s1, s2⟩, ⟨l1, l2⟩, hh, hl⟩ := (⟨abs_le.mp hq.sum, abs_le.mp hlow, hq.hi, hq.lo⟩ : _ ∧ _ ∧ _ ∧ _)
  obtain ⟨a, b⟩ := q
  simp only at *
  have hV : 2 ≤ V := by
    have h1 : 0 < V := by
      by_contra hc
      have := mul_nonpos_of_nonpos_of_nonneg (not_lt.mp hc) hT.le
      linarith
    calc (2 : ℚ) ≤ V * T := hw
      _ ≤ V * 1 := mul_le_mul_of_nonneg_left hT1 h1.le
      _ = V := mul_one _
  have hw0 : 0 < V * T := by linarith
  rw [abs_le] at hyT
  have hye' := abs_le.mp hye
  have hεV : ε * V ≤ V / 2 ^ 80 := by
    have := mul_le_mul_of_nonneg_right hε (by linarith : 0 ≤ V)
    rw [one_div, inv_mul_eq_div] at this; exact this
  norm_num at hεV l1 l2 hye' hyT
  have ha1 : V * (1 - 1 / 2 ^ 47) ≤ a := by norm_num; linarith
  have ha2 : a ≤ V * (1 + 1 / 2 ^ 47) := by norm_num; linarith
  have ha0 : 1 ≤ a := by norm_num at ha1; linarith
  have hyT2 : |y - T| ≤ T / 2 ^ 48 := by
    rw [abs_le]; norm_num; constructor <;> linarith
  have hy1 : T * (1 - 1 / 2 ^ 48) ≤ y := by norm_num; linarith
  have hy2 : y ≤ T * (1 + 1 / 2 ^ 48) := by norm_num; linarith
  have hy0 : 0 ≤ y := by norm_num at hy1; linarith
  have hA1 : V * T * (1 - 1 / 2 ^ 46) ≤ a * y := by
    calc _ ≤ (V * (1 - 1 / 2 ^ 47)) * (T * (1 - 1 / 2 ^ 48)) := by norm_num; nlinarith
      _ ≤ _ := mul_le_mul ha1 hy1 (by norm_num; linarith) (by linarith)
  have hA2 : a * y ≤ V * T * (1 + 1 / 2 ^ 46) := by
    calc _ ≤ (V * (1 + 1 / 2 ^ 47)) * (T * (1 + 1 / 2 ^ 48)) := mul_le_mul ha2 hy2 hy0 (by norm_num; linarith)
      _ ≤ _ := by norm_num; nlinarith
  have hB : |b * y| ≤ V * T / 2 ^ 47 := by
    rw [abs_mul, abs_of_nonneg hy0]
    calc |b| * y ≤ (V / 2 ^ 48) * (T * (1 + 1 / 2 ^ 48)) := mul_le_mul hlow hy2 hy0 (by positivity)
      _ ≤ _ := by norm_num; nlinarith
  have hC : |a * ye| ≤ V * T / 2 ^ 48 := by
    rw [abs_mul, abs_of_nonneg (by linarith : 0 ≤ a)]
    calc a * |ye| ≤ (V * (1 + 1 / 2 ^ 47)) * (T / 2 ^ 49) := mul_le_mul ha2 hye (abs_nonneg _) (by norm_num; linarith)
      _ ≤ _ := by norm_num; nlinarith
  have hS : |a * y + b * y + a * ye - V * T| ≤ ε * (V * T) + V * T / 2 ^ 95 := by
    have e1 : a * y + b * y + a * ye - V * T = (a + b - V) * T + a * (y + ye - T) + b * (y - T) := by ring
    rw [e1]
    refine (abs_add_le _ _).trans ?_
    have g0 := abs_add_le ((a + b - V) * T) (a * (y + ye - T))
    have g1 : |(a + b - V) * T| ≤ ε * V * T := by
      rw [abs_mul, abs_of_pos hT]
      exact mul_le_mul_of_nonneg_right hq.sum hT.le
    have g2 : |a * (y + ye - T)| ≤ V * T / 2 ^ 98 := by
      rw [abs_mul, abs_of_nonneg (by linarith : 0 ≤ a)]
      calc a * |y + ye - T| ≤ (V * (1 + 1 / 2 ^ 47)) * (T / 2 ^ 99) :=
            mul_le_mul ha2 (by rw [abs_le]; norm_num; constructor <;> linarith) (abs_nonneg _) (by norm_num; linarith)
        _ ≤ _ := by norm_num; nlinarith
    have g3 : |b * (y - T)| ≤ V * T / 2 ^ 96 := by
      rw [abs_mul]
      calc |b| * |y - T| ≤ (V / 2 ^ 48) * (T / 2 ^ 48) := mul_le_mul hlow hyT2 (abs_nonneg _) (by positivity)
        _ = _ := by norm_num; ring
    have g4 : ε * V * T = ε * (V * T) := by ring
    have g5 : V * T / 2 ^ 98 + V * T / 2 ^ 96 ≤ V * T / 2 ^ 95 := by
      generalize V * T = w at *
      norm_num; linarith
    linarith
  have hyn : (2 : ℚ) ^ (-1022 : ℤ) ≤ y := by
    have e : (2 : ℚ) ^ (-1022 : ℤ) ≤ (2 : ℚ) ^ (-1000 : ℤ) / 2 := by
      have : (2 : ℚ) ^ (-1000 : ℤ) / 2 = (2 : ℚ) ^ (-1001 : ℤ) := by
        rw [show (-1000 : ℤ) = -1001 + 1 by norm_num, zpow_add₀ (by norm_num), zpow_one]; ring
      rw [this]
      exact zpow_le_zpow_right₀ (by norm_num) (by norm_num)
    norm_num at hy1
    linarith
  have han : (2 : ℚ) ^ (-1022 : ℤ) ≤ a := by
    have : (2 : ℚ) ^ (-1022 : ℤ) ≤ (2 : ℚ) ^ (0 : ℤ) := zpow_le_zpow_right₀ (by norm_num) (by norm_num)
    rw [zpow_zero] at this
    linarith
  obtain ⟨m1, m2, m3, m4⟩ := ddMultHi_sharp R hh hy han hyn (by norm_num at hA1; linarith)
  have hw1 : (2 : ℚ) ^ (-1010 : ℤ) ≤ 1 / 2 ^ 100 := by
    rw [one_div, ← zpow_natCast, ← zpow_neg]
    exact zpow_le_zpow_right₀ (by norm_num) (by norm_num)
  have hw2 : (2 : ℚ) ^ (-1010 : ℤ) ≤ V * T / 2 ^ 46 := by
    refine hw1.trans ?_
    norm_num; linarith
  have hgoal : (ε + 1 / 2 ^ 92) * (V * T) = ε * (V * T) + V * T / 2 ^ 92 := by ring
  refine ⟨?_, ?_, m3, R.isDouble _⟩ <;>
  · simp only [hgoal]
    unfold ddMultLo
    generalize (ddMultHi rnd a y).1 = oh at *
    generalize (ddMultHi rnd a y).2 = ol at *
    generalize ε * (V * T) = z at *
    generalize V * T = w at *
    generalize a * y = A at *
    generalize b * y = B at *
    generalize a * ye = C at *
    rw [abs_le] at m1 m2 hS hB hC
    norm_num at m1 m2 hS hB hC hA1 hA2
    obtain ⟨f1, f2⟩ := rnd_bd R (x := C) hw2 (by norm_num; linarith) (by norm_num; linarith)
    generalize rnd C = c' at *
    norm_num at f1 f2
    obtain ⟨f3, f4⟩ := rnd_bd R (x := B) hw2 (by norm_num; linarith) (by norm_num; linarith)
    generalize rnd B = b' at *
    norm_num at f3 f4
    obtain ⟨f5, f6⟩ := rnd_bd R (x := c' + b') hw2 (by norm_num; linarith) (by norm_num; linarith)
    generalize rnd (c' + b') = d' at *
    norm_num at f5 f6
    obtain ⟨f7, f8⟩ := rnd_bd R (x := ol + d') hw2 (by norm_num; linarith) (by norm_num; linarith)
    generalize rnd (ol + d') = e' at *
    norm_num at f7 f8 ⊢
    rw [abs_le]
    constructor <;> linarith

end Pigo.Stb
