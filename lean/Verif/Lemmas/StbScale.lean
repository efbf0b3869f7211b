import Verif.Lemmas.Ieee
import Verif.Lemmas.StbExpo

/-!
# Multiplication by a power of ten in double-double arithmetic
-/

namespace Pigo.Stb

open Spec (IsDouble Rounding)

/-- Truncation towards zero. -/
def trunc (x : ℚ) : ℤ := if x < 0 then ⌈x⌉ else ⌊x⌋

theorem trunc_near (x : ℚ) : |(trunc x : ℚ) - x| < 1 := by
  unfold trunc
  split
  · have h1 := Int.le_ceil x
    have h2 := Int.ceil_lt_add_one x
    rw [abs_lt]; constructor <;> linarith
  · have h1 := Int.floor_le x
    have h2 := Int.lt_floor_add_one x
    rw [abs_lt]; constructor <;> linarith

theorem trunc_int (n : ℤ) : trunc (n : ℚ) = n := by
  unfold trunc; split <;> simp

theorem trunc_abs {x : ℚ} {B : ℤ} (h : |x| ≤ B) : |trunc x| ≤ B := by
  rw [abs_le] at h ⊢
  unfold trunc
  have hB : (0 : ℚ) ≤ B := by linarith [h.1, h.2]
  have hB' : 0 ≤ B := by exact_mod_cast hB
  split
  · rename_i hx
    have h1 : ⌈x⌉ ≤ 0 := Int.ceil_le.mpr (by push_cast; linarith)
    have h2 : -B ≤ ⌈x⌉ := by
      have := Int.le_ceil x
      have : ((-B : ℤ) : ℚ) ≤ (⌈x⌉ : ℚ) := by push_cast; linarith [h.1]
      exact_mod_cast this
    constructor <;> omega
  · rename_i hx
    have h1 : 0 ≤ ⌊x⌋ := Int.floor_nonneg.mpr (by linarith)
    have h2 : ⌊x⌋ ≤ B := by
      have := Int.floor_le x
      have : (⌊x⌋ : ℚ) ≤ (B : ℚ) := by linarith [h.2]
      exact_mod_cast this
    constructor <;> omega

theorem toInt64_eq {x : ℚ} (h : |trunc x| < 2 ^ 63) : toInt64 x = .ok (trunc x) := by
  rw [abs_lt] at h
  unfold toInt64
  simp only
  rw [show (if x < 0 then ⌈x⌉ else ⌊x⌋) = trunc x from rfl, if_pos ⟨by omega, h.2⟩]

variable {rnd : ℚ → ℚ} (R : Rounding rnd)
include R

/-- The conversion to an integer adds the truncated low part to the (integer) high part. -/
theorem ddToS64_eq {H : ℤ} {xl : ℚ} (hH : IsDouble (H : ℚ)) (hl : IsDouble xl) (h1 : |H| ≤ 2 ^ 62)
    (h2 : |xl| ≤ ((2 ^ 61 : ℤ) : ℚ)) : ddToS64 rnd H xl = .ok (H + trunc xl) := by
  have e0 := rnd_zero R
  have eH := rnd_exact R hH
  have eN := rnd_exact R (isDouble_neg hH)
  have hx := trunc_abs h2
  rw [abs_le] at h1 hx
  unfold ddToS64
  rw [toInt64_eq (by rw [trunc_int, abs_lt]; constructor <;> omega), trunc_int]
  simp only [bind, Except.bind]
  have e1 : rnd ((H : ℚ) - rnd H) = 0 := by rw [eH, sub_self, e0]
  have e2 : rnd (0 - (H : ℚ)) = -H := by rw [zero_sub, eN]
  have e3 : rnd (rnd ((H : ℚ) - rnd (0 - -H)) - rnd (rnd H + -H)) = 0 := by
    rw [eH, zero_sub, neg_neg, eH, sub_self, e0, ← sub_eq_add_neg, sub_self, e0, sub_self, e0]
  have e4 : rnd (rnd (0 + 0) + xl) = xl := by rw [add_zero, e0, zero_add, rnd_exact R hl]
  rw [e1, e2, e3, e4, toInt64_eq (by rw [abs_lt]; constructor <;> omega)]
  simp only
  rw [if_pos (by constructor <;> omega)]

/-- A product that is representable up to a double. -/
theorem ddRenorm_exact {oh ol : ℚ} (h1 : rnd (oh + ol) = oh) (h2 : IsDouble ol) : ddRenorm rnd oh ol = (oh, ol) := by
  unfold ddRenorm
  simp only [h1, sub_self, rnd_zero R, sub_zero, rnd_exact R h2]

omit R in
/-- The powers of ten up to `10^22` have 53 bits, the last of them zero. -/
theorem pow10_sc : ∀ p : Nat, p ≤ 22 → ∃ Y b : ℤ, 2 ^ 52 ≤ Y ∧ Y < 2 ^ 53 ∧ Y % 2 = 0 ∧ -52 ≤ b ∧ b ≤ 22 ∧
    (10 : ℚ) ^ p = sc Y b := by
  have key : ∀ p < 23, 2 ^ 52 ≤ 5 ^ p * 2 ^ (52 - Nat.log 2 (5 ^ p)) ∧ 5 ^ p * 2 ^ (52 - Nat.log 2 (5 ^ p)) < 2 ^ 53 ∧
      1 ≤ 52 - Nat.log 2 (5 ^ p) := by decide +kernel
  intro p hp
  obtain ⟨h1, h2, h3⟩ := key p (by omega)
  generalize hs : 52 - Nat.log 2 (5 ^ p) = s at h1 h2 h3
  refine ⟨((5 ^ p * 2 ^ s : Nat) : ℤ), (p : ℤ) - s, by omega, by omega, ?_, by omega, by omega, ?_⟩
  · obtain ⟨j, rfl⟩ : ∃ j, s = j + 1 := ⟨s - 1, by omega⟩
    rw [Nat.pow_succ, ← mul_assoc]; omega
  · unfold sc
    rw [zpow_sub₀ (by norm_num), zpow_natCast, zpow_natCast]
    push_cast
    rw [show (10 : ℚ) = 5 * 2 by norm_num, mul_pow]
    field_simp

omit R in
theorem lit_bot {p : Nat} (hp : p ≤ 22) : lit rnd bot p = .ok (rnd ((10 : ℚ) ^ p)) := by
  have : bot[p]? = some (1, (p : ℤ)) := by
    have : ∀ p : Nat, p < 23 → bot[p]? = some (1, (p : ℤ)) := by decide
    exact this p (by omega)
  unfold lit
  rw [this]
  simp

/-- High and low part after multiplication by `10^p`, `0 ≤ p ≤ 22`: no error at all. -/
theorem raise_exact {X a : ℤ} {p : Nat} (hX1 : 2 ^ 52 ≤ X) (hX2 : X < 2 ^ 53) (ha : -1022 ≤ a) (hp : p ≤ 22) :
    ∃ n m e : ℤ, raise rnd (sc X a) p = .ok (sc n e, sc m e) ∧ sc n e + sc m e = sc X a * (10 : ℚ) ^ p ∧
      IsDouble (sc n e) ∧ |m| ≤ 2 ^ 52 ∧ 2 ^ 103 ≤ n ∧ -1074 ≤ e := by
  obtain ⟨Y, b, hY1, hY2, hYe, hb, hb', hY⟩ := pow10_sc p hp
  obtain ⟨O, δ, h1, h2, h3, h4, h5⟩ := ddMultHi_eq R (a := a) (b := b) hX1 hX2 hY1 hY2 (by omega) (by omega) (by omega)
  have hδ := h5 hYe
  subst hδ
  rw [add_zero] at h1
  have hO : IsDouble (sc O (a + b)) := by rw [← h2]; exact R.isDouble _
  have hm : IsDouble (sc (X * Y - O) (a + b)) := isDouble_sc (by omega) (by omega)
  have hsum : sc O (a + b) + sc (X * Y - O) (a + b) = sc (X * Y) (a + b) := by rw [sc_add]; congr 1; ring
  refine ⟨O, X * Y - O, a + b, ?_, by rw [hsum, hY, sc_mul], hO, h3, ?_, by omega⟩
  · unfold raise
    rw [if_pos (by constructor <;> omega), Int.toNat_natCast, lit_bot hp]
    simp only [bind, Except.bind]
    have : rnd ((10 : ℚ) ^ p) = sc Y b := by
      rw [hY]; exact rnd_exact R (isDouble_sc (by rw [abs_of_nonneg (by omega)]; omega) (by omega))
    rw [this, h1]
    simp only
    rw [ddRenorm_exact R (by rw [hsum]; exact h2) hm]
  · have : 2 ^ 52 * 2 ^ 52 ≤ X * Y := mul_le_mul hX1 hY1 (by norm_num) (by omega)
    rw [abs_le] at h3
    omega

/-- From the double-double product to an integer. -/
theorem ddScale_of {v : Nat} {p : ℤ} {h y : ℚ} (hr : raise rnd (Spec.dblAbs v) p = .ok (h, y)) (hh : IsDouble h)
    (hy : IsDouble y) (hsmall : |y| * 2 ^ 40 ≤ h) (h1 : (2 : ℚ) ^ 56 ≤ h) (h2 : h ≤ (2 : ℚ) ^ 62) :
    ∃ b : Nat, ddScale rnd v p = .ok b ∧ |(b : ℚ) - (h + y)| < 1 ∧ (∀ k : Nat, h + y = k → b = k) := by
  have hn1 : (2 : ℚ) ^ (56 : ℤ) ≤ |h| := by
    have h0 : (0 : ℚ) ≤ h := le_trans (by positivity) h1
    rw [abs_of_nonneg h0]
    exact_mod_cast h1
  obtain ⟨H, rfl⟩ : ∃ H : ℤ, h = H := by
    obtain ⟨k, hk⟩ := isDouble_grid hh 56 hn1
    refine ⟨k * 2 ^ 4, ?_⟩
    rw [hk, show (56 : ℤ) - 52 = 0 + (4 : Nat) by norm_num, ← sc_shift]
    simp [sc]
  have hH1 : |H| ≤ 2 ^ 62 := by
    have a1 : H ≤ 2 ^ 62 := by exact_mod_cast h2
    have a2 : 2 ^ 56 ≤ H := by exact_mod_cast h1
    rw [abs_le]; constructor <;> omega
  have hy2 : |y| ≤ ((2 ^ 61 : ℤ) : ℚ) := by
    have := abs_nonneg y
    push_cast
    norm_num at *
    linarith
  have hS := ddToS64_eq R hh hy hH1 hy2
  have ht := trunc_near y
  have hnn : 0 ≤ H + trunc y := by
    have ht' := abs_lt.mp ht
    have : ((0 : ℤ) : ℚ) ≤ ((H + trunc y : ℤ) : ℚ) := by
      push_cast
      have := neg_abs_le y
      norm_num at *
      linarith [ht'.1]
    exact_mod_cast this
  refine ⟨(H + trunc y).toNat, ?_, ?_, ?_⟩
  · unfold ddScale
    rw [hr]
    simp only [bind, Except.bind]
    rw [hS]
    simp only
    rw [if_neg (by omega)]
  · have : (((H + trunc y).toNat : Nat) : ℚ) = ((H + trunc y : ℤ) : ℚ) := by
      have := Int.toNat_of_nonneg hnn
      exact_mod_cast congrArg (Int.cast : ℤ → ℚ) this
    rw [this]; push_cast
    have : (H : ℚ) + trunc y - (H + y) = trunc y - y := by ring
    rw [this]; exact ht
  · intro k hk'
    have : y = ((k - H : ℤ) : ℚ) := by push_cast; linarith
    rw [this, trunc_int]
    omega

/-- What `scale` computes for powers from 0 to 22. -/
theorem ddScale_mid {v : Nat} {p : Nat} (hp : p ≤ 22) (hn : (2 : ℚ) ^ (-900 : ℤ) ≤ Spec.dblAbs v)
    (h1 : (10 : ℚ) ^ 17 ≤ Spec.dblAbs v * (10 : ℚ) ^ p) (h2 : Spec.dblAbs v * (10 : ℚ) ^ p < 4 * (10 : ℚ) ^ 18) :
    ∃ b : Nat, ddScale rnd v p = .ok b ∧ |(b : ℚ) - Spec.dblAbs v * (10 : ℚ) ^ p| < 1 ∧
      (∀ k : Nat, Spec.dblAbs v * (10 : ℚ) ^ p = k → b = k) := by
  obtain ⟨X, a, hX1, hX2, ha, hd⟩ : ∃ X a : ℤ, 2 ^ 52 ≤ X ∧ X < 2 ^ 53 ∧ -1022 ≤ a ∧ Spec.dblAbs v = sc X a := by
    unfold Spec.dblAbs at hn ⊢
    split at hn
    · exfalso
      have hlt : ((v % 2 ^ 52 : Nat) : ℚ) ≤ 2 ^ 52 := by
        have : v % 2 ^ 52 < 2 ^ 52 := Nat.mod_lt _ (by decide)
        exact_mod_cast this.le
      have h3 : ((v % 2 ^ 52 : Nat) : ℚ) * (2 : ℚ) ^ (-1074 : ℤ) ≤ 2 ^ 52 * (2 : ℚ) ^ (-1074 : ℤ) :=
        mul_le_mul_of_nonneg_right hlt (sc_pos _).le
      have h4 : (2 : ℚ) ^ 52 * (2 : ℚ) ^ (-1074 : ℤ) = (2 : ℚ) ^ (-1022 : ℤ) := by
        rw [← zpow_natCast, ← zpow_add₀ (by norm_num)]; norm_num
      have h5 : (2 : ℚ) ^ (-1022 : ℤ) < (2 : ℚ) ^ (-900 : ℤ) := zpow_lt_zpow_right₀ (by norm_num) (by norm_num)
      linarith
    · rename_i hE
      rw [if_neg hE]
      refine ⟨((2 ^ 52 + v % 2 ^ 52 : Nat) : ℤ), ((v / 2 ^ 52 % 2048 : Nat) : ℤ) - 1075, by omega, by omega, ?_, by unfold sc; rw [Int.cast_natCast]⟩
      by_contra hc
      have h3 : ((2 ^ 52 + v % 2 ^ 52 : Nat) : ℚ) ≤ 2 ^ 53 := by
        have : 2 ^ 52 + v % 2 ^ 52 ≤ 2 ^ 53 := by omega
        exact_mod_cast this
      have h4 : (2 : ℚ) ^ (((v / 2 ^ 52 % 2048 : Nat) : ℤ) - 1075) ≤ (2 : ℚ) ^ (-1022 : ℤ) :=
        zpow_le_zpow_right₀ (by norm_num) (by omega)
      have h5 := mul_le_mul h3 h4 (sc_pos _).le (by positivity)
      have h6 : (2 : ℚ) ^ 53 * (2 : ℚ) ^ (-1022 : ℤ) = (2 : ℚ) ^ (-969 : ℤ) := by
        rw [← zpow_natCast, ← zpow_add₀ (by norm_num)]; norm_num
      have h7 : (2 : ℚ) ^ (-969 : ℤ) < (2 : ℚ) ^ (-900 : ℤ) := zpow_lt_zpow_right₀ (by norm_num) (by norm_num)
      linarith
  obtain ⟨n, m, e, r1, r2, r3, r4, r5, r6⟩ := raise_exact R hX1 hX2 ha hp
  rw [← hd] at r1 r2
  have hm : |sc m e| * 2 ^ 51 ≤ sc n e := by
    rw [abs_sc]
    have : sc |m| e * 2 ^ 51 = sc (|m| * 2 ^ 51) e := by unfold sc; push_cast; ring
    rw [this]
    exact sc_le e (by omega)
  have hmd : IsDouble (sc m e) := isDouble_sc (by omega) r6
  generalize sc m e = y at *
  generalize sc n e = h at *
  have hy0 := abs_nonneg y
  have hy1 := neg_abs_le y
  have hy2 := le_abs_self y
  rw [← r2] at h1 h2 ⊢
  norm_num at h1 h2 hm
  exact ddScale_of R r1 r3 hmd (by norm_num; linarith) (by norm_num; linarith) (by norm_num; linarith)

end Pigo.Stb
