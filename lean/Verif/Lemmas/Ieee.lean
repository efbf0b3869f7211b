import Verif.Spec.Ieee
import Verif.Model.StbFp
import Mathlib.Tactic.Ring
import Mathlib.Tactic.Linarith
import Mathlib.Tactic.NormNum
import Mathlib.Tactic.Positivity
import Mathlib.Tactic.FieldSimp
import Mathlib.Algebra.Order.Round

/-!
# Rounding to nearest
-/

namespace Pigo.Stb

open Spec (IsDouble Rounding)

/-- `n · 2^e` -/
def sc (n e : ℤ) : ℚ := (n : ℚ) * (2 : ℚ) ^ e

theorem sc_pos (e : ℤ) : (0 : ℚ) < (2 : ℚ) ^ e := by positivity

theorem sc_mul (n m a b : ℤ) : sc n a * sc m b = sc (n * m) (a + b) := by
  unfold sc; rw [zpow_add₀ (by norm_num)]; push_cast; ring

theorem sc_add (n m e : ℤ) : sc n e + sc m e = sc (n + m) e := by unfold sc; push_cast; ring

theorem sc_sub (n m e : ℤ) : sc n e - sc m e = sc (n - m) e := by unfold sc; push_cast; ring

theorem sc_shift (n : ℤ) (k : Nat) (e : ℤ) : sc (n * 2 ^ k) e = sc n (e + k) := by
  unfold sc; rw [zpow_add₀ (by norm_num), zpow_natCast]; push_cast; ring

theorem sc_zero (e : ℤ) : sc 0 e = 0 := by simp [sc]

theorem abs_sc (n e : ℤ) : |sc n e| = sc |n| e := by
  unfold sc; rw [abs_mul, abs_of_pos (sc_pos e)]; push_cast; ring

theorem sc_le {n m : ℤ} (e : ℤ) (h : n ≤ m) : sc n e ≤ sc m e :=
  mul_le_mul_of_nonneg_right (by exact_mod_cast h) (sc_pos e).le

theorem sc_le_iff {n m e : ℤ} : sc n e ≤ sc m e ↔ n ≤ m := by
  constructor
  · intro h
    have := le_of_mul_le_mul_right h (sc_pos e)
    exact_mod_cast this
  · exact sc_le e

theorem sc_lt_iff {n m e : ℤ} : sc n e < sc m e ↔ n < m := by
  rw [← not_le, ← not_le, sc_le_iff]

theorem sc_inj {n m e : ℤ} (h : sc n e = sc m e) : n = m :=
  le_antisymm (sc_le_iff.mp h.le) (sc_le_iff.mp h.ge)

theorem sc_pow (k : Nat) (e : ℤ) : sc (2 ^ k) e = (2 : ℚ) ^ (e + k) := by
  have := sc_shift 1 k e
  rw [one_mul] at this
  rw [this]; simp [sc]

theorem isDouble_sc {n e : ℤ} (h : |n| ≤ 2 ^ 53) (he : -1074 ≤ e) : IsDouble (sc n e) := by
  rcases lt_or_eq_of_le h with h | h
  · exact ⟨n, e, h, he, rfl⟩
  · refine ⟨n / 2, e + 1, ?_, by omega, ?_⟩
    · rw [abs_lt]; rcases abs_cases n with ⟨g, _⟩ | ⟨g, _⟩ <;> omega
    · have : n = n / 2 * 2 := by
        rcases abs_cases n with ⟨g, _⟩ | ⟨g, _⟩ <;> omega
      have := sc_shift (n / 2) 1 e
      rw [pow_one, ← ‹n = n / 2 * 2›] at this
      exact this

/-- A multiple of a power of two. -/
theorem isDouble_mul {n m e : ℤ} (k : Nat) (hn : n = m * 2 ^ k) (h : |m| ≤ 2 ^ 53) (he : -1074 ≤ e) : IsDouble (sc n e) := by
  rw [hn, sc_shift]; exact isDouble_sc h (by omega)

theorem isDouble_zero : IsDouble 0 := ⟨0, 0, by norm_num, by norm_num, by simp⟩

theorem isDouble_neg {x : ℚ} (h : IsDouble x) : IsDouble (-x) := by
  obtain ⟨m, e, h1, h2, rfl⟩ := h
  exact ⟨-m, e, by rwa [abs_neg], h2, by push_cast; ring⟩

/-- Above `2^k` doubles are multiples of `2^(k-52)`. -/
theorem isDouble_grid {y : ℚ} (h : IsDouble y) (k : ℤ) (hk : (2 : ℚ) ^ k ≤ |y|) : ∃ n : ℤ, y = sc n (k - 52) := by
  obtain ⟨m, e, h1, h2, rfl⟩ := h
  have hle : k - 52 ≤ e := by
    by_contra hc
    have h3 : (2 : ℚ) ^ k ≤ sc |m| e := by
      rw [← abs_sc]; exact hk
    have h4 : sc |m| e < sc (2 ^ 53) e := sc_lt_iff.mpr h1
    have h5 : sc (2 ^ 53) e ≤ (2 : ℚ) ^ k := by
      have : ((2 : ℤ) ^ 53) = 2 ^ (53 : Nat) := rfl
      rw [this, sc_pow]
      exact zpow_le_zpow_right₀ (by norm_num) (by push_cast; omega)
    linarith
  obtain ⟨j, hj⟩ : ∃ j : Nat, e = k - 52 + j := ⟨(e - (k - 52)).toNat, by omega⟩
  refine ⟨m * 2 ^ j, ?_⟩
  rw [sc_shift, ← hj]; rfl

variable {rnd : ℚ → ℚ} (R : Rounding rnd)
include R

theorem rnd_exact {x : ℚ} (h : IsDouble x) : rnd x = x := by
  have := R.nearest x x h
  rw [sub_self, abs_zero] at this
  have := abs_eq_zero.mp (le_antisymm this (abs_nonneg _))
  linarith

theorem rnd_zero : rnd 0 = 0 := rnd_exact R isDouble_zero

theorem rnd_sc {n m e : ℤ} (k : Nat) (hn : n = m * 2 ^ k) (h : |m| ≤ 2 ^ 53) (he : -1074 ≤ e) : rnd (sc n e) = sc n e :=
  rnd_exact R (isDouble_mul k hn h he)

/-- The rounding error. -/
theorem rnd_err {x : ℚ} {k : ℤ} (hk : -1021 ≤ k) (h : |x| ≤ (2 : ℚ) ^ k) : |rnd x - x| ≤ (2 : ℚ) ^ (k - 54) := by
  have hq : (0 : ℚ) < (2 : ℚ) ^ (k - 53) := sc_pos _
  have h1 : |x / (2 : ℚ) ^ (k - 53)| ≤ 2 ^ 53 := by
    rw [abs_div, abs_of_pos hq, div_le_iff₀ hq, ← zpow_natCast, ← zpow_add₀ (by norm_num)]
    rw [show ((53 : Nat) : ℤ) + (k - 53) = k by push_cast; ring]; exact h
  have h2 : |round (x / (2 : ℚ) ^ (k - 53))| ≤ 2 ^ 53 := by
    have h3 := abs_sub_round (x / (2 : ℚ) ^ (k - 53))
    rw [abs_le] at h1 h3 ⊢
    have hlo : ((-2 ^ 53 - 1 : ℤ) : ℚ) < (round (x / (2 : ℚ) ^ (k - 53)) : ℚ) := by push_cast; linarith
    have hhi : (round (x / (2 : ℚ) ^ (k - 53)) : ℚ) < ((2 ^ 53 + 1 : ℤ) : ℚ) := by push_cast; linarith
    have hlo := Int.cast_lt.mp hlo
    have hhi := Int.cast_lt.mp hhi
    omega
  refine (R.nearest x _ (isDouble_sc (e := k - 53) h2 (by omega))).trans ?_
  have h3 := abs_sub_round (x / (2 : ℚ) ^ (k - 53))
  have e1 : sc (round (x / (2 : ℚ) ^ (k - 53))) (k - 53) - x =
      -((x / (2 : ℚ) ^ (k - 53) - round (x / (2 : ℚ) ^ (k - 53))) * (2 : ℚ) ^ (k - 53)) := by
    unfold sc; field_simp; ring
  rw [e1, abs_neg, abs_mul, abs_of_pos hq]
  calc _ ≤ 1 / 2 * (2 : ℚ) ^ (k - 53) := mul_le_mul_of_nonneg_right h3 hq.le
    _ = (2 : ℚ) ^ (k - 54) := by
      rw [show k - 53 = (k - 54) + 1 by ring, zpow_add₀ (by norm_num)]; ring

omit R in
theorem log_sc {X : ℤ} (a : ℤ) (h1 : 2 ^ 52 ≤ X) (h2 : X < 2 ^ 53) : Int.log 2 (sc X a) = a + 52 := by
  have hpos : (0 : ℚ) < sc X a := by
    unfold sc; have : (0 : ℚ) < X := by exact_mod_cast (by omega : 0 < X)
    positivity
  have g1 : ((2 : Nat) : ℚ) ^ (a + 52) ≤ sc X a := by
    have : sc (2 ^ 52) a ≤ sc X a := sc_le a h1
    rwa [sc_pow] at this
  have g2 : sc X a < ((2 : Nat) : ℚ) ^ (a + 53) := by
    have : sc X a < sc (2 ^ 53) a := sc_lt_iff.mpr h2
    rwa [sc_pow] at this
  have l1 := (Int.zpow_le_iff_le_log (by norm_num : 1 < 2) hpos).mp g1
  have l2 := (Int.lt_zpow_iff_log_lt (by norm_num : 1 < 2) hpos).mp g2
  omega

omit R in
/-- The mask clears the 27 low bits of the significand. -/
theorem mask_sc {X a : ℤ} (h1 : 2 ^ 52 ≤ X) (h2 : X < 2 ^ 53) (ha : -1074 ≤ a) : mask (sc X a) = sc (X / 2 ^ 27 * 2 ^ 27) a := by
  unfold mask
  rw [log_sc a h1 h2, max_eq_left (by omega), show a + 52 - 25 = a + (27 : Nat) by push_cast; ring]
  have hq : (0 : ℚ) < (2 : ℚ) ^ (a + (27 : Nat)) := sc_pos _
  have e : sc X a / (2 : ℚ) ^ (a + (27 : Nat)) = (X : ℚ) / ((2 ^ 27 : Nat) : ℚ) := by
    unfold sc
    rw [zpow_add₀ (by norm_num), zpow_natCast]
    push_cast
    rw [mul_comm (X : ℚ), mul_div_mul_left _ _ (sc_pos a).ne']
    norm_num
  simp only
  rw [e, Rat.floor_intCast_div_natCast X (2 ^ 27)]
  unfold sc
  rw [zpow_add₀ (by norm_num), zpow_natCast]
  push_cast
  ring

/-- The double-double product: exact but for the product of the low halves. -/
theorem ddMultHi_eq {X Y a b : ℤ} (hX1 : 2 ^ 52 ≤ X) (hX2 : X < 2 ^ 53) (hY1 : 2 ^ 52 ≤ Y) (hY2 : Y < 2 ^ 53)
    (ha : -1074 ≤ a) (hb : -1074 ≤ b) (hab : -1074 ≤ a + b) : ∃ O δ : ℤ,
      ddMultHi rnd (sc X a) (sc Y b) = (sc O (a + b), sc (X * Y - O + δ) (a + b)) ∧
      rnd (sc (X * Y) (a + b)) = sc O (a + b) ∧ |X * Y - O| ≤ 2 ^ 52 ∧ |δ| ≤ 1 ∧ (Y % 2 = 0 → δ = 0) := by
  -- the halves
  obtain ⟨A, L, hXe, hA1, hA2, hL1, hL2⟩ : ∃ A L : ℤ, X = A * 2 ^ 27 + L ∧ 0 ≤ A ∧ A < 2 ^ 26 ∧ 0 ≤ L ∧ L < 2 ^ 27 :=
    ⟨X / 2 ^ 27, X % 2 ^ 27, by omega, by omega, by omega, by omega, by omega⟩
  obtain ⟨B, Mo, hYe, hB1, hB2, hM1, hM2⟩ : ∃ B Mo : ℤ, Y = B * 2 ^ 27 + Mo ∧ 0 ≤ B ∧ B < 2 ^ 26 ∧ 0 ≤ Mo ∧ Mo < 2 ^ 27 :=
    ⟨Y / 2 ^ 27, Y % 2 ^ 27, by omega, by omega, by omega, by omega, by omega⟩
  have hXm : mask (sc X a) = sc (A * 2 ^ 27) a := by
    rw [mask_sc hX1 hX2 ha]; congr 1; omega
  have hYm : mask (sc Y b) = sc (B * 2 ^ 27) b := by
    rw [mask_sc hY1 hY2 hb]; congr 1; omega
  have hAB1 : 0 ≤ A * B := mul_nonneg hA1 hB1
  have hAB2 : A * B ≤ 2 ^ 26 * 2 ^ 26 := mul_le_mul hA2.le hB2.le hB1 (by norm_num)
  have hAM1 : 0 ≤ A * Mo := mul_nonneg hA1 hM1
  have hAM2 : A * Mo ≤ 2 ^ 26 * 2 ^ 27 := mul_le_mul hA2.le hM2.le hM1 (by norm_num)
  have hLB1 : 0 ≤ L * B := mul_nonneg hL1 hB1
  have hLB2 : L * B ≤ 2 ^ 27 * 2 ^ 26 := mul_le_mul hL2.le hB2.le hB1 (by norm_num)
  have hLM1 : 0 ≤ L * Mo := mul_nonneg hL1 hM1
  have hLM2 : L * Mo ≤ (2 ^ 27 - 1) * (2 ^ 27 - 1) := mul_le_mul (by omega) (by omega) hM1 (by norm_num)
  have hLY : L * Y ≤ (2 ^ 27 - 1) * (2 ^ 53 - 1) := mul_le_mul (by omega) (by omega) (by omega) (by norm_num)
  have hLYe : L * Y = L * B * 2 ^ 27 + L * Mo := by rw [hYe]; ring
  have hXY : X * Y = A * B * 2 ^ 54 + A * Mo * 2 ^ 27 + L * B * 2 ^ 27 + L * Mo := by rw [hXe, hYe]; ring
  have hP1 : 2 ^ 52 * 2 ^ 52 ≤ X * Y := mul_le_mul hX1 hY1 (by norm_num) (by omega)
  have hP2 : X * Y ≤ 2 ^ 53 * 2 ^ 53 := mul_le_mul hX2.le hY2.le (by omega) (by norm_num)
  -- the rounded product
  have herr : |rnd (sc (X * Y) (a + b)) - sc (X * Y) (a + b)| ≤ sc (2 ^ 52) (a + b) := by
    have := rnd_err R (x := sc (X * Y) (a + b)) (k := a + b + 106) (by omega) (by
      rw [abs_sc, abs_of_nonneg (by omega)]
      have h := sc_le (a + b) (show X * Y ≤ 2 ^ 106 by omega)
      rwa [sc_pow] at h)
    rw [sc_pow]
    rwa [show a + b + 106 - 54 = a + b + (52 : Nat) by push_cast; ring] at this
  obtain ⟨O, hO, hO51⟩ : ∃ O : ℤ, rnd (sc (X * Y) (a + b)) = sc O (a + b) ∧ O % 2 ^ 51 = 0 := by
    obtain ⟨n, hn⟩ := isDouble_grid (R.isDouble (sc (X * Y) (a + b))) (a + b + 103) (by
      have h1 : sc (2 ^ 103) (a + b) ≤ sc (X * Y) (a + b) - sc (2 ^ 52) (a + b) := by
        rw [sc_sub]; apply sc_le; omega
      rw [sc_pow, show a + b + ((103 : Nat) : ℤ) = a + b + 103 by norm_num] at h1
      rw [abs_le] at herr
      have := le_abs_self (rnd (sc (X * Y) (a + b)))
      linarith [herr.1])
    refine ⟨n * 2 ^ 51, ?_, by omega⟩
    rw [hn, sc_shift]; congr 1; push_cast; ring
  have hOe : |X * Y - O| ≤ 2 ^ 52 := by
    rw [hO, sc_sub, abs_sc, sc_le_iff] at herr
    rw [abs_sub_comm]; exact herr
  rw [abs_le] at hOe
  obtain ⟨Q, hQ⟩ : ∃ Q, O = Q * 2 ^ 51 := ⟨O / 2 ^ 51, by omega⟩
  -- the low product
  obtain ⟨P, hP, hPerr, hPeven⟩ : ∃ P : ℤ, rnd (sc (L * Mo) (a + b)) = sc P (a + b) ∧ |P - L * Mo| ≤ 1 ∧
      (Y % 2 = 0 → P = L * Mo) := by
    by_cases hbig : L * Mo ≤ 2 ^ 53
    · exact ⟨L * Mo, rnd_exact R (isDouble_sc (by rw [abs_of_nonneg hLM1]; exact hbig) hab), by simp, fun _ => rfl⟩
    · have he : |rnd (sc (L * Mo) (a + b)) - sc (L * Mo) (a + b)| ≤ sc 1 (a + b) := by
        have := rnd_err R (x := sc (L * Mo) (a + b)) (k := a + b + 54) (by omega) (by
          rw [abs_sc, abs_of_nonneg hLM1]
          have h := sc_le (a + b) (show L * Mo ≤ 2 ^ 54 by omega)
          rwa [sc_pow] at h)
        rw [show a + b + 54 - 54 = a + b by ring] at this
        simpa [sc] using this
      obtain ⟨n, hn⟩ := isDouble_grid (R.isDouble (sc (L * Mo) (a + b))) (a + b + 52) (by
        have h1 : sc (2 ^ 52) (a + b) ≤ sc (L * Mo) (a + b) - sc 1 (a + b) := by
          rw [sc_sub]; apply sc_le; omega
        rw [sc_pow, show a + b + ((52 : Nat) : ℤ) = a + b + 52 by norm_num] at h1
        rw [abs_le] at he
        have := le_abs_self (rnd (sc (L * Mo) (a + b)))
        linarith [he.1])
      rw [show a + b + 52 - 52 = a + b by ring] at hn
      refine ⟨n, hn, ?_, fun hev => ?_⟩
      · rw [hn, sc_sub, abs_sc, sc_le_iff] at he; exact he
      · have hMe : Mo = Mo / 2 * 2 := by omega
        have hx : L * Mo = L * (Mo / 2) * 2 ^ 1 := by
          rw [pow_one, mul_assoc, ← hMe]
        have hb' : L * (Mo / 2) ≤ 2 ^ 27 * 2 ^ 26 := mul_le_mul (by omega) (by omega) (by omega) (by norm_num)
        have := rnd_sc R (n := L * Mo) (m := L * (Mo / 2)) 1 hx (by
          rw [abs_of_nonneg (mul_nonneg hL1 (by omega))]; omega) hab
        rw [hn] at this
        exact sc_inj this
  rw [abs_le] at hPerr
  have r1 : rnd (sc X a - sc (A * 2 ^ 27) a) = sc L a := by
    rw [sc_sub, show X - A * 2 ^ 27 = L by omega]
    exact rnd_exact R (isDouble_sc (by rw [abs_of_nonneg hL1]; omega) ha)
  have r2 : rnd (sc Y b - sc (B * 2 ^ 27) b) = sc Mo b := by
    rw [sc_sub, show Y - B * 2 ^ 27 = Mo by omega]
    exact rnd_exact R (isDouble_sc (by rw [abs_of_nonneg hM1]; omega) hb)
  have r3 : rnd (sc (A * 2 ^ 27) a * sc (B * 2 ^ 27) b) = sc (A * B * 2 ^ 54) (a + b) := by
    rw [sc_mul, show A * 2 ^ 27 * (B * 2 ^ 27) = A * B * 2 ^ 54 by ring]
    exact rnd_sc R 54 rfl (by rw [abs_of_nonneg hAB1]; omega) hab
  have r4 : rnd (sc (A * B * 2 ^ 54) (a + b) - sc O (a + b)) = sc (A * B * 2 ^ 54 - O) (a + b) := by
    rw [sc_sub]
    refine rnd_sc R (m := A * B * 8 - Q) 51 (by rw [hQ]; ring) ?_ hab
    rw [abs_le]; constructor <;> omega
  have r5 : rnd (sc (A * 2 ^ 27) a * sc Mo b) = sc (A * Mo * 2 ^ 27) (a + b) := by
    rw [sc_mul, show A * 2 ^ 27 * Mo = A * Mo * 2 ^ 27 by ring]
    exact rnd_sc R 27 rfl (by rw [abs_of_nonneg hAM1]; omega) hab
  have r6 : rnd (sc (A * B * 2 ^ 54 - O) (a + b) + sc (A * Mo * 2 ^ 27) (a + b)) =
      sc (A * B * 2 ^ 54 - O + A * Mo * 2 ^ 27) (a + b) := by
    rw [sc_add]
    refine rnd_sc R (m := A * B * 2 ^ 27 - Q * 2 ^ 24 + A * Mo) 27 (by rw [hQ]; ring) ?_ hab
    rw [abs_le]; constructor <;> omega
  have r7 : rnd (sc L a * sc (B * 2 ^ 27) b) = sc (L * B * 2 ^ 27) (a + b) := by
    rw [sc_mul, show L * (B * 2 ^ 27) = L * B * 2 ^ 27 by ring]
    exact rnd_sc R 27 rfl (by rw [abs_of_nonneg hLB1]; omega) hab
  have r8 : rnd (sc (A * B * 2 ^ 54 - O + A * Mo * 2 ^ 27) (a + b) + sc (L * B * 2 ^ 27) (a + b)) =
      sc (X * Y - O - L * Mo) (a + b) := by
    rw [sc_add, show A * B * 2 ^ 54 - O + A * Mo * 2 ^ 27 + L * B * 2 ^ 27 = X * Y - O - L * Mo by rw [hXY]; ring]
    refine rnd_sc R (m := A * B * 2 ^ 27 - Q * 2 ^ 24 + A * Mo + L * B) 27 (by rw [hXY, hQ]; ring) ?_ hab
    rw [abs_le]; constructor <;> omega
  have r9 : rnd (sc (X * Y - O - L * Mo) (a + b) + sc P (a + b)) = sc (X * Y - O + (P - L * Mo)) (a + b) := by
    rw [sc_add, show X * Y - O - L * Mo + P = X * Y - O + (P - L * Mo) by ring]
    refine rnd_exact R (isDouble_sc ?_ hab)
    rw [abs_le]; constructor <;> omega
  refine ⟨O, P - L * Mo, ?_, hO, by rw [abs_le]; exact hOe, by rw [abs_le]; exact hPerr, fun h => by rw [hPeven h]; ring⟩
  unfold ddMultHi
  simp only [hXm, hYm, sc_mul X Y, hO, r1, r2, r3, r4, r5, r6, r7, r8]
  rw [sc_mul, hP, r9]

end Pigo.Stb
