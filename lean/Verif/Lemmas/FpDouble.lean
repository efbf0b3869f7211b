import Verif.Model.FpDouble
import Verif.Lemmas.StbCrude
import Verif.Lemmas.Fp
import Verif.Lemmas.Formats
import Verif.Spec.FpValue
import Verif.Props.Stb

/-!
# `read_fp<double>`: accuracy
-/

namespace Pigo

open Spec (IsDouble Rounding PowOk)
open Stb

theorem isDouble_nat {n : Nat} (h : n ≤ 2 ^ 53) : IsDouble (n : ℚ) := by
  have := isDouble_sc (n := (n : ℤ)) (e := 0) (by rw [abs_of_nonneg (by omega)]; exact_mod_cast h) (by norm_num)
  unfold sc at this
  simpa using this

/-- `b` is `a` up to the relative error `ε`. -/
def Rel (ε a b : ℚ) : Prop := |b - a| ≤ ε * a

theorem Rel.refl (a : ℚ) : Rel 0 a a := by simp [Rel]

theorem Rel.mono {ε δ a b : ℚ} (h : Rel ε a b) (ha : 0 ≤ a) (hd : ε ≤ δ) : Rel δ a b :=
  h.trans (mul_le_mul_of_nonneg_right hd ha)

theorem Rel.zero {ε b : ℚ} (h : Rel ε 0 b) : b = 0 := by
  unfold Rel at h
  simp only [sub_zero, mul_zero] at h
  exact abs_nonpos_iff.mp h

theorem Rel.mul {ε δ a b c d : ℚ} (h : Rel ε a b) (h' : Rel δ c d) (ha : 0 ≤ a) (hc : 0 ≤ c) (h0 : 0 ≤ ε) :
    Rel (ε + δ + ε * δ) (a * c) (b * d) := by
  unfold Rel at *
  have e : b * d - a * c = (b - a) * (d - c) + (b - a) * c + a * (d - c) := by ring
  rw [e]
  have h1 : |(b - a) * (d - c)| ≤ (ε * a) * (δ * c) := by
    rw [abs_mul]; exact mul_le_mul h h' (abs_nonneg _) (by positivity)
  have h2 : |(b - a) * c| ≤ ε * a * c := by
    rw [abs_mul, abs_of_nonneg hc]; exact mul_le_mul_of_nonneg_right h hc
  have h3 : |a * (d - c)| ≤ a * (δ * c) := by
    rw [abs_mul, abs_of_nonneg ha]; exact mul_le_mul_of_nonneg_left h' ha
  calc _ ≤ |(b - a) * (d - c)| + |(b - a) * c| + |a * (d - c)| := (abs_add_le _ _).trans (add_le_add (abs_add_le _ _) le_rfl)
    _ ≤ (ε * a) * (δ * c) + ε * a * c + a * (δ * c) := by linarith
    _ = _ := by ring

theorem Rel.add {ε a b c : ℚ} (h : Rel ε a b) (hc : 0 ≤ c) (h0 : 0 ≤ ε) : Rel ε (c + a) (c + b) := by
  unfold Rel at *
  have : c + b - (c + a) = b - a := by ring
  rw [this]
  nlinarith

variable {rnd pow : ℚ → ℚ} (R : Rounding rnd) (P : PowOk pow)

section
include R

/-- One more rounding. -/
theorem Rel.round {ε a b : ℚ} (h : Rel ε a b) (ha : a = 0 ∨ (2 : ℚ) ^ (-1015 : ℤ) ≤ a) (h0 : 0 ≤ ε) (h1 : ε ≤ 1) :
    Rel (ε + (1 / 2 ^ 53 + 1 / 2 ^ 60) * (1 + ε)) a (rnd b) := by
  rcases ha with rfl | ha
  · rw [h.zero, rnd_zero R]; simp [Rel]
  have hp : (0 : ℚ) < a := (sc_pos (-1015)).trans_le ha
  unfold Rel at *
  have hr := rnd_rel R b
  have hb : |b| ≤ (1 + ε) * a := by
    have : |b| ≤ |b - a| + |a| := by have := abs_add_le (b - a) a; rwa [sub_add_cancel] at this
    rw [abs_of_pos hp] at this
    linarith
  have ht : (2 : ℚ) ^ (-1075 : ℤ) ≤ a / 2 ^ 60 := by
    rw [le_div_iff₀ (by positivity), ← zpow_natCast, ← zpow_add₀ (by norm_num)]
    exact ha
  have e : rnd b - a = (rnd b - b) + (b - a) := by ring
  rw [e]
  have h5 := (abs_add_le (rnd b - b) (b - a))
  have h6 : |b| / 2 ^ 53 ≤ (1 + ε) * a / 2 ^ 53 := div_le_div_of_nonneg_right hb (by positivity)
  have h7 : a / 2 ^ 60 ≤ (1 + ε) * a / 2 ^ 60 := div_le_div_of_nonneg_right (by nlinarith) (by positivity)
  calc _ ≤ _ := h5
    _ ≤ (1 + ε) * a / 2 ^ 53 + (1 + ε) * a / 2 ^ 60 + ε * a := by linarith
    _ = _ := by ring

/-- Digits are read exactly while the number fits in 53 bits. -/
theorem fpDigits_double (ds : List Byte) (h : Spec.decimal ds ≤ 2 ^ 53) : fpDigits (doubleOps rnd pow) ds = (Spec.decimal ds : ℚ) := by
  induction ds using List.reverseRec with
  | nil => rfl
  | append_singleton ds c ih =>
    have step : Spec.decimal (ds ++ [c]) = 10 * Spec.decimal ds + (c.toNat - '0'.toNat) := by
      simp [Spec.decimal, List.foldl_append]
    rw [step] at h ⊢
    have ih := ih (by omega)
    have : fpDigits (doubleOps rnd pow) (ds ++ [c]) = rnd (rnd (fpDigits (doubleOps rnd pow) ds * 10) + (digitVal c : ℚ)) := by
      unfold fpDigits; rw [List.foldl_append]; rfl
    rw [this, ih]
    have e1 : (Spec.decimal ds : ℚ) * 10 = ((10 * Spec.decimal ds : Nat) : ℚ) := by push_cast; ring
    rw [e1, rnd_exact R (isDouble_nat (by omega)), ← Nat.cast_add]
    exact rnd_exact R (isDouble_nat h)

theorem neg_double {x : ℚ} (h : IsDouble x) : (doubleOps rnd pow).neg x = -x := by
  show rnd (x * (-1)) = -x
  rw [show x * (-1) = -x by ring, rnd_exact R (isDouble_neg h)]

include P

theorem evalFrac_double {int : List Byte} {frac : Option (List Byte)} (hi : Spec.decimal int ≤ 2 ^ 53)
    (hf : ∀ f, frac = some f → Spec.decimal f ≤ 2 ^ 53 ∧ f.length ≤ 22) :
    IsDouble (evalFrac (doubleOps rnd pow) (fpDigits (doubleOps rnd pow) int) frac) ∧
    Rel (1 / 2 ^ 52 + 1 / 2 ^ 58) ((Spec.decimal int : ℚ) + Spec.fracValue frac)
      (evalFrac (doubleOps rnd pow) (fpDigits (doubleOps rnd pow) int) frac) := by
  cases frac with
  | none =>
    simp only [evalFrac, Spec.fracValue, add_zero, fpDigits_double R int hi]
    exact ⟨isDouble_nat hi, (Rel.refl _).mono (by positivity) (by norm_num)⟩
  | some f =>
    obtain ⟨h1, h2⟩ := hf f rfl
    simp only [evalFrac, Spec.fracValue, fpDigits_double R int hi, fpDigits_double R f h1]
    show IsDouble (rnd _) ∧ _
    refine ⟨R.isDouble _, ?_⟩
    show Rel _ _ (rnd ((Spec.decimal int : ℚ) + rnd ((Spec.decimal f : ℚ) / pow f.length)))
    rw [P.exact _ h2]
    have hF : (Spec.decimal f : ℚ) / 10 ^ f.length = 0 ∨ (2 : ℚ) ^ (-1015 : ℤ) ≤ (Spec.decimal f : ℚ) / 10 ^ f.length := by
      rcases Nat.eq_zero_or_pos (Spec.decimal f) with h | h
      · left; rw [h]; simp
      · right
        have h3 : (1 : ℚ) ≤ Spec.decimal f := by exact_mod_cast h
        have h4 : (10 : ℚ) ^ f.length ≤ 10 ^ 22 := pow_le_pow_right₀ (by norm_num) h2
        calc (2 : ℚ) ^ (-1015 : ℤ) ≤ (2 : ℚ) ^ (-100 : ℤ) := zpow_le_zpow_right₀ (by norm_num) (by norm_num)
          _ ≤ 1 / 10 ^ 22 := by norm_num
          _ ≤ 1 / 10 ^ f.length := one_div_le_one_div_of_le (by positivity) h4
          _ ≤ _ := div_le_div_of_nonneg_right h3 (by positivity)
    have r1 := (Rel.refl ((Spec.decimal f : ℚ) / 10 ^ f.length)).round R hF le_rfl (by norm_num)
    have hF0 : (0 : ℚ) ≤ (Spec.decimal f : ℚ) / 10 ^ f.length := by positivity
    have r2 := r1.add (c := (Spec.decimal int : ℚ)) (by positivity) (by norm_num)
    refine (r2.round R ?_ (by norm_num) (by norm_num)).mono (by positivity) (by norm_num)
    rcases Nat.eq_zero_or_pos (Spec.decimal int) with h | h
    · rw [h]; simpa using hF
    · right
      have h3 : (1 : ℚ) ≤ Spec.decimal int := by exact_mod_cast h
      calc (2 : ℚ) ^ (-1015 : ℤ) ≤ (2 : ℚ) ^ (0 : ℤ) := zpow_le_zpow_right₀ (by norm_num) (by norm_num)
        _ = 1 := by norm_num
        _ ≤ _ := by linarith

/-- Reading a literal in double arithmetic. -/
theorem evalLit_double {l : Spec.Lit} (hi : Spec.decimal l.int ≤ 2 ^ 53)
    (hf : ∀ f, l.frac = some f → Spec.decimal f ≤ 2 ^ 53 ∧ f.length ≤ 22) (hx : |Spec.expValue l.exp| ≤ 270) :
    |evalLit (doubleOps rnd pow) l - l.value| ≤ |l.value| / 2 ^ 50 := by
  obtain ⟨sg, int, frac, exp⟩ := l
  simp only at hi hf hx
  obtain ⟨d1, r1⟩ := evalFrac_double R P hi hf
  have hv0 : (0 : ℚ) ≤ (Spec.decimal int : ℚ) + Spec.fracValue frac := by
    cases frac with
    | none => simp [Spec.fracValue]
    | some f => simp only [Spec.fracValue]; positivity
  have hvmin : (Spec.decimal int : ℚ) + Spec.fracValue frac = 0 ∨ 1 / 10 ^ 22 ≤ (Spec.decimal int : ℚ) + Spec.fracValue frac := by
    cases frac with
    | none =>
      rcases Nat.eq_zero_or_pos (Spec.decimal int) with h | h
      · left; rw [h]; simp [Spec.fracValue]
      · right
        have h3 : (1 : ℚ) ≤ Spec.decimal int := by exact_mod_cast h
        norm_num [Spec.fracValue]; linarith
    | some f =>
      simp only [Spec.fracValue]
      rcases Nat.eq_zero_or_pos (Spec.decimal int) with h | h
      · rcases Nat.eq_zero_or_pos (Spec.decimal f) with h' | h'
        · left; rw [h, h']; simp
        · right
          have h3 : (1 : ℚ) ≤ Spec.decimal f := by exact_mod_cast h'
          have h4 : (10 : ℚ) ^ f.length ≤ 10 ^ 22 := pow_le_pow_right₀ (by norm_num) (hf f rfl).2
          rw [h, Nat.cast_zero, zero_add]
          exact (one_div_le_one_div_of_le (by positivity) h4).trans (div_le_div_of_nonneg_right h3 (by positivity))
      · right
        have h3 : (1 : ℚ) ≤ Spec.decimal int := by exact_mod_cast h
        have h4 : (0 : ℚ) ≤ (Spec.decimal f : ℚ) / 10 ^ f.length := by positivity
        have : (1 : ℚ) / 10 ^ 22 ≤ 1 := by norm_num
        linarith
  generalize hA : evalFrac (doubleOps rnd pow) (fpDigits (doubleOps rnd pow) int) frac = A at *
  generalize hV : (Spec.decimal int : ℚ) + Spec.fracValue frac = V at *
  have hE : IsDouble (evalExp (doubleOps rnd pow) A exp) ∧
      Rel (1 / 2 ^ 50) (V * (10 : ℚ) ^ Spec.expValue exp) (evalExp (doubleOps rnd pow) A exp) := by
    rcases exp with _ | ⟨u, s, ds⟩
    · simp only [evalExp, Spec.expValue, zpow_zero, mul_one]
      exact ⟨d1, r1.mono hv0 (by norm_num)⟩
    · have hds : Spec.decimal ds ≤ 2 ^ 53 := by
        simp only [Spec.expValue] at hx
        have h1 := hx
        split at h1
        · rw [abs_neg, abs_of_nonneg (by omega)] at h1; omega
        · rw [abs_of_nonneg (by omega)] at h1; omega
      have hex : (if s.neg then (doubleOps rnd pow).neg (fpDigits (doubleOps rnd pow) ds) else fpDigits (doubleOps rnd pow) ds) =
          ((Spec.expValue (some (u, s, ds)) : ℤ) : ℚ) := by
        rw [fpDigits_double R ds hds, neg_double R (isDouble_nat hds)]
        simp only [Spec.expValue]
        split <;> push_cast <;> rfl
      simp only [evalExp]
      rw [hex]
      generalize Spec.expValue (some (u, s, ds)) = x at *
      show IsDouble (rnd _) ∧ Rel _ _ (rnd (A * pow x))
      refine ⟨R.isDouble _, ?_⟩
      have r2 : Rel (1 / 2 ^ 52) ((10 : ℚ) ^ x) (pow x) := by
        unfold Rel
        have := P.close x (by omega)
        rwa [one_div, inv_mul_eq_div]
      have hp : (0 : ℚ) < (10 : ℚ) ^ x := by positivity
      have r3 := r1.mul r2 hv0 hp.le (by norm_num)
      refine (r3.round R ?_ (by norm_num) (by norm_num)).mono (by positivity) (by norm_num)
      rcases hvmin with h | h
      · left; rw [h]; simp
      · right
        rw [abs_le] at hx
        have h5 : (10 : ℚ) ^ (-270 : ℤ) ≤ (10 : ℚ) ^ x := zpow_le_zpow_right₀ (by norm_num) hx.1
        have h6 : (1 : ℚ) / 10 ^ 22 * (10 : ℚ) ^ (-270 : ℤ) ≤ V * (10 : ℚ) ^ x :=
          mul_le_mul h h5 (by positivity) hv0
        refine le_trans ?_ h6
        have hk : (10 : Nat) ^ 292 ≤ 2 ^ 1015 := by decide +kernel
        have hk' : ((10 : ℚ) ^ 292) ≤ 2 ^ 1015 := by exact_mod_cast hk
        have e : (1 : ℚ) / 10 ^ 22 * (10 : ℚ) ^ (-270 : ℤ) = 1 / 10 ^ 292 := by
          rw [zpow_neg, one_div, one_div, ← mul_inv, show (270 : ℤ) = ((270 : Nat) : ℤ) by rfl, zpow_natCast, ← pow_add]
        rw [e, zpow_neg, show (1015 : ℤ) = ((1015 : Nat) : ℤ) by rfl, zpow_natCast, ← one_div]
        exact one_div_le_one_div_of_le (by positivity) hk'
  obtain ⟨d2, r4⟩ := hE
  have hW : (0 : ℚ) ≤ V * (10 : ℚ) ^ Spec.expValue exp := by positivity
  unfold evalLit Spec.Lit.value Spec.Sign.factor
  simp only
  rw [hA, hV, neg_double R d2]
  unfold Rel at r4
  generalize evalExp (doubleOps rnd pow) A exp = B at *
  rw [mul_assoc]
  generalize V * (10 : ℚ) ^ Spec.expValue exp = W at *
  have e : W / 2 ^ 50 = 1 / 2 ^ 50 * W := by ring
  split
  · rw [show -B - -1 * W = -(B - W) by ring, abs_neg, neg_one_mul, abs_neg, abs_of_nonneg hW, e]
    exact r4
  · rw [one_mul, abs_of_nonneg hW, e]
    exact r4

end

end Pigo
