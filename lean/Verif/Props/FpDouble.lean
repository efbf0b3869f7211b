import Verif.Lemmas.FpText
import Verif.Props.StbFp
import Verif.Props.Fp
import Verif.Props.Write

/-!
# Doubles: reading text, and reading back what was printed (C76)
-/

namespace Pigo

open Spec (IsDouble Rounding PowOk)
open Stb (printDouble)

/-- The value of the double with the bit pattern `v`. -/
def Spec.dbl (v : Nat) : ℚ := if v.testBit 63 then -Spec.dblAbs v else Spec.dblAbs v

variable {rnd pow : ℚ → ℚ} (R : Rounding rnd) (P : PowOk pow)

/-! ## Reading -/

section
include R P

/-- **C76, reading.** `read_fp<double>` on text that holds (after bytes which belong to no number) a decimal literal with
integer part and fraction below `2^53`, at most 22 decimals and an exponent of at most 270, followed by a byte that belongs
to no number: the value differs from the denoted number by at most a factor of `1 ± 2^-50`, and the cursor is left right
behind the literal. -/
theorem C76_read_accuracy {μ : Mapping} {r : Reader} (hr : r.Ok μ)
    (gap : List Byte) (hgap : ∀ b ∈ gap, Spec.isNumChar b = false) (l : Spec.Lit) (hl : l.Ok) (rest : List Byte)
    (htext : Spec.slice μ.bytes r.d r.e = gap ++ (l.text ++ rest)) (next : Byte)
    (hnext : (μ.bytes ++ List.replicate μ.pad 0)[r.d + gap.length + l.text.length]? = some next)
    (hstop : Spec.isNumChar next = false) (hi : Spec.decimal l.int ≤ 2 ^ 53)
    (hf : ∀ f, l.frac = some f → Spec.decimal f ≤ 2 ^ 53 ∧ f.length ≤ 22) (hx : |Spec.expValue l.exp| ≤ 270) :
    ∃ x, readFp μ (doubleOps rnd pow) r = .ok (x, ⟨r.d + gap.length + l.text.length, r.e⟩) ∧
      |x - l.value| ≤ |l.value| / 2 ^ 50 :=
  ⟨_, readFp_at hr gap hgap l hl rest htext next hnext hstop, evalLit_double R P hi hf hx⟩

/-! ## Reading back -/

/-- What `read_fp` makes of the printed text of `±N / 10^6`. -/
theorem readBack_eq (neg : Bool) (N : Nat) : ∃ l : Spec.Lit, l.Ok ∧ l.text = Spec.signed6 neg N ∧ Spec.decimal l.int = N / 10 ^ 6 ∧
    l.int.length ≤ (Spec.signed6 neg N).length ∧ (∀ b ∈ l.int, Spec.isDigit b = true) ∧
    ∃ x, evalLit (doubleOps rnd pow) l = (if neg then -x else x) ∧
      x = rnd (fpDigits (doubleOps rnd pow) l.int + rnd (((N % 10 ^ 6 : Nat) : ℚ) / 10 ^ 6)) := by
  obtain ⟨ip, fp, h1, h2, h3, h4, h5⟩ := signed6_lit neg N
  refine ⟨_, h2, h1.symm, h4, ?_, fun b hb => List.all_eq_true.mp h2.1 b hb, _, ?_, rfl⟩
  · rw [h1]; simp only [Spec.Lit.text, List.length_append]; omega
  · have hf : evalFrac (doubleOps rnd pow) (fpDigits (doubleOps rnd pow) ip) (some fp) =
        rnd (fpDigits (doubleOps rnd pow) ip + rnd (((N % 10 ^ 6 : Nat) : ℚ) / 10 ^ 6)) := by
      show rnd (_ + rnd (fpDigits (doubleOps rnd pow) fp / pow fp.length)) = _
      rw [fpDigits_double R fp (by omega), h3, h5, P.exact 6 (by norm_num)]
    unfold evalLit
    simp only [evalExp]
    rw [hf, neg_double R (R.isDouble _)]
    cases neg <;> rfl

theorem readBack_exact {neg : Bool} {N : Nat} {d : ℚ} (hd : IsDouble d) (hN : (N : ℚ) / 10 ^ 6 = d) (h53 : N / 10 ^ 6 ≤ 2 ^ 53)
    (hfr : IsDouble (((N % 10 ^ 6 : Nat) : ℚ) / 10 ^ 6)) :
    ∃ l : Spec.Lit, l.Ok ∧ l.text = Spec.signed6 neg N ∧ evalLit (doubleOps rnd pow) l = if neg then -d else d := by
  obtain ⟨l, h1, h2, h3, _, _, x, h4, h5⟩ := readBack_eq R P neg N
  refine ⟨l, h1, h2, ?_⟩
  have : x = d := by
    rw [h5, fpDigits_double R _ (by omega), h3, Stb.rnd_exact R hfr]
    have e : ((N / 10 ^ 6 : Nat) : ℚ) + ((N % 10 ^ 6 : Nat) : ℚ) / 10 ^ 6 = d := by
      rw [← hN]
      have : (N : ℚ) = ((10 ^ 6 * (N / 10 ^ 6) + N % 10 ^ 6 : Nat) : ℚ) := by rw [Nat.div_add_mod]
      rw [this]
      push_cast; field_simp; ring
    rw [e, Stb.rnd_exact R hd]
  rw [h4, this]

theorem exact_case (v : Nat) (hcase : (∃ j : Nat, Spec.dblAbs v = (j : ℚ) / 64 ∧ Spec.dblAbs v < 10 ^ 11) ∨ (∃ k : Nat, Spec.dblAbs v = k ∧ k ≤ 2 ^ 53))
    (hfin : Spec.IsFinite v) (num buf : Nat) (t : List Byte) (ht : printDouble rnd num buf v = .ok t) :
    ∃ l : Spec.Lit, l.Ok ∧ l.text = t ∧ evalLit (doubleOps rnd pow) l = Spec.dbl v := by
  rcases hcase with ⟨j, h1, h2⟩ | ⟨k, h1, h2⟩
  · rw [Stb.C75_exact_fractions R num buf v j hfin h1 h2] at ht
    injection ht with ht
    subst ht
    have hj : j < 64 * 10 ^ 11 := by
      rw [h1, div_lt_iff₀ (by norm_num)] at h2
      have : (j : ℚ) < ((64 * 10 ^ 11 : Nat) : ℚ) := by push_cast; linarith
      exact_mod_cast this
    refine readBack_exact R P Stb.dblAbs_isDouble ?_ (by omega) ?_
    · rw [h1]; push_cast; ring
    · have e : (((j * 15625) % 10 ^ 6 : Nat) : ℚ) / 10 ^ 6 = Stb.sc ((j % 64 : Nat) : ℤ) (-6) := by
        rw [show j * 15625 % 10 ^ 6 = (j % 64) * 15625 by omega]
        unfold Stb.sc
        rw [Int.cast_natCast]
        generalize j % 64 = q
        push_cast
        norm_num; ring
      rw [e]
      refine Stb.isDouble_sc ?_ (by norm_num)
      rw [abs_of_nonneg (by omega)]
      have : j % 64 < 64 := Nat.mod_lt _ (by norm_num)
      omega
  · rw [Stb.C75_exact_integers R num buf v k hfin h1 (by omega)] at ht
    injection ht with ht
    subst ht
    refine readBack_exact R P Stb.dblAbs_isDouble ?_ (by omega) ?_
    · rw [h1]; push_cast; norm_num
    · rw [Nat.mul_mod_left]; simpa using Stb.isDouble_zero

/-- **C76, exact round trip.** A double that is a multiple of 1/64 below `10^11`, or an integer up to `2^53`, is read back from
its printed text exactly. -/
theorem C76_round_trip_exact (v : Nat) (hfin : Spec.IsFinite v)
    (hcase : (∃ j : Nat, Spec.dblAbs v = (j : ℚ) / 64 ∧ Spec.dblAbs v < 10 ^ 11) ∨ (∃ k : Nat, Spec.dblAbs v = k ∧ k ≤ 2 ^ 53))
    (num buf : Nat) (t : List Byte) (ht : printDouble rnd num buf v = .ok t)
    {μ : Mapping} {r : Reader} (hr : r.Ok μ) (gap : List Byte) (hgap : ∀ b ∈ gap, Spec.isNumChar b = false) (rest : List Byte)
    (htext : Spec.slice μ.bytes r.d r.e = gap ++ (t ++ rest)) (next : Byte)
    (hnext : (μ.bytes ++ List.replicate μ.pad 0)[r.d + gap.length + t.length]? = some next) (hstop : Spec.isNumChar next = false) :
    readFp μ (doubleOps rnd pow) r = .ok (Spec.dbl v, ⟨r.d + gap.length + t.length, r.e⟩) := by
  obtain ⟨l, h1, rfl, h3⟩ := exact_case R P v hcase hfin num buf t ht
  rw [readFp_at hr gap hgap l h1 rest htext next hnext hstop, h3]

omit P in
/-- The error of reading digits: at most two roundings for each. -/
theorem fpDigits_rel (ds : List Byte) (hl : ds.length ≤ 460) (hd : ∀ b ∈ ds, Spec.isDigit b = true) :
    Rel ((ds.length : ℚ) / 2 ^ 51) (Spec.decimal ds : ℚ) (fpDigits (doubleOps rnd pow) ds) := by
  induction ds using List.reverseRec with
  | nil => simp [Rel, fpDigits, Spec.decimal, doubleOps]
  | append_singleton ds c ih =>
    rw [List.length_append, List.length_singleton] at hl
    have ih := ih (by omega) (fun b hb => hd b (List.mem_append_left _ hb))
    have step : Spec.decimal (ds ++ [c]) = 10 * Spec.decimal ds + digitVal c := by
      simp [Spec.decimal, List.foldl_append, digitVal]
    have : fpDigits (doubleOps rnd pow) (ds ++ [c]) = rnd (rnd (fpDigits (doubleOps rnd pow) ds * 10) + (digitVal c : ℚ)) := by
      unfold fpDigits; rw [List.foldl_append]; rfl
    rw [this, step]
    have hlen : (ds.length : ℚ) ≤ 460 := by
      have : ((ds.length : Nat) : ℚ) ≤ ((460 : Nat) : ℚ) := Nat.cast_le.mpr (by omega)
      exact this
    have hlen0 : (0 : ℚ) ≤ (ds.length : ℚ) := by positivity
    have hε : (ds.length : ℚ) / 2 ^ 51 ≤ 460 / 2 ^ 51 := div_le_div_of_nonneg_right hlen (by positivity)
    have hε0 : (0 : ℚ) ≤ (ds.length : ℚ) / 2 ^ 51 := by positivity
    rw [List.length_append, List.length_singleton, Nat.cast_add, Nat.cast_one, add_div]
    generalize (ds.length : ℚ) / 2 ^ 51 = ε at *
    have hint : ∀ n : Nat, (n : ℚ) = 0 ∨ (2 : ℚ) ^ (-1015 : ℤ) ≤ n := by
      intro n
      rcases Nat.eq_zero_or_pos n with h | h
      · left; rw [h]; rfl
      · right
        have h3 : (1 : ℚ) ≤ n := by exact_mod_cast h
        refine le_trans ?_ h3
        calc (2 : ℚ) ^ (-1015 : ℤ) ≤ (2 : ℚ) ^ (0 : ℤ) := zpow_le_zpow_right₀ (by norm_num) (by norm_num)
          _ = 1 := by norm_num
    have r1 := ih.mul (Rel.refl 10) (by positivity) (by norm_num) hε0
    have e10 : (Spec.decimal ds : ℚ) * 10 = ((10 * Spec.decimal ds : Nat) : ℚ) := by push_cast; ring
    rw [e10] at r1
    have r2 := r1.round R (hint _) (by linarith) (by norm_num; linarith)
    have r3 := r2.add (c := (digitVal c : ℚ)) (by positivity) (by norm_num; nlinarith)
    have r4 := r3.round R (by
      have := hint (digitVal c + 10 * Spec.decimal ds)
      rwa [Nat.cast_add] at this) (by norm_num; nlinarith) (by norm_num at hε ⊢; nlinarith)
    rw [add_comm (digitVal c : ℚ) (((10 * Spec.decimal ds : Nat) : ℚ)), add_comm (digitVal c : ℚ), ← Nat.cast_add] at r4
    refine r4.mono (by positivity) ?_
    norm_num at hε ⊢
    nlinarith

theorem readBack_rel {neg : Bool} {N : Nat} {ε : ℚ} (h0 : 0 ≤ ε) (h1 : ε ≤ 1 / 2 ^ 40)
    (hε : ∀ ds : List Byte, Spec.decimal ds = N / 10 ^ 6 → (∀ b ∈ ds, Spec.isDigit b = true) → ds.length ≤ (Spec.signed6 neg N).length →
      Rel ε (Spec.decimal ds : ℚ) (fpDigits (doubleOps rnd pow) ds)) :
    ∃ l : Spec.Lit, l.Ok ∧ l.text = Spec.signed6 neg N ∧
    ∃ x, IsDouble x ∧ 0 ≤ x ∧ evalLit (doubleOps rnd pow) l = (if neg then -x else x) ∧
      |x - (N : ℚ) / 10 ^ 6| ≤ (ε + 1 / 2 ^ 52 + 1 / 2 ^ 57) * ((N : ℚ) / 10 ^ 6) := by
  obtain ⟨l, g1, g2, g3, g4, g5, x, g6, g7⟩ := readBack_eq R P neg N
  have hN : (N : ℚ) / 10 ^ 6 = ((N / 10 ^ 6 : Nat) : ℚ) + ((N % 10 ^ 6 : Nat) : ℚ) / 10 ^ 6 := by
    have : (N : ℚ) = ((10 ^ 6 * (N / 10 ^ 6) + N % 10 ^ 6 : Nat) : ℚ) := by rw [Nat.div_add_mod]
    conv_lhs => rw [this]
    push_cast; field_simp; ring
  have r0 := hε l.int g3 g5 g4
  rw [g3] at r0
  have hF : ((N % 10 ^ 6 : Nat) : ℚ) / 10 ^ 6 = 0 ∨ (2 : ℚ) ^ (-1015 : ℤ) ≤ ((N % 10 ^ 6 : Nat) : ℚ) / 10 ^ 6 := by
    rcases Nat.eq_zero_or_pos (N % 10 ^ 6) with h | h
    · left; rw [h]; simp
    · right
      have h3 : (1 : ℚ) ≤ ((N % 10 ^ 6 : Nat) : ℚ) := by exact_mod_cast h
      calc (2 : ℚ) ^ (-1015 : ℤ) ≤ (2 : ℚ) ^ (-100 : ℤ) := zpow_le_zpow_right₀ (by norm_num) (by norm_num)
        _ ≤ 1 / 10 ^ 6 := by norm_num
        _ ≤ _ := div_le_div_of_nonneg_right h3 (by positivity)
  have r1 := (Rel.refl (((N % 10 ^ 6 : Nat) : ℚ) / 10 ^ 6)).round R hF le_rfl (by norm_num)
  have hF0 : (0 : ℚ) ≤ ((N % 10 ^ 6 : Nat) : ℚ) / 10 ^ 6 := by positivity
  have hI0 : (0 : ℚ) ≤ ((N / 10 ^ 6 : Nat) : ℚ) := by positivity
  have hS : ((N / 10 ^ 6 : Nat) : ℚ) + ((N % 10 ^ 6 : Nat) : ℚ) / 10 ^ 6 = 0 ∨
      (2 : ℚ) ^ (-1015 : ℤ) ≤ ((N / 10 ^ 6 : Nat) : ℚ) + ((N % 10 ^ 6 : Nat) : ℚ) / 10 ^ 6 := by
    rcases Nat.eq_zero_or_pos (N / 10 ^ 6) with h | h
    · rw [h]; simpa using hF
    · right
      have h3 : (1 : ℚ) ≤ ((N / 10 ^ 6 : Nat) : ℚ) := by exact_mod_cast h
      calc (2 : ℚ) ^ (-1015 : ℤ) ≤ (2 : ℚ) ^ (0 : ℤ) := zpow_le_zpow_right₀ (by norm_num) (by norm_num)
        _ = 1 := by norm_num
        _ ≤ _ := by linarith
  generalize hI : ((N / 10 ^ 6 : Nat) : ℚ) = I at *
  generalize hFr : ((N % 10 ^ 6 : Nat) : ℚ) / 10 ^ 6 = F at *
  generalize fpDigits (doubleOps rnd pow) l.int = a at *
  have r2 : Rel (ε + (1 / 2 ^ 53 + 1 / 2 ^ 60)) (I + F) (a + rnd F) := by
    unfold Rel at *
    have e : a + rnd F - (I + F) = (a - I) + (rnd F - F) := by ring
    rw [e]
    refine (abs_add_le _ _).trans ?_
    norm_num at r1 ⊢
    nlinarith
  have r3 := (r2.round R hS (by norm_num; linarith) (by norm_num at h1 ⊢; linarith)).mono (δ := ε + 1 / 2 ^ 52 + 1 / 2 ^ 57) (by positivity)
    (by norm_num at h1 ⊢; nlinarith)
  rw [← g7] at r3
  have hx0 : 0 ≤ x := by
    unfold Rel at r3
    rw [abs_le] at r3
    have : (ε + 1 / 2 ^ 52 + 1 / 2 ^ 57) * (I + F) ≤ 1 * (I + F) :=
      mul_le_mul_of_nonneg_right (by norm_num at h1 ⊢; linarith) (by positivity)
    linarith [r3.1]
  exact ⟨l, g1, g2, x, by rw [g7]; exact R.isDouble _, hx0, g6, by rw [hN]; exact r3⟩

theorem accuracy_case {ε : ℚ} (h0 : 0 ≤ ε) (h1 : ε ≤ 1 / 2 ^ 40) (v : Nat) (hfin : Spec.IsFinite v) (num buf : Nat) (t : List Byte)
    (ht : printDouble rnd num buf v = .ok t)
    (hε : ∀ (N : Nat) (ds : List Byte), (N : ℚ) / 10 ^ 6 ≤ Spec.dblAbs v + 1 / 10 ^ 6 + 2 * Spec.dblAbs v / 10 ^ 17 → Spec.decimal ds = N / 10 ^ 6 →
      (∀ b ∈ ds, Spec.isDigit b = true) → ds.length ≤ 455 → Rel ε (Spec.decimal ds : ℚ) (fpDigits (doubleOps rnd pow) ds)) :
    ∃ N, t = Spec.signed6 (v.testBit 63) N ∧ |(N : ℚ) / 10 ^ 6 - Spec.dblAbs v| ≤ 1 / 2 / 10 ^ 6 + 1 / 10 ^ 16 + 2 * Spec.dblAbs v / 10 ^ 17 ∧
    ∃ l : Spec.Lit, l.Ok ∧ l.text = t ∧ ∃ x, IsDouble x ∧ 0 ≤ x ∧ evalLit (doubleOps rnd pow) l = (if v.testBit 63 then -x else x) ∧
      |x - (N : ℚ) / 10 ^ 6| ≤ (ε + 1 / 2 ^ 52 + 1 / 2 ^ 57) * ((N : ℚ) / 10 ^ 6) ∧
      |evalLit (doubleOps rnd pow) l - Spec.dbl v| ≤ 1 / 2 / 10 ^ 6 + 1 / 10 ^ 15 + Spec.dblAbs v * (ε + 1 / 2 ^ 52 + 1 / 2 ^ 53) := by
  obtain ⟨N, e1, e2⟩ := Stb.C75_accuracy R num buf v hfin
  rw [ht] at e1
  injection e1 with e1
  have hlen := Stb.C67_length _ num buf v t ht
  have hd0 : 0 ≤ Spec.dblAbs v := by unfold Spec.dblAbs; split <;> positivity
  have e3 := abs_le.mp e2
  have hb : (N : ℚ) / 10 ^ 6 ≤ Spec.dblAbs v + 1 / 10 ^ 6 + 2 * Spec.dblAbs v / 10 ^ 17 := by
    norm_num at e3 ⊢; linarith [e3.2]
  obtain ⟨l, g1, g2, x, g3, g4, g5, g6⟩ := readBack_rel R P (neg := v.testBit 63) (N := N) h0 h1
    (fun ds h1 h2 h3 => hε N ds hb h1 h2 (by rw [← e1] at h3; omega))
  refine ⟨N, e1, e2, l, g1, by rw [g2, e1], x, g3, g4, g5, g6, ?_⟩
  have key : |x - Spec.dblAbs v| ≤ 1 / 2 / 10 ^ 6 + 1 / 10 ^ 15 + Spec.dblAbs v * (ε + 1 / 2 ^ 52 + 1 / 2 ^ 53) := by
    have hN0 : (0 : ℚ) ≤ (N : ℚ) / 10 ^ 6 := by positivity
    generalize (N : ℚ) / 10 ^ 6 = n at *
    generalize Spec.dblAbs v = d at *
    have : |x - d| ≤ |x - n| + |n - d| := abs_sub_le _ _ _
    have h5 : (ε + 1 / 2 ^ 52 + 1 / 2 ^ 57) * n ≤ (ε + 1 / 2 ^ 52 + 1 / 2 ^ 57) * (d + 1 / 10 ^ 6 + 2 * d / 10 ^ 17) :=
      mul_le_mul_of_nonneg_left hb (by positivity)
    norm_num at h5 h1 e2 g6 ⊢
    nlinarith [mul_le_mul_of_nonneg_right h1 hd0]
  rw [g5]
  unfold Spec.dbl
  split
  · rw [show -x - -Spec.dblAbs v = -(x - Spec.dblAbs v) by ring, abs_neg]; exact key
  · exact key

theorem small_digits {v : Nat} (hd : Spec.dblAbs v ≤ 2 ^ 53) (N : Nat) (ds : List Byte)
    (h1 : (N : ℚ) / 10 ^ 6 ≤ Spec.dblAbs v + 1 / 10 ^ 6 + 2 * Spec.dblAbs v / 10 ^ 17) (h2 : Spec.decimal ds = N / 10 ^ 6) :
    Rel 0 (Spec.decimal ds : ℚ) (fpDigits (doubleOps rnd pow) ds) := by
  have h3 : (N : ℚ) < 10 ^ 6 * (2 ^ 53 + 1) := by
    rw [div_le_iff₀ (by norm_num)] at h1
    linarith
  have h4 : N < 10 ^ 6 * (2 ^ 53 + 1) := by exact_mod_cast h3
  rw [fpDigits_double R ds (by omega)]
  exact Rel.refl _

/-- **C76, accuracy.** A double up to `2^53` in absolute value is read back from its printed text up to half a unit of the sixth
decimal and a few units in the last place of the double. -/
theorem C76_round_trip_accuracy (v : Nat) (hfin : Spec.IsFinite v) (hd : Spec.dblAbs v ≤ 2 ^ 53)
    (num buf : Nat) (t : List Byte) (ht : printDouble rnd num buf v = .ok t)
    {μ : Mapping} {r : Reader} (hr : r.Ok μ) (gap : List Byte) (hgap : ∀ b ∈ gap, Spec.isNumChar b = false) (rest : List Byte)
    (htext : Spec.slice μ.bytes r.d r.e = gap ++ (t ++ rest)) (next : Byte)
    (hnext : (μ.bytes ++ List.replicate μ.pad 0)[r.d + gap.length + t.length]? = some next) (hstop : Spec.isNumChar next = false) :
    ∃ x, readFp μ (doubleOps rnd pow) r = .ok (x, ⟨r.d + gap.length + t.length, r.e⟩) ∧
      |x - Spec.dbl v| ≤ 1 / 2 / 10 ^ 6 + 1 / 10 ^ 15 + Spec.dblAbs v / 2 ^ 51 := by
  obtain ⟨N, _, _, l, g1, rfl, _, _, _, _, _, g3⟩ := accuracy_case R P le_rfl (by norm_num) v hfin num buf t ht
    (fun N ds h1 h2 _ _ => small_digits R P hd N ds h1 h2)
  refine ⟨_, readFp_at hr gap hgap l g1 rest htext next hnext hstop, g3.trans ?_⟩
  have hd0 : 0 ≤ Spec.dblAbs v := by unfold Spec.dblAbs; split <;> positivity
  norm_num; linarith

/-- **C76, accuracy of large numbers.** Up to `2^1000`, where the digits themselves are read with rounding: up to half a unit of
the sixth decimal and a factor of `1 ± 2^-42`. -/
theorem C76_round_trip_large (v : Nat) (hfin : Spec.IsFinite v) (hd : Spec.dblAbs v ≤ (2 : ℚ) ^ (1000 : ℤ))
    (num buf : Nat) (t : List Byte) (ht : printDouble rnd num buf v = .ok t)
    {μ : Mapping} {r : Reader} (hr : r.Ok μ) (gap : List Byte) (hgap : ∀ b ∈ gap, Spec.isNumChar b = false) (rest : List Byte)
    (htext : Spec.slice μ.bytes r.d r.e = gap ++ (t ++ rest)) (next : Byte)
    (hnext : (μ.bytes ++ List.replicate μ.pad 0)[r.d + gap.length + t.length]? = some next) (hstop : Spec.isNumChar next = false) :
    ∃ x, readFp μ (doubleOps rnd pow) r = .ok (x, ⟨r.d + gap.length + t.length, r.e⟩) ∧
      |x - Spec.dbl v| ≤ 1 / 2 / 10 ^ 6 + 1 / 10 ^ 15 + Spec.dblAbs v / 2 ^ 42 := by
  clear hd
  obtain ⟨N, _, _, l, g1, rfl, _, _, _, _, _, g3⟩ := accuracy_case R P (ε := 455 / 2 ^ 51) (by norm_num) (by norm_num) v hfin num buf t ht
    (fun N ds h1 h2 h3 h4 => (fpDigits_rel R ds (by omega) h3).mono (by positivity)
      (div_le_div_of_nonneg_right (by exact_mod_cast h4) (by positivity)))
  refine ⟨_, readFp_at hr gap hgap l g1 rest htext next hnext hstop, g3.trans ?_⟩
  have hd0 : 0 ≤ Spec.dblAbs v := by unfold Spec.dblAbs; split <;> positivity
  norm_num; linarith

/-- **C76, stability.** Below `10^9`, printing the value that was read back (as any bit pattern with that value and the sign that
was printed) gives the same text again. -/
theorem C76_print_stable (v : Nat) (hfin : Spec.IsFinite v) (hd : Spec.dblAbs v < 10 ^ 9)
    (num buf : Nat) (t : List Byte) (ht : printDouble rnd num buf v = .ok t)
    {μ : Mapping} {r : Reader} (hr : r.Ok μ) (gap : List Byte) (hgap : ∀ b ∈ gap, Spec.isNumChar b = false) (rest : List Byte)
    (htext : Spec.slice μ.bytes r.d r.e = gap ++ (t ++ rest)) (next : Byte)
    (hnext : (μ.bytes ++ List.replicate μ.pad 0)[r.d + gap.length + t.length]? = some next) (hstop : Spec.isNumChar next = false) :
    ∃ x r', readFp μ (doubleOps rnd pow) r = .ok (x, r') ∧
      ∀ v', Spec.IsFinite v' → v'.testBit 63 = v.testBit 63 → Spec.dbl v' = x → ∀ num' buf', printDouble rnd num' buf' v' = .ok t := by
  obtain ⟨N, g0, g2, l, g1, rfl, x, _, gx0, gx, g3, _⟩ := accuracy_case R P le_rfl (by norm_num) v hfin num buf t ht
    (fun N ds h1 h2 _ _ => small_digits R P (by linarith) N ds h1 h2)
  refine ⟨_, _, readFp_at hr gap hgap l g1 rest htext next hnext hstop, ?_⟩
  intro v' hfin' hs hv' num' buf'
  obtain ⟨N', e1, e2⟩ := Stb.C75_accuracy R num' buf' v' hfin'
  have hvx : Spec.dblAbs v' = x := by
    rw [gx] at hv'
    unfold Spec.dbl at hv'
    rw [hs] at hv'
    split at hv'
    · linarith
    · exact hv'
  rw [e1, g0, hs]
  congr 2
  rw [hvx] at e2
  rw [abs_le] at e2 g2 g3
  have h1 : (N' : ℚ) < N + 1 := by norm_num at *; linarith [e2.2, g3.2, g2.2]
  have h2 : (N : ℚ) < N' + 1 := by norm_num at *; linarith [e2.1, g3.1, g2.2]
  have h1 : N' < N + 1 := by exact_mod_cast h1
  have h2 : N < N' + 1 := by exact_mod_cast h2
  omega

end

/-! ## Files -/

/-- The text of a list of entries, read with a weight format in which the texts of the weights stand for other values. -/
theorem load_text_map {W X : Type} {wk : WKind X} {entry : List Byte → Option (Nat × Nat × X)} {wp : Nat × Nat × X → Prop} {lw ow : Nat}
    (hf : FormatOk lw wk entry wp) (hwgt : wk.wgt = true)
    {txt : W → List Byte} {es : List (Nat × Nat × W)} {f : W → X} (hword : ∀ e ∈ es, Word (txt e.2.2))
    (he : ∀ e ∈ es, entry (unwords (cooWords true txt e)) = some (e.1, e.2.1, f e.2.2)) (hwp : ∀ e ∈ es, wp (e.1, e.2.1, f e.2.2))
    (hlab : ∀ e ∈ es, e.1 < 2 ^ lw ∧ e.2.1 < 2 ^ lw) (hm : es.length < 2 ^ ow) {T pad : Nat} (hT : 0 < T) (hpad : 0 < pad) {out : M (Coo X)}
    (hrun : LoadEdgeList ⟨es.flatMap (fun e => Spec.cooLine true txt e), pad⟩ lw ow {} wk T out) :
    ∃ c, out = .ok c ∧ Holds c true (es.map (fun e => (e.1, e.2.1, f e.2.2))) := by
  obtain ⟨h1, h2⟩ := cooText_entries_map (wgt := true) (g := fun e => (e.1, e.2.1, f e.2.2)) (fun e he _ => hword e he) he
  have h2' : Spec.entries entry (es.flatMap (fun e => Spec.cooLine true txt e)) = es.map (fun e => (e.1, e.2.1, f e.2.2)) := h2
  have hmem : ∀ {Q : Nat × Nat × X → Prop}, (∀ e ∈ es, Q (e.1, e.2.1, f e.2.2)) → ∀ e ∈ es.map (fun e => (e.1, e.2.1, f e.2.2)), Q e := by
    intro Q hQ e he
    obtain ⟨e', he', rfl⟩ := List.mem_map.mp he
    exact hQ e' he'
  have := load_any (μ := ⟨es.flatMap (fun e => Spec.cooLine true txt e), pad⟩) hpad hf h1 (by simp only; rw [h2']; exact hmem hwp)
    (by simp only; rw [h2']; exact hmem hlab) {} hT (.inr (fun en _ => stored_plain_ne en))
    (by simp only; rw [h2', storedAll_plain, List.length_map]; exact hm) hrun
  simp only [h2'] at this
  refine ⟨_, this, ?_⟩
  have hh := cooOf_holds lw {} wk.wgt (es.map (fun e => (e.1, e.2.1, f e.2.2)))
  rw [storedAll_plain] at hh
  rw [hwgt] at *
  exact hh

/-- A COO of doubles (bit patterns, any pieces of text that stand for literals) written and loaded. -/
theorem file_double {ops : FpOps ℚ} {txt : Nat → List Byte} (T T' : Nat) (hT' : 0 < T') (lw ow pad : Nat) (hpad : 0 < pad) (c : Coo Nat)
    (es : List (Nat × Nat × Nat)) (h : Holds c true es) (hne : es ≠ []) (hlab : ∀ e ∈ es, e.1 < 2 ^ lw ∧ e.2.1 < 2 ^ lw) (hm : es.length < 2 ^ ow)
    {Q : Nat → ℚ → Prop} (hw : ∀ e ∈ es, Word (txt e.2.2) ∧ ∃ l : Spec.Lit, l.Ok ∧ l.text = txt e.2.2 ∧ Q e.2.2 (evalLit ops l)) :
    (writeCoo T (wtFloat txt) c).All (fun bs => ∀ out, LoadEdgeList ⟨bs, pad⟩ lw ow {} (wFp ops) T' out → ∃ c' es', out = .ok c' ∧
      Holds c' true es' ∧ List.Forall₂ (fun e e' => e'.1 = e.1 ∧ e'.2.1 = e.2.1 ∧ Q e.2.2 e'.2.2) es es') := by
  refine (C46_coo_write T (wtFloat txt) _ _ (.float txt) c es h (fun _ _ => trivial) hne).mono (fun bs hbs => ?_)
  rw [hbs]
  intro out hrun
  have hp : ∀ e ∈ es, ∃ x, (Spec.parseLit (txt e.2.2)).map (evalLit ops) = some x ∧ Q e.2.2 x := by
    intro e he
    obtain ⟨_, l, l1, l2, l3⟩ := hw e he
    exact ⟨_, by rw [← l2, parseLit_text l1]; rfl, l3⟩
  obtain ⟨c', h1, h2⟩ := load_text_map (wk := wFp ops) (format_fp lw ops) rfl (f := fun w => ((Spec.parseLit (txt w)).map (evalLit ops)).getD 0)
    (fun e he => (hw e he).1) (fun e he => by
      obtain ⟨x, hx, _⟩ := hp e he
      simp only [hx, Option.getD_some]
      exact entryW_words' e x (hw e he).1 hx) (fun _ _ => trivial) hlab hm hT' hpad hrun
  refine ⟨c', _, h1, h2, ?_⟩
  rw [List.forall₂_map_right_iff, List.forall₂_same]
  intro e he
  obtain ⟨x, hx, hq⟩ := hp e he
  exact ⟨rfl, rfl, by simp only [hx, Option.getD_some]; exact hq⟩

include R P

/-- **C76, files.** Writing a COO of doubles up to `2^53` in absolute value with `COO::write` and loading the file as an edge list
keeps edges and order, and every weight up to half a unit of the sixth decimal and a few units in the last place — with any
numbers of threads and all interleavings (`txt v` is what `stbsp_to_chars` prints for `v`). -/
theorem C76_file_accuracy {txt : Nat → List Byte} (T T' : Nat) (hT' : 0 < T') (lw ow pad : Nat) (hpad : 0 < pad) (c : Coo Nat)
    (es : List (Nat × Nat × Nat)) (h : Holds c true es) (hne : es ≠ []) (hlab : ∀ e ∈ es, e.1 < 2 ^ lw ∧ e.2.1 < 2 ^ lw) (hm : es.length < 2 ^ ow)
    (htxt : ∀ e ∈ es, ∃ num buf, printDouble rnd num buf e.2.2 = .ok (txt e.2.2))
    (hw : ∀ e ∈ es, Spec.IsFinite e.2.2 ∧ Spec.dblAbs e.2.2 ≤ 2 ^ 53) :
    (writeCoo T (wtFloat txt) c).All (fun bs => ∀ out, LoadEdgeList ⟨bs, pad⟩ lw ow {} (wFp (doubleOps rnd pow)) T' out → ∃ c' es', out = .ok c' ∧
      Holds c' true es' ∧ List.Forall₂ (fun e e' => e'.1 = e.1 ∧ e'.2.1 = e.2.1 ∧
        |e'.2.2 - Spec.dbl e.2.2| ≤ 1 / 2 / 10 ^ 6 + 1 / 10 ^ 15 + Spec.dblAbs e.2.2 / 2 ^ 51) es es') := by
  refine file_double (ops := doubleOps rnd pow) (Q := fun v x => |x - Spec.dbl v| ≤ 1 / 2 / 10 ^ 6 + 1 / 10 ^ 15 + Spec.dblAbs v / 2 ^ 51) T T' hT' lw ow pad hpad c es h hne hlab hm (fun e he => ?_)
  obtain ⟨num, buf, ht⟩ := htxt e he
  obtain ⟨N, g0, _, l, g1, g2, _, _, _, _, _, g3⟩ := accuracy_case R P le_rfl (by norm_num) e.2.2 (hw e he).1 num buf _ ht
    (fun N ds h1 h2 _ _ => small_digits R P (hw e he).2 N ds h1 h2)
  refine ⟨by rw [g0]; exact signed6_word _ _, l, g1, g2, g3.trans ?_⟩
  have hd0 : 0 ≤ Spec.dblAbs e.2.2 := by unfold Spec.dblAbs; split <;> positivity
  norm_num; linarith

/-- **C76, files, exact.** If all weights are multiples of 1/64 below `10^11` or integers up to `2^53`, the loaded weights are
exactly the written ones. -/
theorem C76_file_exact {txt : Nat → List Byte} (T T' : Nat) (hT' : 0 < T') (lw ow pad : Nat) (hpad : 0 < pad) (c : Coo Nat)
    (es : List (Nat × Nat × Nat)) (h : Holds c true es) (hne : es ≠ []) (hlab : ∀ e ∈ es, e.1 < 2 ^ lw ∧ e.2.1 < 2 ^ lw) (hm : es.length < 2 ^ ow)
    (htxt : ∀ e ∈ es, ∃ num buf, printDouble rnd num buf e.2.2 = .ok (txt e.2.2))
    (hw : ∀ e ∈ es, Spec.IsFinite e.2.2 ∧ ((∃ j : Nat, Spec.dblAbs e.2.2 = (j : ℚ) / 64 ∧ Spec.dblAbs e.2.2 < 10 ^ 11) ∨
      (∃ k : Nat, Spec.dblAbs e.2.2 = k ∧ k ≤ 2 ^ 53))) :
    (writeCoo T (wtFloat txt) c).All (fun bs => ∀ out, LoadEdgeList ⟨bs, pad⟩ lw ow {} (wFp (doubleOps rnd pow)) T' out → ∃ c', out = .ok c' ∧
      Holds c' true (es.map (fun e => (e.1, e.2.1, Spec.dbl e.2.2)))) := by
  refine (file_double (ops := doubleOps rnd pow) (Q := fun v x => x = Spec.dbl v) T T' hT' lw ow pad hpad c es h hne hlab hm (fun e he => ?_)).mono (fun bs hbs out hrun => ?_)
  · obtain ⟨num, buf, ht⟩ := htxt e he
    obtain ⟨l, g1, g2, g3⟩ := exact_case R P e.2.2 (hw e he).2 (hw e he).1 num buf _ ht
    obtain ⟨N, e1, _⟩ := Stb.C75_accuracy R num buf e.2.2 (hw e he).1
    rw [ht] at e1
    injection e1 with e1
    exact ⟨by rw [e1]; exact signed6_word _ _, l, g1, g2, g3⟩
  · obtain ⟨c', es', h1, h2, h3⟩ := hbs out hrun
    refine ⟨c', h1, ?_⟩
    have : es' = es.map (fun e => (e.1, e.2.1, Spec.dbl e.2.2)) := by
      clear h h1 h2 htxt hw hne hlab hm hbs
      induction h3 with
      | nil => rfl
      | cons hab _ ih => rw [List.map_cons, ← ih, ← hab.1, ← hab.2.1, ← hab.2.2]
    rw [← this]; exact h2

omit R P

/-! ## Instances -/

/-- An exact power function with all assumed properties. -/
theorem powOk_exact : PowOk (fun x => (10 : ℚ) ^ x.num) := ⟨fun k _ => by simp, fun x _ => by simp; positivity⟩

/-- The double `-2.5` (sign bit, exponent 1024, fraction 1/4). -/
def dblTwoHalf : Nat := 2 ^ 63 + 1024 * 2 ^ 52 + 2 ^ 50

theorem dblTwoHalf_abs : Spec.dblAbs dblTwoHalf = ((160 : Nat) : ℚ) / 64 := by
  have h1 : dblTwoHalf / 2 ^ 52 % 2048 = 1024 := by decide +kernel
  have h2 : dblTwoHalf % 2 ^ 52 = 2 ^ 50 := by decide +kernel
  unfold Spec.dblAbs
  rw [h1, h2]
  norm_num

theorem dblTwoHalf_text : printDouble Stb.rne 0 0 dblTwoHalf = .ok (str "-2.500000") := by
  rw [Stb.C75_exact_fractions Stb.rne_rounding 0 0 dblTwoHalf 160 (by unfold Spec.IsFinite; decide +kernel) dblTwoHalf_abs
    (by rw [dblTwoHalf_abs]; norm_num), show dblTwoHalf.testBit 63 = true by decide +kernel]
  decide

/-- Reading `-2.500000` back. -/
example : readFp ⟨str " -2.500000\n", 4085⟩ (doubleOps Stb.rne (fun x => (10 : ℚ) ^ x.num)) ⟨0, 11⟩ = .ok (-(5 / 2), ⟨10, 11⟩) := by
  have := C76_round_trip_exact Stb.rne_rounding powOk_exact dblTwoHalf (by unfold Spec.IsFinite; decide +kernel)
    (.inl ⟨160, dblTwoHalf_abs, by rw [dblTwoHalf_abs]; norm_num⟩) 0 0 _ dblTwoHalf_text (μ := ⟨str " -2.500000\n", 4085⟩) (r := ⟨0, 11⟩)
    ⟨by decide, by decide⟩ (str " ") (by decide) (str "\n") (by decide) 10 (by decide) (by decide)
  rw [this]
  have e : Spec.dbl dblTwoHalf = -(5 / 2) := by
    unfold Spec.dbl
    rw [if_pos (by decide +kernel), dblTwoHalf_abs]; norm_num
  rw [e]; rfl

/-- A COO with the weight `-2.5` meets the hypotheses of the file theorems. -/
example : Holds { x := [0, 3], y := [5, 0], w := [dblTwoHalf, dblTwoHalf], n := 6, m := 2, nrows := 4, ncols := 6 } true
      [(0, 5, dblTwoHalf), (3, 0, dblTwoHalf)] ∧
    ∀ e ∈ [(0, 5, dblTwoHalf), (3, 0, dblTwoHalf)], Spec.IsFinite e.2.2 ∧ Spec.dblAbs e.2.2 < 10 ^ 11 ∧ Spec.dblAbs e.2.2 ≤ 2 ^ 53 ∧
      printDouble Stb.rne 0 0 e.2.2 = .ok (str "-2.500000") := by
  refine ⟨⟨rfl, rfl, rfl, fun _ => rfl⟩, ?_⟩
  intro e he
  have : e.2.2 = dblTwoHalf := by
    simp only [List.mem_cons, List.not_mem_nil, or_false] at he
    rcases he with rfl | rfl <;> rfl
  rw [this]
  exact ⟨by unfold Spec.IsFinite; decide +kernel, by rw [dblTwoHalf_abs]; norm_num, by rw [dblTwoHalf_abs]; norm_num, dblTwoHalf_text⟩

end Pigo
