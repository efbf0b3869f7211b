import Verif.Lemmas.StbExpo
import Verif.Lemmas.Fp
import Mathlib.Tactic.FieldSimp
import Mathlib.Algebra.Order.Floor.Semifield

/-!
# Printing floating point numbers (C67)

`v` is the 64 bit pattern of the double, `scale a p` the integer that the floating point arithmetic of
`stbsp__real_to_str` makes of the double with pattern `a` times `10^p`.
-/

namespace Pigo.Stb

/-! ## Lemmas -/

theorem nearest6_eq (bits : Nat) (t : ℤ) : nearest6 bits t = Spec.roundHalfUp ((bits : ℚ) * (10 : ℚ) ^ (t - 12)) := by
  unfold nearest6 Spec.roundHalfUp
  split
  · rename_i h
    rw [show t - 12 = (((t - 12).toNat : Nat) : ℤ) by omega, zpow_natCast]
    simp only [Int.toNat_natCast]
    rw [show ((bits : ℚ) * 10 ^ (t - 12).toNat + 1 / 2) = ((bits * 10 ^ (t - 12).toNat : Nat) : ℚ) + 1 / 2 by push_cast; ring]
    symm
    rw [Nat.floor_eq_iff (by positivity)]
    constructor
    · linarith
    · linarith
  · rename_i h
    obtain ⟨k, hk⟩ : ∃ k : Nat, (12 - t).toNat = k + 1 := ⟨(12 - t).toNat - 1, by omega⟩
    rw [hk, show t - 12 = -((k + 1 : Nat) : ℤ) by omega, zpow_neg, zpow_natCast]
    have e : (10 : Nat) ^ (k + 1) / 2 = 5 * 10 ^ k := by rw [Nat.pow_succ]; omega
    rw [e, ← Nat.floor_div_eq_div (K := ℚ)]
    congr 1
    push_cast
    rw [pow_succ]
    field_simp
    ring

theorem signed6_digits (neg : Bool) (N : Nat) : Spec.signed6 neg N = (if neg then [45] else []) ++ Spec.fixed6 N := by
  unfold Spec.signed6; cases neg <;> rfl

theorem toChars_of {scale : Nat → Int → M Nat} {num buf v : Nat} {ng : Bool} {dp : Int} {ds s : List Byte} {tz : Nat}
    (h1 : realToStr scale v = .ok ⟨ng, dp, ds⟩) (h2 : dp ≠ special) (h3 : layout (num + 64) dp ds = .ok (s, tz))
    (h4 : s.length ≤ 448) : toChars scale num buf v = .ok ((if ng then [45] else []) ++ (s ++ List.replicate tz 48)) := by
  unfold toChars
  rw [h1, ok_bind]
  simp only [h2, if_false]
  rw [h3, ok_bind]
  simp only
  rw [if_neg (Nat.not_lt.mpr h4)]
  simp only [copyQuads_eq, zeroFill_eq, List.append_assoc]

theorem toChars_special {scale : Nat → Int → M Nat} {num buf v : Nat} {ng : Bool} {ds : List Byte}
    (h1 : realToStr scale v = .ok ⟨ng, special, ds⟩) : toChars scale num buf v = .ok ((if ng then [45] else []) ++ ds) := by
  unfold toChars
  rw [h1, ok_bind]
  simp only [if_true, copyQuads_eq]

theorem toChars_eq {scale : Nat → Int → M Nat} {num buf v : Nat} {ex : ℤ} (hfin : Spec.IsFinite v)
    (hz : ¬ (v / 2 ^ 52 % 2048 = 0 ∧ v * 2 % 2 ^ 64 = 0)) (hex : findExpo v = .ok ex)
    (ht1 : -330 ≤ tensEst ex) (ht2 : tensEst ex ≤ 330) {bits : Nat}
    (hs : scale (v % 2 ^ 63) (18 - tensEst ex) = .ok bits) (h1 : 10 ^ 17 ≤ bits) (h2 : bits < 10 ^ 19) :
    toChars scale num buf v = .ok (Spec.signed6 (v.testBit 63) (nearest6 bits (tensEst ex))) := by
  obtain ⟨B, t', hr, hB, ht', hc⟩ := roundStep_eq (t0 := tensEst ex) h1 h2 (by omega) (by omega)
  obtain ⟨ds, z, hk, hds, hne⟩ := kill_digits (bits := B) (by omega)
  have hreal : realToStr scale v = .ok ⟨v.testBit 63, t', ds⟩ := by
    unfold realToStr
    simp only
    rw [if_neg hfin, if_neg hz, hex, ok_bind, hs, ok_bind, hr, ok_bind]
    simp only
    cases hkz : killZeros B with
    | error e => rw [hkz] at hk; cases hk
    | ok b => rw [hkz, ok_bind] at hk; rw [ok_bind, hk, ok_bind]
  have hlay : ∃ s tz, layout (num + 64) t' ds = .ok (s, tz) ∧ s ++ List.replicate tz 48 = Spec.fixed6 (nearest6 bits (tensEst ex)) ∧
      tz ≤ 6 := by
    rcases hc with ⟨hN, ht⟩ | ⟨hN, hB0, ⟨y, hy⟩, hlen⟩
    · rw [hN]; exact layout_zero _ _ _ ht
    · refine layout_eq _ _ _ _ (z + y) hN ?_ (hne hB0) hlen
      rw [hy, digs_mul_pow _ _ hB0, hds, List.append_assoc, ← List.replicate_add]
  obtain ⟨s, tz, hl, hst, htz⟩ := hlay
  have hslen : s.length ≤ 448 := by
    have := congrArg List.length hst
    rw [List.length_append, fixed6_length] at this
    rcases hc with ⟨hN, ht⟩ | ⟨hN, hB0, ⟨y, hy⟩, hlen⟩
    · rw [hN] at this
      have : (Spec.showNat 0).length = 1 := by decide
      omega
    · have e : digs (nearest6 bits (tensEst ex)) = Spec.showNat (nearest6 bits (tensEst ex)) := by rw [digs, if_neg hN]
      rw [e] at hlen
      omega
  rw [toChars_of hreal (by unfold special; omega) hl hslen, hst, signed6_digits]

theorem dblAbs_zero {v : Nat} : Spec.dblAbs v = 0 ↔ (v / 2 ^ 52 % 2048 = 0 ∧ v * 2 % 2 ^ 64 = 0) := by
  unfold Spec.dblAbs
  split
  · rename_i h
    simp only [mul_eq_zero, Nat.cast_eq_zero, h, true_and]
    have : (2 : ℚ) ^ (-1074 : ℤ) ≠ 0 := by positivity
    simp only [this, or_false]
    omega
  · rename_i h
    simp only [h, false_and, iff_false]
    positivity

/-! ## C67 -/

/-- **C67.** For every finite nonzero double: the code asks its floating point part once for the value times a power of
ten `p` that brings it between `10^17` and `4·10^18`; if the answer is `bits` (at least `10^17` and below `10^19`), the
text stored is the sign and the decimal number `bits · 10^(-p)` rounded half up to six decimals. -/
theorem C67_six_decimals (scale : Nat → Int → M Nat) (num buf v : Nat) (hfin : Spec.IsFinite v)
    (h0 : Spec.dblAbs v ≠ 0) : ∃ p : ℤ, (10 : ℚ) ^ 17 ≤ Spec.dblAbs v * (10 : ℚ) ^ p ∧
      Spec.dblAbs v * (10 : ℚ) ^ p < 4 * (10 : ℚ) ^ 18 ∧
      ∀ bits, scale (v % 2 ^ 63) p = .ok bits → 10 ^ 17 ≤ bits → bits < 10 ^ 19 →
        toChars scale num buf v =
          .ok (Spec.signed6 (v.testBit 63) (Spec.roundHalfUp ((bits : ℚ) * (10 : ℚ) ^ (-p) * 10 ^ 6))) := by
  obtain ⟨ex, g1, g2, g3, g4, g5⟩ := power_range hfin h0
  refine ⟨18 - tensEst ex, g4, g5, fun bits hs h1 h2 => ?_⟩
  rw [toChars_eq hfin (fun h => h0 (dblAbs_zero.mpr h)) g1 g2 g3 hs h1 h2, nearest6_eq]
  congr 3
  rw [mul_assoc, ← zpow_natCast, ← zpow_add₀ (by norm_num)]
  congr 2
  push_cast; ring

/-- C67, zero: the text is `0.000000` or `-0.000000`. -/
theorem C67_zero (scale : Nat → Int → M Nat) (num buf v : Nat) (h0 : Spec.dblAbs v = 0) :
    toChars scale num buf v = .ok (Spec.signed6 (v.testBit 63) 0) := by
  obtain ⟨h1, h2⟩ := dblAbs_zero.mp h0
  have hreal : realToStr scale v = .ok ⟨v.testBit 63, 1, str "0"⟩ := by
    unfold realToStr
    simp only
    rw [if_neg (by omega), if_pos ⟨h1, h2⟩]
  have : layout (num + 64) 1 (str "0") = .ok ([48, 46], 6) := by
    unfold layout
    rw [if_neg (by decide), if_pos (by decide), if_neg (by decide), if_neg (by decide)]
    rfl
  rw [toChars_of hreal (by decide) this (by decide), signed6_digits, fixed6_zero]

/-- C67, special values: infinities and NaNs are printed as `Inf` and `NaN`, with their sign. -/
theorem C67_special (scale : Nat → Int → M Nat) (num buf v : Nat) (h : ¬ Spec.IsFinite v) :
    toChars scale num buf v = .ok ((if v.testBit 63 then str "-" else []) ++ (if v % 2 ^ 52 = 0 then str "Inf" else str "NaN")) := by
  have h : v / 2 ^ 52 % 2048 = 2047 := by unfold Spec.IsFinite at h; omega
  have hreal : realToStr scale v = .ok ⟨v.testBit 63, special, if v % 2 ^ 52 ≠ 0 then str "NaN" else str "Inf"⟩ := by
    unfold realToStr
    simp only
    rw [if_pos h]
  rw [toChars_special hreal]
  congr 2
  by_cases hm : v % 2 ^ 52 = 0
  · rw [if_neg (fun h => h hm), if_pos hm]
  · rw [if_pos hm, if_neg hm]

theorem roundHalfUp_near {x : ℚ} (hx : 0 ≤ x) : |(Spec.roundHalfUp x : ℚ) - x| ≤ 1 / 2 := by
  unfold Spec.roundHalfUp
  have h1 := Nat.floor_le (a := x + 1 / 2) (by linarith)
  have h2 := Nat.lt_floor_add_one (x + 1 / 2)
  rw [abs_le]; constructor <;> linarith

/-- C67, accuracy: if the floating point part is off by less than one unit, the number printed differs from the double
by at most half a unit of the sixth decimal and a `10^-17`-th of the value; the text is sign, digits, point, six digits. -/
theorem C67_accuracy (scale : Nat → Int → M Nat) (num buf v : Nat) (hfin : Spec.IsFinite v)
    (hs : ∀ p : ℤ, (10 : ℚ) ^ 17 ≤ Spec.dblAbs v * (10 : ℚ) ^ p → Spec.dblAbs v * (10 : ℚ) ^ p < 4 * (10 : ℚ) ^ 18 →
      ∃ b, scale (v % 2 ^ 63) p = .ok b ∧ |(b : ℚ) - Spec.dblAbs v * (10 : ℚ) ^ p| < 1) :
    ∃ N, toChars scale num buf v = .ok (Spec.signed6 (v.testBit 63) N) ∧
      |(N : ℚ) / 10 ^ 6 - Spec.dblAbs v| ≤ 1 / 2 / 10 ^ 6 + Spec.dblAbs v / 10 ^ 17 := by
  by_cases h0 : Spec.dblAbs v = 0
  · refine ⟨0, C67_zero scale num buf v h0, ?_⟩
    rw [h0]; norm_num
  obtain ⟨p, h1, h2, h3⟩ := C67_six_decimals scale num buf v hfin h0
  obtain ⟨b, hb, hd⟩ := hs p h1 h2
  rw [abs_lt] at hd
  have hb1 : 10 ^ 17 ≤ b := by
    have : ((10 ^ 17 : Nat) : ℚ) < ((b + 1 : Nat) : ℚ) := by push_cast; linarith
    have := Nat.cast_lt.mp this
    omega
  have hb2 : b < 10 ^ 19 := by
    have : (b : ℚ) < ((10 ^ 19 : Nat) : ℚ) := by push_cast; linarith [hd.2, h2, (by norm_num : (4 : ℚ) * 10 ^ 18 + 1 < 10 ^ 19)]
    exact Nat.cast_lt.mp this
  refine ⟨_, h3 b hb hb1 hb2, ?_⟩
  have hn := roundHalfUp_near (x := (b : ℚ) * (10 : ℚ) ^ (-p) * 10 ^ 6) (by positivity)
  generalize hN : (Spec.roundHalfUp ((b : ℚ) * (10 : ℚ) ^ (-p) * 10 ^ 6) : ℚ) = N at hn
  rw [abs_le] at hn ⊢
  have hp : (0 : ℚ) < (10 : ℚ) ^ (-p) := by positivity
  have hpp : (10 : ℚ) ^ p * (10 : ℚ) ^ (-p) = 1 := by rw [← zpow_add₀ (by norm_num)]; simp
  have e1 : Spec.dblAbs v = Spec.dblAbs v * (10 : ℚ) ^ p * (10 : ℚ) ^ (-p) := by rw [mul_assoc, hpp, mul_one]
  have e2 : (10 : ℚ) ^ (-p) ≤ Spec.dblAbs v / 10 ^ 17 := by
    rw [le_div_iff₀ (by positivity)]
    calc _ = (10 : ℚ) ^ 17 * (10 : ℚ) ^ (-p) := by ring
      _ ≤ _ := by rw [e1]; exact mul_le_mul_of_nonneg_right h1 hp.le
  have e3 : ((b : ℚ) - Spec.dblAbs v * (10 : ℚ) ^ p) * (10 : ℚ) ^ (-p) = b * (10 : ℚ) ^ (-p) - Spec.dblAbs v := by
    rw [sub_mul, ← e1]
  have e4 : b * (10 : ℚ) ^ (-p) - Spec.dblAbs v ≤ (10 : ℚ) ^ (-p) := by
    rw [← e3]; nlinarith [hd.2]
  have e5 : -(10 : ℚ) ^ (-p) ≤ b * (10 : ℚ) ^ (-p) - Spec.dblAbs v := by
    rw [← e3]; nlinarith [hd.1]
  have e6 : (N : ℚ) / 10 ^ 6 - b * (10 : ℚ) ^ (-p) = (N - b * (10 : ℚ) ^ (-p) * 10 ^ 6) / 10 ^ 6 := by field_simp
  have e7 : (N : ℚ) / 10 ^ 6 - b * (10 : ℚ) ^ (-p) ≤ 1 / 2 / 10 ^ 6 := by
    rw [e6]; exact div_le_div_of_nonneg_right hn.2 (by positivity)
  have e8 : -(1 / 2 / 10 ^ 6) ≤ (N : ℚ) / 10 ^ 6 - b * (10 : ℚ) ^ (-p) := by
    rw [e6, ← neg_div]; exact div_le_div_of_nonneg_right hn.1 (by positivity)
  constructor <;> linarith

theorem layout_tz {a : Nat} {dp : Int} {ds s : List Byte} {tz : Nat} (h : layout a dp ds = .ok (s, tz)) : tz ≤ 6 := by
  unfold layout at h
  simp only at h
  split at h
  · injection h with h; injection h with _ h; omega
  · split at h
    · split at h
      · cases h
      · injection h with h; injection h with _ h; omega
    · injection h with h; injection h with _ h; omega

/-- C67, length: whatever the floating point part answers, the text has at most 455 characters — the 1024 byte buffer of
`write_size` has room for it and the terminating zero, and the count is never cut to 1023. -/
theorem C67_length (scale : Nat → Int → M Nat) (num buf v : Nat) (t : List Byte) (h : toChars scale num buf v = .ok t) :
    t.length ≤ 455 := by
  unfold toChars at h
  cases hr : realToStr scale v with
  | error e => rw [hr] at h; cases h
  | ok rs =>
    rw [hr, ok_bind] at h
    simp only at h
    have hlead : (if rs.ng then [45] else [] : List Byte).length ≤ 1 := by split <;> simp
    split at h
    · rename_i hsp
      injection h with h
      rw [← h, copyQuads_eq, List.length_append]
      have hds : rs.ds.length ≤ 64 := by
        clear h hsp hlead
        unfold realToStr at hr
        simp only at hr
        split at hr
        · injection hr with hr; rw [← hr]; simp only; split <;> decide
        · split at hr
          · injection hr with hr; rw [← hr]; show (str "0").length ≤ 64; decide
          · cases h1 : findExpo v with
            | error e => rw [h1] at hr; cases hr
            | ok ex =>
              rw [h1, ok_bind] at hr
              cases h2 : scale (v % 2 ^ 63) (18 - tensEst ex) with
              | error e => rw [h2] at hr; cases hr
              | ok bits =>
                rw [h2, ok_bind] at hr
                cases h3 : roundStep bits (if bits ≥ 1000000000000000000 then tensEst ex + 1 else tensEst ex) with
                | error e => rw [h3] at hr; cases hr
                | ok q =>
                  obtain ⟨B, t'⟩ := q
                  rw [h3, ok_bind] at hr
                  simp only at hr
                  cases h4 : killZeros B with
                  | error e => rw [h4] at hr; cases hr
                  | ok B' =>
                    rw [h4, ok_bind] at hr
                    cases h5 : toDigits B' with
                    | error e => rw [h5] at hr; cases hr
                    | ok ds =>
                      rw [h5, ok_bind] at hr
                      injection hr with hr
                      rw [← hr]
                      unfold toDigits at h5
                      cases h6 : digitLoop (B' + 1) B' [] with
                      | error e => rw [h6] at h5; cases h5
                      | ok ds' =>
                        rw [h6, ok_bind] at h5
                        split at h5
                        · cases h5
                        · injection h5 with h5; subst h5; simp only; omega
      omega
    · cases hl : layout (num + 64) rs.dp rs.ds with
      | error e => rw [hl] at h; cases h
      | ok q =>
        obtain ⟨s, tz⟩ := q
        rw [hl, ok_bind] at h
        simp only at h
        have := layout_tz hl
        split at h
        · cases h
        · injection h with h
          rw [← h, copyQuads_eq, zeroFill_eq, List.length_append, List.length_append, List.length_replicate]
          omega

theorem decimal_append (a b : List Byte) : Spec.decimal (a ++ b) = Spec.decimal a * 10 ^ b.length + Spec.decimal b := by
  induction b using List.reverseRec with
  | nil => simp [Spec.decimal]
  | append_singleton b c ih =>
    have step : ∀ x : List Byte, Spec.decimal (x ++ [c]) = 10 * Spec.decimal x + (c.toNat - '0'.toNat) := by
      intro x; simp [Spec.decimal, List.foldl_append]
    rw [← List.append_assoc, step, step, ih]
    simp only [List.length_append, List.length_singleton, pow_succ]
    ring

/-- C67, shape: the text of `N / 10^6` is at least one digit, a point and exactly six digits; read as an integer without
the point the digits are `N`, and there is no superfluous leading zero. -/
theorem C67_shape (N : Nat) : ∃ ip fp, Spec.fixed6 N = ip ++ str "." ++ fp ∧ ip ≠ [] ∧ fp.length = 6 ∧
    (∀ b ∈ ip ++ fp, Spec.isDigit b = true) ∧ Spec.decimal (ip ++ fp) = N ∧ (ip.head? = some 48 → ip.length = 1) := by
  refine ⟨_, _, rfl, ?_, ?_, ?_, ?_, ?_⟩
  · intro h
    have := congrArg List.length h
    simp only [List.length_take, Spec.atLeast7, List.length_append, List.length_replicate, List.length_nil] at this
    omega
  · simp only [List.length_drop, Spec.atLeast7, List.length_append, List.length_replicate]
    omega
  · rw [List.take_append_drop]
    intro b hb
    unfold Spec.atLeast7 at hb
    rcases List.mem_append.mp hb with h | h
    · rw [(List.mem_replicate.mp h).2]; decide
    · rw [isDigit_spec]; exact showNat_digits N b h
  · rw [List.take_append_drop]
    unfold Spec.atLeast7
    rw [decimal_append, decimal_eq, decimal_eq, showNat_value]
    have : ∀ k, decVal (List.replicate k 48) = 0 := by
      intro k
      induction k with
      | zero => rfl
      | succ k ih =>
        rw [List.replicate_succ, ← decimal_eq] at *
        simpa [Spec.decimal] using ih
    rw [this]; simp
  · intro hh
    by_cases hl : (Spec.showNat N).length ≤ 7
    · simp only [List.length_take, Spec.atLeast7, List.length_append, List.length_replicate]; omega
    · exfalso
      have h7 : Spec.atLeast7 N = Spec.showNat N := by
        unfold Spec.atLeast7; rw [show 7 - (Spec.showNat N).length = 0 by omega]; rfl
      have h0 : N ≠ 0 := by
        rintro rfl
        exact hl (by decide)
      obtain ⟨c, t, e, hc⟩ := digs_head h0
      rw [digs, if_neg h0] at e
      rw [h7, e] at hh
      rw [e] at hl
      simp only [List.length_cons] at hh hl
      obtain ⟨j, hj⟩ : ∃ j, t.length + 1 - 6 = j + 1 := ⟨t.length - 6, by omega⟩
      rw [hj, List.take_succ_cons] at hh
      simp only [List.head?_cons, Option.some.injEq] at hh
      exact hc hh

/-- The doubles 0.1, -1234.5678 and 2^100 with the integers the code computes for them. -/
example : Spec.IsFinite 0x3FB999999999999A ∧
    toChars (fun _ _ => .ok 1000000000000000055) 3 5 0x3FB999999999999A = .ok (str "0.100000") := by
  unfold Spec.IsFinite; decide +kernel
example : toChars (fun _ _ => .ok 123456780000000003) 0 0 0xC0934A456D5CFAAD = .ok (str "-1234.567800") := by decide +kernel
example : toChars (fun _ _ => .ok 126765060022822940) 1 2 0x4630000000000000 =
    .ok (str "1267650600228229400000000000000.000000") := by decide +kernel
example : Spec.signed6 true 1234567800 = str "-1234.567800" ∧ Spec.signed6 false 5 = str "0.000005" := by decide

end Pigo.Stb
