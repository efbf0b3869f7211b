import Verif.Lemmas.Ascii
import Verif.Props.Reader
import Verif.Model.Coo

/-!
# Printing integers and reading them back (C02, C03)
-/

namespace Pigo

/-- `t` is the canonical decimal representation of `n`: digits, of value `n`, without a leading zero. -/
structure IsDecimal (n : Nat) (t : List Byte) : Prop where
  digits : ∀ b ∈ t, Spec.isDigit b = true
  ne : t ≠ []
  value : Spec.decimal t = n
  lead : t.head? = some 48 → t = [48]

theorem showNat_lead (n : Nat) : (Spec.showNat n).head? = some 48 → Spec.showNat n = [48] := by
  induction n using Nat.strongRecOn with
  | _ n ih =>
    rw [showNat_rec]
    split
    · intro h; simp only [List.head?_cons, Option.some.injEq] at h; rw [h]
    · rename_i h
      intro hh
      have hh' : (Spec.showNat (n / 10)).head? = some 48 := by
        cases hc : Spec.showNat (n / 10) with
        | nil => exact absurd hc (showNat_ne_nil _)
        | cons b t => rw [hc] at hh; simpa using hh
      have h1 := ih (n / 10) (by omega) hh'
      have h2 := showNat_value (n / 10)
      rw [h1] at h2
      exact absurd (by rw [← h2]; rfl) h

/-- The representation Lean prints is the canonical one. -/
theorem showNat_isDecimal (n : Nat) : IsDecimal n (Spec.showNat n) :=
  ⟨fun b hb => by rw [isDigit_spec]; exact showNat_digits n b hb, showNat_ne_nil n,
    by rw [decimal_eq]; exact showNat_value n, showNat_lead n⟩

/-- **C02** `write_ascii` of an unsigned value writes exactly `write_size(value)` bytes, which are its canonical
decimal representation, advances the position by that amount and changes no other byte. -/
theorem C02_write_unsigned (mem : List Byte) (fp n : Nat) (hfit : fp + writeSizeU n ≤ mem.length) :
    ∃ t, IsDecimal n t ∧ t = Spec.showNat n ∧ t.length = writeSizeU n ∧
      (writeAsciiU fp n).2 = fp + writeSizeU n ∧
      runActs storeAct (writeAsciiU fp n).1 mem = .ok (mem.take fp ++ t ++ mem.drop (fp + writeSizeU n)) := by
  obtain ⟨h1, h2⟩ := writeAsciiU_acts fp n
  rw [writeSizeU_eq] at hfit ⊢
  refine ⟨_, showNat_isDecimal n, rfl, rfl, h2, ?_⟩
  rw [h1]
  exact run_block (List.reverse_perm _) mem hfit

/-- **C02**, signed values of `w` bits other than the smallest one: a minus sign in front of negative values. -/
theorem C02_write_signed (mem : List Byte) (w fp : Nat) (z : Int) (hz : z.natAbs < 2 ^ (w - 1))
    (hfit : fp + writeSizeS z ≤ mem.length) :
    ∃ acts t, writeAsciiS w fp z = .ok (acts, fp + writeSizeS z) ∧ IsDecimal z.natAbs t ∧
      ((if z < 0 then str "-" else []) ++ t).length = writeSizeS z ∧
      runActs storeAct acts mem =
        .ok (mem.take fp ++ ((if z < 0 then str "-" else []) ++ t) ++ mem.drop (fp + writeSizeS z)) := by
  obtain ⟨acts, h1, h2⟩ := writeAsciiS_acts w fp z hz
  have he : (if z < 0 then str "-" else []) ++ Spec.showNat z.natAbs = Spec.showInt z := by
    unfold Spec.showInt; split <;> simp
  rw [writeSizeS_eq] at hfit ⊢
  refine ⟨acts, Spec.showNat z.natAbs, h1, showNat_isDecimal _, by rw [he], ?_⟩
  rw [he]
  exact run_block h2 mem hfit

/-- **C02 fails** for the smallest value of a signed type: negating it overflows. -/
theorem C02_smallest_violated (w fp : Nat) : writeAsciiS w fp (-(2 ^ (w - 1) : Int)) = .error .overflow := by
  have h1 : (-(2 ^ (w - 1) : Int)) < 0 := by
    have := Nat.two_pow_pos (w - 1)
    have h : (0 : Int) < 2 ^ (w - 1) := by exact_mod_cast this
    omega
  have h2 : (-(2 ^ (w - 1) : Int)).natAbs = 2 ^ (w - 1) := by
    rw [Int.natAbs_neg, Int.natAbs_pow]; rfl
  unfold writeAsciiS getPositive
  simp only [h1, if_true, h2, Nat.lt_irrefl, if_false, error_bind]

example := C02_write_signed (str "ab______z") 8 2 (-45) (by decide) (by decide)

example : writeSizeU 1203 = 4 ∧ writeSizeS (-45) = 3 ∧ 2 + writeSizeU 1203 ≤ (str "ab______z").length ∧
    runActs storeAct (writeAsciiU 2 1203).1 (str "ab______z") = .ok (str "ab1203__z") := by decide

/-- Reads the text `t` at position `a` followed by something that is not a digit. -/
theorem readInt_digits {μ : Mapping} {a e : Nat} {t : List Byte} (he : e ≤ μ.bytes.length)
    (ht : ∀ b ∈ t, isDigit b = true) (hsl : Spec.slice μ.bytes a (a + t.length) = t) (hae : a + t.length ≤ e)
    (hstop : a + t.length < e → ¬ Spec.ByteAt μ.bytes (fun b => Spec.isDigit b = true) (a + t.length)) :
    ∃ s, View μ e (t ++ s) ∧ (⟨a, e⟩ : Reader) = rd e (t ++ s) ∧ rd e s = ⟨a + t.length, e⟩ ∧
      (t ++ s).takeWhile isDigit = t ∧ (t ++ s).dropWhile isDigit = s := by
  have hok : (Reader.mk a e).Ok μ := ⟨by simp only; omega, he⟩
  obtain ⟨v, hrd⟩ := reader_view hok
  have hsp := slice_split (buf := μ.bytes) (Nat.le_add_right a t.length) hae he
  rw [hsl] at hsp
  simp only at v hrd
  rw [hsp] at v hrd
  have hs : ∀ b s', Spec.slice μ.bytes (a + t.length) e = b :: s' → isDigit b = false := by
    intro b s' h
    have h0 : (Spec.slice μ.bytes (a + t.length) e)[0]? = some b := by rw [h]; rfl
    have hlt : a + t.length < e := by
      have := rdr_slice_length (buf := μ.bytes) (a := a + t.length) he
      rw [h, List.length_cons] at this; omega
    rw [slice_get (by omega), Nat.add_zero] at h0
    cases hd : isDigit b with
    | false => rfl
    | true => exact absurd ⟨b, h0, (isDigit_spec b).trans hd⟩ (hstop hlt)
  refine ⟨_, v, hrd, ?_, ?_, ?_⟩
  · unfold rd; rw [rdr_slice_length he]
    simp only [Reader.mk.injEq, and_true]; omega
  · rw [List.takeWhile_append_of_pos ht]
    cases h : Spec.slice μ.bytes (a + t.length) e with
    | nil => simp
    | cons b s' => rw [List.takeWhile_cons, hs b s' h]; simp
  · rw [List.dropWhile_append_of_pos ht]
    cases h : Spec.slice μ.bytes (a + t.length) e with
    | nil => simp
    | cons b s' => rw [List.dropWhile_cons, hs b s' h]; simp

/-- **C03** Reading the bytes written for an unsigned value, followed by a non-digit or the end, returns the value
(if it fits the type) and stops right after it. -/
theorem C03_unsigned (μ : Mapping) (a e w n : Nat) (he : e ≤ μ.bytes.length) (hn : n < 2 ^ w)
    (hsl : Spec.slice μ.bytes a (a + (Spec.showNat n).length) = Spec.showNat n)
    (hae : a + (Spec.showNat n).length ≤ e)
    (hstop : a + (Spec.showNat n).length < e →
      ¬ Spec.ByteAt μ.bytes (fun b => Spec.isDigit b = true) (a + (Spec.showNat n).length)) :
    readInt μ (wrapU w) ⟨a, e⟩ = .ok (n, ⟨a + (Spec.showNat n).length, e⟩) := by
  obtain ⟨s, v, h1, h2, h3, h4⟩ := readInt_digits he (showNat_digits n) hsl hae hstop
  have h5 : toDigitL (Spec.showNat n ++ s) = Spec.showNat n ++ s := by
    unfold toDigitL
    cases hh : Spec.showNat n with
    | nil => exact absurd hh (showNat_ne_nil n)
    | cons b t =>
      have := showNat_digits n b (by rw [hh]; exact List.mem_cons_self ..)
      rw [List.cons_append, List.dropWhile_cons, this]; simp
  rw [h1, readInt_wrapU w v, h5, h3, h4, h2, showNat_value, Nat.mod_eq_of_lt hn]

/-- **C03**, signed weights: `move_to_next_signed_int` from the separator before the number, `read_sign` and
`read_int`, as done when loading signed weights. -/
theorem C03_signed (μ : Mapping) (a e w : Nat) (z : Int) (he : e ≤ μ.bytes.length) (hz : z.natAbs < 2 ^ (w - 1))
    (hsl : Spec.slice μ.bytes a (a + (Spec.showInt z).length) = Spec.showInt z)
    (hae : a + (Spec.showInt z).length ≤ e)
    (hstop : a + (Spec.showInt z).length < e →
      ¬ Spec.ByteAt μ.bytes (fun b => Spec.isDigit b = true) (a + (Spec.showInt z).length)) :
    (do let neg ← readNeg μ ⟨a, e⟩
        let (v, r) ← readInt μ (wrapS w) ⟨a, e⟩
        .ok ((if neg then -(v : Int) else (v : Int)), r) : M (Int × Reader)) =
      .ok (z, ⟨a + (Spec.showInt z).length, e⟩) := by
  unfold Spec.showInt at *
  by_cases hneg : z < 0
  · simp only [hneg, if_true, List.length_append, show (str "-").length = 1 from rfl] at hsl hae hstop ⊢
    have hlen : 0 < (Spec.showNat z.natAbs).length := List.length_pos_iff.mpr (showNat_ne_nil _)
    have hget : ∀ i, i < 1 + (Spec.showNat z.natAbs).length → μ.bytes[a + i]? = (str "-" ++ Spec.showNat z.natAbs)[i]? := by
      intro i hi
      rw [← slice_get (buf := μ.bytes) (a := a) (b := a + (1 + (Spec.showNat z.natAbs).length)) (by omega), hsl]
    have h0 : μ.bytes[a]? = some 45 := (hget 0 (by omega)).trans rfl
    have hsl' : Spec.slice μ.bytes (a + 1) (a + 1 + (Spec.showNat z.natAbs).length) = Spec.showNat z.natAbs := by
      apply List.ext_getElem?
      intro i
      by_cases hi : i < (Spec.showNat z.natAbs).length
      · rw [slice_get (by omega), Nat.add_assoc, hget (1 + i) (by omega)]
        rw [List.getElem?_append_right (by show 1 ≤ _; omega), show (str "-").length = 1 from rfl]
        congr 1; omega
      · rw [List.getElem?_eq_none (by rw [rdr_slice_length (by omega)]; omega), List.getElem?_eq_none (by omega)]
    obtain ⟨s, v, h1, h2, h3, h4⟩ := readInt_digits (a := a + 1) he (showNat_digits z.natAbs) hsl' (by omega)
      (by rw [Nat.add_assoc]; exact hstop)
    have hneg1 : readNeg μ ⟨a, e⟩ = .ok true := by
      unfold readNeg Mapping.get
      simp only [h0]; rfl
    have hok : (Reader.mk a e).Ok μ := ⟨by simp only; omega, he⟩
    obtain ⟨v', hrd⟩ := reader_view hok
    have hs0 : Spec.slice μ.bytes a e = 45 :: (Spec.showNat z.natAbs ++ s) := by
      have hsp := slice_split (buf := μ.bytes) (Nat.le_add_right a 1) (by omega : a + 1 ≤ e) he
      have e1 : Spec.slice μ.bytes a (a + 1) = [45] := by
        apply List.ext_getElem?
        intro i
        by_cases hi : i = 0
        · subst hi; rw [slice_get (by omega)]; simpa using h0
        · rw [List.getElem?_eq_none (by rw [rdr_slice_length (by omega)]; omega), List.getElem?_eq_none (by simp; omega)]
      have e2 : Spec.slice μ.bytes (a + 1) e = Spec.showNat z.natAbs ++ s := by
        have hok1 : (Reader.mk (a + 1) e).Ok μ := ⟨by simp only; omega, he⟩
        have hv2 := reader_view hok1
        have l1 := List.suffix_iff_eq_drop.mp hv2.1.suf
        have l2 := List.suffix_iff_eq_drop.mp v.suf
        have hlen2 : (Spec.slice μ.bytes (a + 1) e).length = (Spec.showNat z.natAbs ++ s).length := by
          have q1 := congrArg Reader.d hv2.2
          have q2 := congrArg Reader.d h1
          simp only [rd] at q1 q2
          have q3 := hv2.1.length_le
          have q4 := v.length_le
          simp only at q3; omega
        simp only at l1
        rw [l1, l2, hlen2]
      rw [hsp, e1, e2]; rfl
    simp only at v' hrd
    rw [hs0] at v' hrd
    have h5 : toDigitL (45 :: (Spec.showNat z.natAbs ++ s)) = Spec.showNat z.natAbs ++ s := by
      unfold toDigitL
      rw [List.dropWhile_cons, if_pos (by decide)]
      cases hh : Spec.showNat z.natAbs with
      | nil => exact absurd hh (showNat_ne_nil _)
      | cons b t =>
        have := showNat_digits z.natAbs b (by rw [hh]; exact List.mem_cons_self ..)
        rw [List.cons_append, List.dropWhile_cons, this]; simp
    rw [hneg1, ok_bind, hrd, readInt_wrapS w v' (by rw [h5, h3, showNat_value]; exact hz), ok_bind, h5, h3, h4,
      showNat_value, h2]
    simp only [if_true]
    congr 2
    · omega
    · rw [Nat.add_assoc]
  · simp only [hneg, if_false] at hsl hae hstop ⊢
    obtain ⟨s, v, h1, h2, h3, h4⟩ := readInt_digits he (showNat_digits z.natAbs) hsl hae hstop
    have hh : ∃ b t, Spec.showNat z.natAbs = b :: t := List.exists_cons_of_ne_nil (showNat_ne_nil _)
    obtain ⟨b, t, hbt⟩ := hh
    have hb := showNat_digits z.natAbs b (by rw [hbt]; exact List.mem_cons_self ..)
    have h5 : toDigitL (Spec.showNat z.natAbs ++ s) = Spec.showNat z.natAbs ++ s := by
      unfold toDigitL
      rw [hbt, List.cons_append, List.dropWhile_cons, hb]; simp
    have hneg1 : readNeg μ ⟨a, e⟩ = .ok false := by
      unfold readNeg
      have hv := v
      rw [hbt, List.cons_append] at hv
      rw [h1, hbt, List.cons_append, hv.get_d, ok_bind]
      congr 1
      rw [beq_eq_false_iff_ne]
      rintro rfl
      revert hb; decide
    rw [hneg1, ok_bind, h1, readInt_wrapS w v (by rw [h5, h3, showNat_value]; exact hz), ok_bind, h5, h3, h4,
      showNat_value, h2]
    simp only [Bool.false_eq_true, if_false]
    congr 2
    omega

example : readInt ⟨str "7 0120\n", 0⟩ (wrapU 8) ⟨3, 7⟩ = .ok (120, ⟨6, 7⟩) :=
  C03_unsigned ⟨str "7 0120\n", 0⟩ 3 7 8 120 (by decide) (by decide) (by decide +kernel) (by decide +kernel)
    (fun _ ⟨b, hb, hd⟩ => by
      have : b = 10 := by
        have h2 : (str "7 0120\n")[3 + (Spec.showNat 120).length]? = some 10 := by decide +kernel
        exact Option.some.inj (hb.symm.trans h2)
      subst this
      exact absurd hd (by decide))

example : Spec.slice (str "7 -120\n") 2 (2 + (Spec.showInt (-120)).length) = Spec.showInt (-120) ∧
    2 + (Spec.showInt (-120)).length ≤ 7 ∧
    (do let neg ← readNeg ⟨str "7 -120\n", 0⟩ ⟨2, 7⟩
        let (v, r) ← readInt ⟨str "7 -120\n", 0⟩ (wrapS 8) ⟨2, 7⟩
        .ok ((if neg then -(v : Int) else (v : Int)), r) : M (Int × Reader)) = .ok (-120, ⟨6, 7⟩) := by decide

end Pigo
