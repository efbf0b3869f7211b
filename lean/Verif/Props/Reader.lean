import Verif.Lemmas.Lines
import Verif.Spec.Scan

/-!
# Properties of `FileReader` (C01, C04, C05, C06)

A reader `r` with `r.d ≤ r.e ≤ size of the file`; `r.e` may lie before the end of the file.
-/

namespace Pigo

/-- A reader of the file: cursor and end are positions of the file, in order. -/
structure Reader.Ok (μ : Mapping) (r : Reader) : Prop where
  le : r.d ≤ r.e
  len : r.e ≤ μ.bytes.length

variable {μ : Mapping}

theorem reader_view {r : Reader} (h : r.Ok μ) :
    View μ r.e (Spec.slice μ.bytes r.d r.e) ∧ r = rd r.e (Spec.slice μ.bytes r.d r.e) := by
  refine ⟨⟨List.drop_suffix _ _, h.len⟩, ?_⟩
  have h1 := h.le
  have h2 := h.len
  unfold rd Spec.slice
  rw [List.length_drop, List.length_take, Nat.min_eq_left h2]
  cases r
  simp only [Reader.mk.injEq, and_true] at *
  omega

theorem slice_get {buf : List Byte} {a b i : Nat} (h : a + i < b) : (Spec.slice buf a b)[i]? = buf[a + i]? := by
  unfold Spec.slice
  rw [List.getElem?_drop, List.getElem?_take_of_lt h]

theorem rdr_slice_length {buf : List Byte} {a b : Nat} (h : b ≤ buf.length) : (Spec.slice buf a b).length = b - a := by
  unfold Spec.slice
  rw [List.length_drop, List.length_take, Nat.min_eq_left h]

/-- Dropping while `P` goes to the first position without `P`. -/
theorem dropWhile_isFirst (P : Byte → Bool) (s : List Byte) :
    Spec.IsFirst (Spec.ByteAt s (fun b => P b = false)) 0 s.length (s.length - (s.dropWhile P).length) := by
  induction s with
  | nil => exact ⟨Nat.le_refl _, Nat.le_refl _, by intro i _ h; simp at h, by intro h; simp at h⟩
  | cons c s ih =>
    rw [List.dropWhile_cons]
    have hl : (s.dropWhile P).length ≤ s.length := (List.dropWhile_suffix P).length_le
    split
    · rename_i hc
      refine ⟨Nat.zero_le _, Nat.sub_le _ _, ?_, ?_⟩
      · rintro i - hi ⟨b, hb, hPb⟩
        cases i with
        | zero =>
          simp only [List.getElem?_cons_zero] at hb; injection hb with hb; subst hb; simp [hc] at hPb
        | succ i =>
          refine ih.before i (Nat.zero_le _) ?_ ⟨b, by simpa using hb, hPb⟩
          simp only [List.length_cons] at hi; omega
      · intro h
        simp only [List.length_cons] at h ⊢
        obtain ⟨b, hb, hPb⟩ := ih.at_ (by omega)
        refine ⟨b, ?_, hPb⟩
        rw [Nat.succ_sub hl, List.getElem?_cons_succ, hb]
    · rename_i hc
      refine ⟨Nat.zero_le _, Nat.sub_le _ _, ?_, ?_⟩
      · intro i _ hi; simp at hi
      · intro _
        refine ⟨c, by simp, by simpa using hc⟩

/-- A first position in a slice, as a position of the buffer. -/
theorem isFirst_slice {buf : List Byte} {a b k : Nat} {P : Byte → Prop} (hab : a ≤ b) (hb : b ≤ buf.length)
    (h : Spec.IsFirst (Spec.ByteAt (Spec.slice buf a b) P) 0 (Spec.slice buf a b).length k) :
    Spec.IsFirst (Spec.ByteAt buf P) a b (a + k) := by
  have hlen := rdr_slice_length (buf := buf) (a := a) hb
  have hk := h.le
  refine ⟨Nat.le_add_right _ _, by omega, ?_, ?_⟩
  · rintro i h1 h2 ⟨c, hc, hP⟩
    refine h.before (i - a) (Nat.zero_le _) (by omega) ⟨c, ?_, hP⟩
    rw [slice_get (by omega)]
    rw [show a + (i - a) = i by omega]; exact hc
  · intro h1
    obtain ⟨c, hc, hP⟩ := h.at_ (by omega)
    refine ⟨c, ?_, hP⟩
    rw [slice_get (by omega)] at hc; exact hc

theorem rd_position {e : Nat} {s t : List Byte} (hs : t <:+ s) (he : s.length ≤ e) :
    (rd e t).d = (e - s.length) + (s.length - t.length) := by
  have := hs.length_le
  unfold rd; simp only; omega

theorem IsFirst.congr {P Q : Nat → Prop} {a b k : Nat} (h : Spec.IsFirst P a b k) (hpq : ∀ i, P i ↔ Q i) :
    Spec.IsFirst Q a b k :=
  ⟨h.ge, h.le, fun i h1 h2 h3 => h.before i h1 h2 ((hpq i).mpr h3), fun h1 => (hpq k).mp (h.at_ h1)⟩

/-- A suffix of what is left of a reader, as a position. -/
theorem suffix_position {r : Reader} (hr : r.Ok μ) {t : List Byte} (h : t <:+ Spec.slice μ.bytes r.d r.e) :
    ∃ k, rd r.e t = ⟨k, r.e⟩ ∧ r.d ≤ k ∧ k ≤ r.e ∧ t = Spec.slice μ.bytes k r.e ∧
      k = r.d + ((Spec.slice μ.bytes r.d r.e).length - t.length) := by
  have hlen := rdr_slice_length (a := r.d) hr.len
  have hle := h.length_le
  have h1 := hr.le
  refine ⟨r.e - t.length, rfl, by omega, by omega, ?_, by omega⟩
  conv => lhs; rw [List.suffix_iff_eq_drop.mp h]
  unfold Spec.slice at hle hlen ⊢
  rw [List.drop_drop, hlen]
  congr 1; omega

/-- `while (d < end && P(*d)) ++d;` in terms of positions. -/
theorem scan_position {r : Reader} (hr : r.Ok μ) (P : Byte → Bool) :
    ∃ k, scan μ P r = .ok ⟨k, r.e⟩ ∧ Spec.IsFirst (Spec.ByteAt μ.bytes (fun b => P b = false)) r.d r.e k ∧
      (Spec.slice μ.bytes r.d r.e).dropWhile P = Spec.slice μ.bytes k r.e := by
  obtain ⟨v, hrd⟩ := reader_view hr
  obtain ⟨k, h1, h2, h3, h4, h5⟩ := suffix_position hr (List.dropWhile_suffix (l := Spec.slice μ.bytes r.d r.e) P)
  refine ⟨k, ?_, ?_, h4⟩
  · conv => lhs; rw [hrd]
    rw [scan_eq P v, h1]
  · rw [h5]
    exact isFirst_slice hr.le hr.len (dropWhile_isFirst P _)

theorem slice_split {buf : List Byte} {a b e : Nat} (h1 : a ≤ b) (h2 : b ≤ e) (h3 : e ≤ buf.length) :
    Spec.slice buf a e = Spec.slice buf a b ++ Spec.slice buf b e := by
  unfold Spec.slice
  have e1 : buf.take e = buf.take b ++ (buf.take e).drop b := by
    conv => lhs; rw [← List.take_append_drop b (buf.take e)]
    rw [List.take_take, Nat.min_eq_left h2]
  conv => lhs; rw [e1]
  rw [List.drop_append_of_le_length]
  rw [List.length_take, Nat.min_eq_left (Nat.le_trans h2 h3)]
  exact h1

theorem takeWhile_slice {buf : List Byte} {a b e : Nat} {P : Byte → Bool} (h1 : a ≤ b) (h2 : b ≤ e) (h3 : e ≤ buf.length)
    (h : (Spec.slice buf a e).dropWhile P = Spec.slice buf b e) :
    (Spec.slice buf a e).takeWhile P = Spec.slice buf a b := by
  have h9 := List.takeWhile_append_dropWhile (p := P) (l := Spec.slice buf a e)
  rw [h] at h9
  have h10 := h9.trans (slice_split h1 h2 h3)
  exact List.append_cancel_right h10

/-! ### C01 -/

/-- **C01** `read_int<T>` for an unsigned `T` of `w` bits: with `a` the first digit at or after the cursor and `b`
the first non-digit after it, the result is the decimal value of the bytes in `[a, b)` modulo `2^w` and the cursor
stops at `b`; without a digit `a = b` is the end and the value is 0. -/
theorem C01_read_int (μ : Mapping) (r : Reader) (hr : r.Ok μ) (w : Nat) :
    ∃ a b, Spec.IsFirst (Spec.ByteAt μ.bytes (fun c => Spec.isDigit c = true)) r.d r.e a ∧
      Spec.IsFirst (Spec.ByteAt μ.bytes (fun c => Spec.isDigit c = false)) a r.e b ∧
      readInt μ (wrapU w) r = .ok (Spec.decimal (Spec.slice μ.bytes a b) % 2 ^ w, ⟨b, r.e⟩) := by
  obtain ⟨a, h1, h2, h3⟩ := scan_position hr (fun b => !isDigit b)
  have hra : (Reader.mk a r.e).Ok μ := ⟨h2.le, hr.len⟩
  obtain ⟨b, h4, h5, h6⟩ := scan_position hra isDigit
  obtain ⟨v, hrd⟩ := reader_view hr
  refine ⟨a, b, IsFirst.congr h2 (fun i => ?_), IsFirst.congr h5 (fun i => ?_), ?_⟩
  · constructor <;> rintro ⟨c, hc, hd⟩ <;> refine ⟨c, hc, ?_⟩ <;> simpa [isDigit_spec] using hd
  · constructor <;> rintro ⟨c, hc, hd⟩ <;> refine ⟨c, hc, ?_⟩ <;> simpa [isDigit_spec] using hd
  · conv => lhs; rw [hrd]
    rw [readInt_wrapU w v, decimal_eq]
    unfold toDigitL
    rw [h3, h6]
    have hlen : (Spec.slice μ.bytes b r.e).length = r.e - b := rdr_slice_length hr.len
    have h7 : rd r.e (Spec.slice μ.bytes b r.e) = ⟨b, r.e⟩ := by
      have hbe : b ≤ r.e := h5.le
      unfold rd; rw [hlen]
      simp only [Reader.mk.injEq, and_true]; omega
    have h8 := takeWhile_slice h5.ge h5.le hr.len h6
    simp only at h8
    rw [h7, h8]

/-- **C01** (memory) `read_int` looks at no byte outside `[d, end)`: on the file cut off at `end`, with nothing
mapped behind it, it does the same. -/
theorem C01_no_outside (μ : Mapping) (r : Reader) (hr : r.Ok μ) (wrap : Nat → M Nat) :
    readInt μ wrap r = readInt ⟨μ.bytes.take r.e, 0⟩ wrap r := by
  have hr' : r.Ok ⟨μ.bytes.take r.e, 0⟩ := ⟨hr.le, by simp only [List.length_take]; have := hr.len; omega⟩
  obtain ⟨v, hrd⟩ := reader_view hr
  obtain ⟨v', hrd'⟩ := reader_view hr'
  have : Spec.slice (μ.bytes.take r.e) r.d r.e = Spec.slice μ.bytes r.d r.e := by
    unfold Spec.slice; rw [List.take_take, Nat.min_self]
  simp only [this] at v' hrd'
  calc readInt μ wrap r = readInt μ wrap (rd r.e (Spec.slice μ.bytes r.d r.e)) := by rw [← hrd]
    _ = readInt ⟨μ.bytes.take r.e, 0⟩ wrap (rd r.e (Spec.slice μ.bytes r.d r.e)) := by
        rw [readInt_eq wrap v, readInt_eq wrap v']
    _ = _ := by rw [← hrd]

/-- `"ab 1234,"` read as an 8 bit number: 1234 mod 256. -/
example : (Reader.mk 0 8).Ok ⟨str "ab 1234,", 0⟩ ∧
    readInt ⟨str "ab 1234,", 0⟩ (wrapU 8) ⟨0, 8⟩ = .ok (210, ⟨7, 8⟩) := ⟨⟨by decide, by decide⟩, by decide⟩

/-! ### C04 -/

/-- The guarded movements of a `FileReader`. -/
inductive Move
  | skipComments | moveToEol | moveToNonInt | moveToFirstInt | moveToNextInt | moveToFp | moveToNonFp
  | moveTo (c : Byte) | plus (n : Nat) | readInt (w : Nat)

/-- The movement in the model. -/
def Move.run (μ : Mapping) : Move → Reader → M Reader
  | .skipComments, r => Pigo.skipComments μ r
  | .moveToEol, r => Pigo.moveToEol μ r
  | .moveToNonInt, r => Pigo.moveToNonInt μ r
  | .moveToFirstInt, r => Pigo.moveToFirstInt μ r
  | .moveToNextInt, r => Pigo.moveToNextInt μ r
  | .moveToFp, r => Pigo.moveToFp μ r
  | .moveToNonFp, r => Pigo.moveToNonFp μ r
  | .moveTo c, r => Pigo.moveTo μ c r
  | .plus n, r => .ok (r.plus n)
  | .readInt w, r => do let (_, r) ← Pigo.readInt μ (wrapU w) r; .ok r

/-- What is left after `move_to(c)`: the next occurrence of `c` behind the first byte. -/
theorem moveTo_eq {e : Nat} {s : List Byte} (v : View μ e s) (c : Byte) :
    moveTo μ c (rd e s) = .ok (rd e (s.tail.dropWhile (fun b => b != c))) := by
  unfold moveTo
  cases s with
  | nil =>
    rw [if_neg (by simp [rd]), ok_bind]
    exact scan_eq _ v
  | cons b s =>
    rw [if_pos v.lt, v.get_d, ok_bind]
    split
    · rw [v.adv, ok_bind]
      exact scan_eq _ v.tail
    · rename_i h
      rw [ok_bind]
      refine (scan_eq _ v).trans ?_
      rw [List.dropWhile_cons, if_pos (by simpa using h)]
      rfl

/-- **C04** Every movement from a cursor in `[begin, end]` succeeds, keeps the end and ends at a cursor that is at
least the start and at most the end.  (The byte at `end` must be loadable: `move_to_first_int` and
`move_to_next_int` look at it.) -/
theorem C04_cursor_stays (μ : Mapping) (r : Reader) (hr : r.Ok μ) (he : r.e < μ.bytes.length + μ.pad) (mv : Move) :
    ∃ r', mv.run μ r = .ok r' ∧ r'.e = r.e ∧ r.d ≤ r'.d ∧ r'.d ≤ r.e := by
  obtain ⟨v, hrd⟩ := reader_view hr
  have key : ∀ t, t <:+ Spec.slice μ.bytes r.d r.e → mv.run μ r = .ok (rd r.e t) →
      ∃ r', mv.run μ r = .ok r' ∧ r'.e = r.e ∧ r.d ≤ r'.d ∧ r'.d ≤ r.e := by
    intro t ht h
    obtain ⟨k, h1, h2, h3, _⟩ := suffix_position hr ht
    exact ⟨_, h, rfl, by rw [h1]; exact h2, by rw [h1]; exact h3⟩
  have hdw : ∀ P : Byte → Bool, (Spec.slice μ.bytes r.d r.e).dropWhile P <:+ Spec.slice μ.bytes r.d r.e :=
    fun P => List.dropWhile_suffix P
  cases mv with
  | skipComments =>
    refine key (skipComL (Spec.slice μ.bytes r.d r.e).length (Spec.slice μ.bytes r.d r.e)) (skipComL_suffix _ _) ?_
    simp only [Move.run]
    conv => lhs; rw [hrd]
    unfold skipComments
    rw [v.sub, skipCommentsN_eq _ _ v (Nat.le_refl _)]
  | moveToEol => refine key _ (hdw (fun b => b != nl)) ?_; conv => lhs; rw [hrd]
                 exact moveToEol_eq v
  | moveToNonInt => refine key _ (hdw isDigit) ?_; conv => lhs; rw [hrd]
                    exact moveToNonInt_eq v
  | moveToFirstInt => refine key _ (toStop_suffix isDigit false _) ?_; conv => lhs; rw [hrd]
                      exact moveToFirstInt_eq v he
  | moveToNextInt => refine key _ ((toStop_suffix isDigit false _).trans (hdw isDigit)) ?_; conv => lhs; rw [hrd]
                     exact moveToNextInt_eq v he
  | moveToFp => refine key _ (hdw (fun b => !isFp b)) ?_; conv => lhs; rw [hrd]
                exact moveToFp_eq v
  | moveToNonFp => refine key _ (hdw isFp) ?_; conv => lhs; rw [hrd]
                   exact moveToNonFp_eq v
  | moveTo c =>
    refine key _ ((List.dropWhile_suffix (fun b => b != c)).trans (List.tail_suffix _)) ?_; conv => lhs; rw [hrd]
    exact moveTo_eq v c
  | plus n =>
    have := hr.le
    refine ⟨_, rfl, rfl, ?_, ?_⟩ <;> simp only [Reader.plus] <;> split <;> omega
  | readInt w =>
    obtain ⟨a, b, h1, h2, h3⟩ := C01_read_int μ r hr w
    refine ⟨⟨b, r.e⟩, ?_, rfl, Nat.le_trans h1.ge h2.ge, h2.le⟩
    simp only [Move.run, h3, ok_bind]

example : (Reader.mk 2 9).Ok ⟨str "% 1\n 22 333", 1⟩ ∧ 9 < (str "% 1\n 22 333").length + 1 :=
  ⟨⟨by decide, by decide⟩, by decide⟩

/-- The unguarded `++d` of `move_to_next_signed_int` (impl/pigo.impl.hpp 417–418) is not in C04: with the cursor at the
end of a sub-reader and a sign behind it the cursor leaves the reader. -/
theorem C04_signed_violated :
    (Reader.mk 1 1).Ok ⟨str "5-", 1⟩ ∧ moveToNextSignedInt ⟨str "5-", 1⟩ ⟨1, 1⟩ = .ok ⟨2, 1⟩ :=
  ⟨⟨by decide, by decide⟩, by decide⟩

/-- C04 for `smaller_end`: the cursor stays and the end becomes the smaller of the end and the other cursor, so the
buffer never grows. -/
theorem C04_smaller_end (r rhs : Reader) : (r.smallerEnd rhs).d = r.d ∧ (r.smallerEnd rhs).e = min r.e rhs.d := by
  unfold Reader.smallerEnd
  split
  · exact ⟨rfl, by simp only; omega⟩
  · exact ⟨rfl, by omega⟩

/-! ### C05 -/

/-- `i` is inside a comment, for a list and a scan that is inside a comment at the start iff `b`. -/
def inCom (b : Bool) (s : List Byte) (i : Nat) : Prop :=
  (b = true ∧ ∀ k, k < i → s[k]? ≠ some nl) ∨
  ∃ j, j ≤ i ∧ (∃ c, s[j]? = some c ∧ isCom c = true) ∧ ∀ k, j ≤ k → k < i → s[k]? ≠ some nl

theorem inCom_cons (b : Bool) (c : Byte) (s : List Byte) (i : Nat) :
    inCom b (c :: s) (i + 1) ↔ inCom ((b || isCom c) && c != nl) s i := by
  unfold inCom
  constructor
  · rintro (⟨hb, h⟩ | ⟨j, hj, ⟨d, hd, hc⟩, h⟩)
    · refine .inl ⟨?_, fun k hk => ?_⟩
      · have := h 0 (by omega)
        simp only [List.getElem?_cons_zero, ne_eq, Option.some.injEq] at this
        simp [hb, this]
      · have := h (k + 1) (by omega)
        simpa using this
    · cases j with
      | zero =>
        simp only [List.getElem?_cons_zero, Option.some.injEq] at hd; subst hd
        refine .inl ⟨?_, fun k hk => ?_⟩
        · have := h 0 (by omega) (by omega)
          simp only [List.getElem?_cons_zero, ne_eq, Option.some.injEq] at this
          simp [hc, this]
        · have := h (k + 1) (by omega) (by omega)
          simpa using this
      | succ j =>
        refine .inr ⟨j, by omega, ⟨d, by simpa using hd, hc⟩, fun k h1 h2 => ?_⟩
        have := h (k + 1) (by omega) (by omega)
        simpa using this
  · rintro (⟨hb, h⟩ | ⟨j, hj, ⟨d, hd, hc⟩, h⟩)
    · simp only [Bool.and_eq_true, Bool.or_eq_true, bne_iff_ne, ne_eq] at hb
      rcases hb with ⟨hb | hb, hn⟩
      · refine .inl ⟨hb, fun k hk => ?_⟩
        cases k with
        | zero => simpa using hn
        | succ k => simpa using h k (by omega)
      · refine .inr ⟨0, by omega, ⟨c, rfl, hb⟩, fun k _ hk => ?_⟩
        cases k with
        | zero => simpa using hn
        | succ k => simpa using h k (by omega)
    · refine .inr ⟨j + 1, by omega, ⟨d, by simpa using hd, hc⟩, fun k h1 h2 => ?_⟩
      cases k with
      | zero => omega
      | succ k => simpa using h k (by omega) (by omega)

theorem inCom_zero (b : Bool) (c : Byte) (s : List Byte) : inCom b (c :: s) 0 ↔ b = true ∨ isCom c = true := by
  unfold inCom
  constructor
  · rintro (⟨h, _⟩ | ⟨j, hj, ⟨d, hd, hc⟩, _⟩)
    · exact .inl h
    · have : j = 0 := by omega
      subst this
      simp only [List.getElem?_cons_zero, Option.some.injEq] at hd; subst hd
      exact .inr hc
  · rintro (h | h)
    · exact .inl ⟨h, by intro k hk; omega⟩
    · exact .inr ⟨0, Nat.le_refl _, ⟨c, rfl, h⟩, by intro k _ hk; omega⟩

theorem toStop_isFirst : ∀ (b : Bool) (s : List Byte),
    Spec.IsFirst (fun i => (∃ c, s[i]? = some c ∧ isDigit c = true) ∧ ¬ inCom b s i) 0 s.length
      (s.length - (toStop isDigit b s).length) := by
  intro b s
  induction s generalizing b with
  | nil => 
    refine ⟨Nat.le_refl _, Nat.sub_le _ _, ?_, ?_⟩ <;> cases b <;> simp [toStop]
  | cons c s ih =>
    have step : ∀ b', b' = ((b || isCom c) && c != nl) → toStop isDigit b (c :: s) = toStop isDigit b' s →
        ¬ (isDigit c = true ∧ ¬ inCom b (c :: s) 0) →
        Spec.IsFirst (fun i => (∃ d, (c :: s)[i]? = some d ∧ isDigit d = true) ∧ ¬ inCom b (c :: s) i) 0
          (c :: s).length ((c :: s).length - (toStop isDigit b (c :: s)).length) := by
      intro b' hb' he h0
      have hl : (toStop isDigit b' s).length ≤ s.length := (toStop_suffix _ _ _).length_le
      rw [he]
      have hk : (c :: s).length - (toStop isDigit b' s).length = (s.length - (toStop isDigit b' s).length) + 1 := by
        simp only [List.length_cons]; omega
      rw [hk]
      refine ⟨Nat.zero_le _, by simp only [List.length_cons]; omega, ?_, ?_⟩
      · rintro i - hi ⟨⟨d, hd, hdd⟩, hn⟩
        cases i with
        | zero =>
          simp only [List.getElem?_cons_zero, Option.some.injEq] at hd; subst hd
          exact h0 ⟨hdd, hn⟩
        | succ i =>
          rw [inCom_cons, ← hb'] at hn
          exact (ih b').before i (Nat.zero_le _) (by omega) ⟨⟨d, by simpa using hd, hdd⟩, hn⟩
      · intro h
        simp only [List.length_cons] at h
        obtain ⟨⟨d, hd, hdd⟩, hn⟩ := (ih b').at_ (by omega)
        refine ⟨⟨d, by simpa using hd, hdd⟩, ?_⟩
        rw [inCom_cons, ← hb']; exact hn
    cases b with
    | true =>
      by_cases hc : c = nl
      · refine step false (by simp [hc]) (by rw [toStop]; simp [hc]) ?_
        rw [inCom_zero]; simp
      · refine step true (by simp [hc]) (by rw [toStop]; simp [hc]) ?_
        rw [inCom_zero]; simp
    | false =>
      by_cases hcom : isCom c = true
      · have hnl : c ≠ nl := by rintro rfl; simp [isCom_nl] at hcom
        refine step true (by simp [hcom, hnl]) (by rw [toStop]; simp [hcom]) ?_
        rw [inCom_zero]; simp [hcom]
      · by_cases hd : isDigit c = true
        · have he : toStop isDigit false (c :: s) = c :: s := by rw [toStop]; simp [hcom, hd]
          rw [he, Nat.sub_self]
          refine ⟨Nat.le_refl _, Nat.zero_le _, by intro i _ hi; omega, fun _ => ⟨⟨c, rfl, hd⟩, ?_⟩⟩
          rw [inCom_zero]; simp [hcom]
        · refine step false (by simp [hcom]) (by rw [toStop]; simp [hcom, hd]) ?_
          simp [hd]

theorem inComment_iff {buf : List Byte} {a b i : Nat} (h : a + i < b) :
    Spec.InComment buf a (a + i) ↔ inCom false (Spec.slice buf a b) i := by
  have hnl : ∀ k, k < i → (¬ Spec.ByteAt buf (fun c => c.toNat = '\n'.toNat) (a + k) ↔ (Spec.slice buf a b)[k]? ≠ some nl) := by
    intro k hk
    rw [slice_get (by omega)]
    unfold Spec.ByteAt
    constructor
    · intro h h'; exact h ⟨nl, h', rfl⟩
    · rintro h ⟨c, hc, h'⟩
      apply h; rw [hc]
      congr 1
      exact UInt8.toNat_inj.mp h'
  unfold Spec.InComment inCom
  constructor
  · rintro ⟨j, h1, h2, ⟨c, hc, hcom⟩, h3⟩
    refine .inr ⟨j - a, by omega, ⟨c, ?_, by rw [← isCom_spec]; exact hcom⟩, fun k hk1 hk2 => ?_⟩
    · rw [slice_get (by omega), show a + (j - a) = j by omega]; exact hc
    · exact (hnl k hk2).mp (h3 (a + k) (by omega) (by omega))
  · rintro (⟨h1, _⟩ | ⟨j, h1, ⟨c, hc, hcom⟩, h3⟩)
    · simp at h1
    · refine ⟨a + j, by omega, by omega, ⟨c, ?_, (isCom_spec c).trans hcom⟩, fun k hk1 hk2 => ?_⟩
      · rw [slice_get (by omega)] at hc; exact hc
      · have := (hnl (k - a) (by omega)).mpr (h3 (k - a) (by omega) (by omega))
        rwa [show a + (k - a) = k by omega] at this

/-- **C05** `move_to_first_int` stops on the first digit that is outside of comments, or at the end. -/
theorem C05_move_to_first_int (μ : Mapping) (r : Reader) (hr : r.Ok μ) (he : r.e < μ.bytes.length + μ.pad) :
    ∃ k, moveToFirstInt μ r = .ok ⟨k, r.e⟩ ∧ Spec.IsFirst (Spec.DataDigit μ.bytes r.d) r.d r.e k := by
  obtain ⟨v, hrd⟩ := reader_view hr
  obtain ⟨k, h1, h2, h3, h4, h5⟩ := suffix_position hr (toStop_suffix isDigit false (Spec.slice μ.bytes r.d r.e))
  have hlen := rdr_slice_length (a := r.d) hr.len
  refine ⟨k, ?_, ?_⟩
  · conv => lhs; rw [hrd]
    rw [moveToFirstInt_eq v he]
    exact congrArg _ h1
  · have hf := toStop_isFirst false (Spec.slice μ.bytes r.d r.e)
    have conv : ∀ i, r.d + i < r.e → (Spec.DataDigit μ.bytes r.d (r.d + i) ↔
        (∃ c, (Spec.slice μ.bytes r.d r.e)[i]? = some c ∧ isDigit c = true) ∧ ¬ inCom false (Spec.slice μ.bytes r.d r.e) i) := by
      intro i hi
      unfold Spec.DataDigit Spec.ByteAt
      rw [inComment_iff hi, slice_get hi]
      simp only [isDigit_spec]
    refine ⟨h2, h3, ?_, ?_⟩
    · intro i hi1 hi2 hd
      have h6 := (conv (i - r.d) (by omega)).mp (by rw [show r.d + (i - r.d) = i by omega]; exact hd)
      exact hf.before (i - r.d) (Nat.zero_le _) (by omega) h6
    · intro hk
      have h6 := hf.at_ (by omega)
      have h7 : (Spec.slice μ.bytes r.d r.e).length - (toStop isDigit false (Spec.slice μ.bytes r.d r.e)).length = k - r.d := by
        omega
      rw [h7] at h6
      have := (conv (k - r.d) (by omega)).mpr h6
      rwa [show r.d + (k - r.d) = k by omega] at this

/-- **C05** `move_to_next_int` leaves the digit run under the cursor and then does the same. -/
theorem C05_move_to_next_int (μ : Mapping) (r : Reader) (hr : r.Ok μ) (he : r.e < μ.bytes.length + μ.pad) :
    ∃ b k, Spec.IsFirst (Spec.ByteAt μ.bytes (fun c => Spec.isDigit c = false)) r.d r.e b ∧
      moveToNextInt μ r = .ok ⟨k, r.e⟩ ∧ Spec.IsFirst (Spec.DataDigit μ.bytes b) b r.e k := by
  obtain ⟨b, h1, h2, h3⟩ := scan_position hr isDigit
  obtain ⟨k, h4, h5⟩ := C05_move_to_first_int μ ⟨b, r.e⟩ ⟨h2.le, hr.len⟩ he
  refine ⟨b, k, IsFirst.congr h2 (fun i => ?_), ?_, h5⟩
  · constructor <;> rintro ⟨c, hc, hd⟩ <;> refine ⟨c, hc, ?_⟩ <;> simpa [isDigit_spec] using hd
  · unfold moveToNextInt moveToNonInt
    rw [h1, ok_bind, h4]

example : moveToNextInt ⟨str "12 % 3\n#4\n 56", 1⟩ ⟨0, 13⟩ = .ok ⟨11, 13⟩ := by decide

/-! ### C06 -/

/-- **C06** `at_end_of_line` is true iff all bytes from the cursor to the next newline (or the end) are blanks or
carriage returns. -/
theorem C06_at_end_of_line (μ : Mapping) (r : Reader) (hr : r.Ok μ) :
    ∃ k, Spec.IsFirst (Spec.ByteAt μ.bytes (fun c => c.toNat = '\n'.toNat)) r.d r.e k ∧
      atEndOfLine μ r = .ok (decide (∀ c ∈ Spec.slice μ.bytes r.d k, c.toNat = ' '.toNat ∨ c.toNat = '\r'.toNat)) := by
  obtain ⟨k, h1, h2, h3⟩ := scan_position hr (fun b => b != nl)
  refine ⟨k, IsFirst.congr h2 (fun i => ?_), ?_⟩
  · constructor <;> rintro ⟨c, hc, hd⟩ <;> refine ⟨c, hc, ?_⟩
    · simp at hd; subst hd; rfl
    · have : c = nl := UInt8.toNat_inj.mp hd
      simp [this]
  · obtain ⟨v, hrd⟩ := reader_view hr
    have hsl := (takeWhile_slice h2.ge h2.le hr.len h3).symm
    rw [hsl]
    have key : ∀ (s : List Byte), View μ r.e s → ∀ n, s.length ≤ n → atEndOfLineN μ n (r.e - s.length) r.e =
        .ok (decide (∀ c ∈ s.takeWhile (fun b => b != nl), c.toNat = ' '.toNat ∨ c.toNat = '\r'.toNat)) := by
      intro s
      induction s with
      | nil =>
        intro v n hn
        cases n <;> simp [atEndOfLineN]
      | cons c s ih =>
        intro v n hn
        cases n with
        | zero => simp at hn
        | succ n =>
          unfold atEndOfLineN
          have hlt := v.lt
          rw [rd_d, rd_e] at hlt
          rw [if_pos hlt, show r.e - (c :: s).length = (rd r.e (c :: s)).d from rfl, v.get_d, ok_bind,
            List.takeWhile_cons]
          by_cases hc : c = nl
          · simp [hc]
          · have hc' : (c != nl) = true := by simp [hc]
            simp only [hc', if_true]
            have hb : (c != 32 && c != 13) = false ↔ (c.toNat = ' '.toNat ∨ c.toNat = '\r'.toNat) := by
              have h1 : c.toNat = ' '.toNat ↔ c = 32 := ⟨fun h => UInt8.toNat_inj.mp h, fun h => by rw [h]; rfl⟩
              have h2 : c.toNat = '\r'.toNat ↔ c = 13 := ⟨fun h => UInt8.toNat_inj.mp h, fun h => by rw [h]; rfl⟩
              rw [h1, h2]
              by_cases e1 : c = 32 <;> by_cases e2 : c = 13 <;> simp [e1, e2]
            split
            · rename_i h
              have : ¬ (c.toNat = ' '.toNat ∨ c.toNat = '\r'.toNat) := by
                intro h'; rw [← hb] at h'; rw [h] at h'; cases h'
              congr 1
              symm
              rw [decide_eq_false_iff_not]
              intro h'
              exact this (h' c (List.mem_cons_self ..))
            · rename_i h
              have hbl := hb.mp (by simpa using h)
              have hadv : (rd r.e (c :: s)).d + 1 = r.e - s.length := by
                have := v.length_le
                unfold rd; simp only [List.length_cons] at this ⊢; omega
              rw [hadv, ih v.tail n (by simpa using hn)]
              congr 1
              apply decide_eq_decide.mpr
              simp only [List.forall_mem_cons]
              exact ⟨fun h => ⟨hbl, h⟩, fun h => h.2⟩
    have := key _ v _ (Nat.le_refl _)
    unfold atEndOfLine
    have h5 : r.e - (Spec.slice μ.bytes r.d r.e).length = r.d := by
      have := congrArg Reader.d hrd
      exact this.symm
    rw [h5] at this
    rw [← rdr_slice_length (a := r.d) hr.len, this]

example : atEndOfLine ⟨str "7 \r\n8", 0⟩ ⟨1, 5⟩ = .ok true ∧ atEndOfLine ⟨str "7 \t\n8", 0⟩ ⟨1, 5⟩ = .ok false := by
  decide

end Pigo
