import Verif.Model.Reader

/-!
# Bridge: reader operations as functions on the remaining bytes

`View μ e s` says that `s` is what lies between the current position and the end offset `e`;
`rd e s` is the reader at that position.  Each operation of `Model/Reader` on `rd e s` equals a
function on the byte list `s`.
-/

namespace Pigo

/-- `s` is a suffix of the first `e` bytes of the file. -/
structure View (μ : Mapping) (e : Nat) (s : List Byte) : Prop where
  suf : s <:+ μ.bytes.take e
  le : e ≤ μ.bytes.length

/-- The byte at offset `e` may be loaded. -/
def Readable (μ : Mapping) (e : Nat) : Prop := e < μ.bytes.length + μ.pad

/-- The reader that has `s` left before the end offset `e`. -/
def rd (e : Nat) (s : List Byte) : Reader := ⟨e - s.length, e⟩

variable {μ : Mapping} {e : Nat}

theorem View.length_le {s} (v : View μ e s) : s.length ≤ e := by
  have := v.suf.length_le
  simp at this; omega

theorem View.tail {c s} (v : View μ e (c :: s)) : View μ e s :=
  ⟨(List.suffix_cons c s).trans v.suf, v.le⟩

theorem View.of_suffix {s t} (v : View μ e s) (h : t <:+ s) : View μ e t :=
  ⟨h.trans v.suf, v.le⟩

theorem View.append {s t} (v : View μ e (s ++ t)) : View μ e t := v.of_suffix (List.suffix_append _ _)

theorem View.get_cons {c s} (v : View μ e (c :: s)) : μ.get (e - (s.length + 1)) = .ok c := by
  obtain ⟨p, hp⟩ := v.suf
  have hl := v.le
  have hlen : p.length + (s.length + 1) = e := by
    have := congrArg List.length hp
    simp at this; omega
  have hlt : e - (s.length + 1) < μ.bytes.length := by omega
  rw [Mapping.get_lt _ hlt]
  congr 1
  have h1 : (μ.bytes.take e)[e - (s.length + 1)]? = some c := by
    rw [← hp, List.getElem?_append_right (by omega)]
    have : e - (s.length + 1) - p.length = 0 := by omega
    simp [this]
  rw [List.getElem?_take] at h1
  have h2 : e - (s.length + 1) < e := by omega
  simp [h2, hlt] at h1
  exact h1

theorem View.full (μ : Mapping) : View μ μ.bytes.length μ.bytes :=
  ⟨by simp, Nat.le_refl _⟩

theorem View.get_rd {s} (v : View μ e s) (h : Readable μ e) : ∃ b, μ.get (rd e s).d = .ok b := by
  apply Mapping.get_readable
  have := v.length_le
  have := v.le
  unfold Readable at h
  simp [rd]; omega

@[simp] theorem rd_e (s) : (rd e s).e = e := rfl
theorem rd_d (s) : (rd e s).d = e - s.length := rfl

theorem rd_nil : rd e [] = ⟨e, e⟩ := rfl

theorem View.adv {c s} (v : View μ e (c :: s)) : (rd e (c :: s)).adv = rd e s := by
  have := v.length_le
  simp [rd, Reader.adv] at *; omega

theorem View.lt {c s} (v : View μ e (c :: s)) : (rd e (c :: s)).d < (rd e (c :: s)).e := by
  have := v.length_le
  simp [rd] at *; omega

theorem View.sub {s} (v : View μ e s) : (rd e s).e - (rd e s).d = s.length := by
  have := v.length_le
  simp [rd]; omega

theorem View.get_d {c s} (v : View μ e (c :: s)) : μ.get (rd e (c :: s)).d = .ok c := v.get_cons

@[simp] theorem good_rd {s} (v : View μ e s) : (rd e s).good = !s.isEmpty := by
  cases s with
  | nil => simp [Reader.good, rd]
  | cons c s => exact decide_eq_true v.lt

theorem size_rd {s} (v : View μ e s) : (rd e s).size = s.length := v.sub

/-! ## guarded scans -/

theorem scanN_eq (P : Byte → Bool) : ∀ (n : Nat) (s : List Byte), View μ e s → s.length ≤ n →
    scanN μ P n (rd e s) = .ok (rd e (s.dropWhile P))
  | 0, s, _, h => by
    have : s = [] := List.length_eq_zero_iff.mp (by omega)
    subst this; rfl
  | n+1, [], v, _ => by simp [scanN, rd]
  | n+1, c :: s, v, h => by
    have ih := scanN_eq P n s v.tail (by simpa using h)
    rw [scanN, if_pos v.lt, v.get_d, ok_bind, v.adv, ih, List.dropWhile_cons]
    split <;> rfl

theorem scan_eq (P : Byte → Bool) {s} (v : View μ e s) :
    scan μ P (rd e s) = .ok (rd e (s.dropWhile P)) := by
  rw [scan, v.sub]; exact scanN_eq P _ s v (Nat.le_refl _)

/-! ## list versions -/

/-- rest after `skip_line` -/
def skipLineL : List Byte → List Byte
  | [] => []
  | c :: s => if c == nl then s else skipLineL s

theorem skipLineL_suffix : ∀ s, skipLineL s <:+ s
  | [] => List.suffix_refl _
  | c :: s => by
    rw [skipLineL]; split
    · exact List.suffix_cons _ _
    · exact (skipLineL_suffix s).trans (List.suffix_cons _ _)

theorem skipLineL_length_lt : ∀ (c : Byte) s, (skipLineL (c :: s)).length ≤ s.length
  | c, s => by
    rw [skipLineL]; split
    · simp
    · exact (skipLineL_suffix s).length_le

theorem skipLineN_eq : ∀ (n : Nat) (s : List Byte), View μ e s → s.length ≤ n →
    skipLineN μ n (rd e s) = .ok (rd e (skipLineL s))
  | 0, s, _, h => by
    have : s = [] := List.length_eq_zero_iff.mp (by omega)
    subst this; rfl
  | n+1, [], v, _ => by simp [skipLineN, rd, skipLineL]
  | n+1, c :: s, v, h => by
    have ih := skipLineN_eq n s v.tail (by simpa using h)
    rw [skipLineN, if_pos v.lt, v.get_d, ok_bind, v.adv, ih, skipLineL]
    by_cases hc : c = nl <;> simp [hc]

/-- `toStop stop inComment s`: the rest of `s` starting at the first byte that satisfies `stop` and does
not lie in a comment; a comment starts at `%` or `#` and ends with its line. -/
def toStop (stop : Byte → Bool) : Bool → List Byte → List Byte
  | _, [] => []
  | true, c :: s => if c == nl then toStop stop false s else toStop stop true s
  | false, c :: s =>
    if isCom c then toStop stop true s
    else if stop c then c :: s else toStop stop false s

theorem toStop_suffix (stop) : ∀ b s, toStop stop b s <:+ s
  | _, [] => by simp [toStop]
  | true, c :: s => by
    rw [toStop]; split
    · exact (toStop_suffix stop _ s).trans (List.suffix_cons _ _)
    · exact (toStop_suffix stop _ s).trans (List.suffix_cons _ _)
  | false, c :: s => by
    rw [toStop]; split
    · exact (toStop_suffix stop _ s).trans (List.suffix_cons _ _)
    · split
      · exact List.suffix_refl _
      · exact (toStop_suffix stop _ s).trans (List.suffix_cons _ _)

theorem toStop_true (stop) : ∀ s, toStop stop true s = toStop stop false (skipLineL s)
  | [] => by simp [toStop, skipLineL]
  | c :: s => by
    rw [toStop, skipLineL]; split
    · rfl
    · exact toStop_true stop s

/-- rest after `skip_comments` -/
def skipComL : Nat → List Byte → List Byte
  | 0, s => s
  | _+1, [] => []
  | n+1, c :: s => if isCom c then skipComL n (skipLineL (c :: s)) else c :: s

theorem skipComL_suffix : ∀ n s, skipComL n s <:+ s
  | 0, s => by simp [skipComL]
  | n+1, [] => by simp [skipComL]
  | n+1, c :: s => by
    rw [skipComL]; split
    · exact (skipComL_suffix n _).trans (skipLineL_suffix _)
    · exact List.suffix_refl _

theorem skipCommentsN_eq : ∀ (n : Nat) (s : List Byte), View μ e s → s.length ≤ n →
    skipCommentsN μ n (rd e s) = .ok (rd e (skipComL n s))
  | 0, s, _, h => by
    have : s = [] := List.length_eq_zero_iff.mp (by omega)
    subst this; rfl
  | n+1, [], v, _ => by simp [skipCommentsN, rd, skipComL]
  | n+1, c :: s, v, h => by
    have ih := skipCommentsN_eq n (skipLineL (c :: s)) (v.of_suffix (skipLineL_suffix _))
      (by have := skipLineL_length_lt c s; simp at h; omega)
    have hs := skipLineN_eq (c :: s).length (c :: s) v (Nat.le_refl _)
    rw [skipCommentsN, if_pos v.lt, v.get_d, ok_bind, v.sub, hs, ok_bind, ih, skipComL]
    split <;> rfl

/-- after `skip_comments` there is no comment character -/
theorem skipComL_not_com : ∀ n s, s.length ≤ n → ∀ c t, skipComL n s = c :: t → isCom c = false
  | 0, s, h, c, t, hs => by
    have : s = [] := List.length_eq_zero_iff.mp (by omega)
    subst this; simp [skipComL] at hs
  | n+1, [], h, c, t, hs => by simp [skipComL] at hs
  | n+1, a :: s, h, c, t, hs => by
    rw [skipComL] at hs
    split at hs
    · exact skipComL_not_com n _ (by have := skipLineL_length_lt a s; simp at h; omega) c t hs
    · rename_i hn
      injection hs with h1 h2; subst h1; exact Bool.eq_false_iff.mpr hn

theorem toStop_skipComL (stop) : ∀ n s, toStop stop false (skipComL n s) = toStop stop false s
  | 0, s => rfl
  | n+1, [] => rfl
  | n+1, c :: s => by
    rw [skipComL]; split
    · rename_i h
      rw [toStop_skipComL stop n, toStop.eq_3, if_pos h, toStop_true]
      congr 1
      rw [skipLineL]
      have : c ≠ nl := by rintro rfl; revert h; decide
      simp [this]
    · rfl

/-- The list effect of `skipIfCom`. -/
def skipIfComL (s : List Byte) : List Byte := skipComL s.length s

theorem skipIfCom_eq {s} (v : View μ e s) (hr : Readable μ e) :
    skipIfCom μ (rd e s) = .ok (rd e (skipIfComL s)) := by
  cases s with
  | nil =>
    obtain ⟨b, hb⟩ := v.get_rd hr
    rw [skipIfCom, hb, ok_bind]
    have : skipComments μ (rd e []) = .ok (rd e []) := by
      simp [skipComments, rd, skipCommentsN]
    rw [this]; simp [skipIfComL, skipComL]
  | cons c s =>
    rw [skipIfCom, v.get_d, ok_bind, skipComments, v.sub, skipCommentsN_eq _ _ v (Nat.le_refl _)]
    simp only [skipIfComL, List.length_cons]
    split
    · rfl
    · rename_i h
      rw [skipComL, if_neg h]

theorem skipIfComL_suffix (s) : skipIfComL s <:+ s := skipComL_suffix _ _

theorem firstN_eq (stop) (hr : Readable μ e) :
    ∀ (n : Nat) (s : List Byte), View μ e s → s.length ≤ n →
    (∀ c t, s = c :: t → isCom c = false) →
    firstN μ stop n (rd e s) = .ok (rd e (toStop stop false s))
  | 0, s, _, h, _ => by
    have : s = [] := List.length_eq_zero_iff.mp (by omega)
    subst this; rfl
  | n+1, [], v, _, _ => by simp [firstN, rd, toStop]
  | n+1, c :: s, v, h, hc => by
    have hsuf := skipIfComL_suffix s
    have ih := firstN_eq stop hr n (skipIfComL s) (v.tail.of_suffix hsuf)
      (by have := hsuf.length_le; simp at h; omega)
      (fun c t hct => skipComL_not_com _ _ (Nat.le_refl _) c t hct)
    rw [firstN, if_pos v.lt, v.get_d, ok_bind, v.adv, skipIfCom_eq v.tail hr, ok_bind, ih,
      toStop.eq_3, hc c s rfl]
    simp only [skipIfComL, toStop_skipComL]
    by_cases hs : stop c <;> simp [hs]

theorem skip_first_eq (stop) (hr : Readable μ e) {s} (v : View μ e s) :
    (do let r ← skipIfCom μ (rd e s); firstN μ stop (r.e - r.d) r) = .ok (rd e (toStop stop false s)) := by
  have hsuf := skipIfComL_suffix s
  have v' := v.of_suffix hsuf
  rw [skipIfCom_eq v hr, ok_bind, v'.sub, firstN_eq stop hr _ _ v' (Nat.le_refl _)
    (fun c t hct => skipComL_not_com _ _ (Nat.le_refl _) c t hct)]
  simp only [skipIfComL, toStop_skipComL]

/-- rest after `move_to_first_int` -/
abbrev firstIntL (s : List Byte) : List Byte := toStop isDigit false s

/-- rest after `move_to_next_int` -/
abbrev nextIntL (s : List Byte) : List Byte := firstIntL (s.dropWhile isDigit)

/-- rest after `move_to_eol` -/
abbrev eolL (s : List Byte) : List Byte := s.dropWhile (fun b => b != nl)

theorem dropWhile_suffix' (P : Byte → Bool) (s) : s.dropWhile P <:+ s := List.dropWhile_suffix P

theorem moveToFirstInt_eq {s} (v : View μ e s) (hr : Readable μ e) :
    moveToFirstInt μ (rd e s) = .ok (rd e (firstIntL s)) := skip_first_eq isDigit hr v

theorem moveToNonInt_eq {s} (v : View μ e s) :
    moveToNonInt μ (rd e s) = .ok (rd e (s.dropWhile isDigit)) := scan_eq _ v

theorem moveToNextInt_eq {s} (v : View μ e s) (hr : Readable μ e) :
    moveToNextInt μ (rd e s) = .ok (rd e (nextIntL s)) := by
  rw [moveToNextInt, moveToNonInt_eq v, ok_bind,
    moveToFirstInt_eq (v.of_suffix (dropWhile_suffix' _ _)) hr]

theorem moveToEol_eq {s} (v : View μ e s) :
    moveToEol μ (rd e s) = .ok (rd e (eolL s)) := scan_eq _ v

theorem moveToFp_eq {s} (v : View μ e s) :
    moveToFp μ (rd e s) = .ok (rd e (s.dropWhile (fun b => !isFp b))) := scan_eq _ v

theorem moveToNonFp_eq {s} (v : View μ e s) :
    moveToNonFp μ (rd e s) = .ok (rd e (s.dropWhile isFp)) := scan_eq _ v

/-- `read_int` on a byte list, threading the conversion `wrap`. -/
def digitsM (wrap : Nat → M Nat) : Nat → List Byte → M Nat
  | res, [] => .ok res
  | res, c :: s => if isDigit c then do
      let res ← wrap (res * 10 + digitVal c)
      digitsM wrap res s
    else .ok res

theorem readDigitsN_eq (wrap) : ∀ (n : Nat) (res : Nat) (s : List Byte), View μ e s → s.length ≤ n →
    readDigitsN μ wrap n res (rd e s) =
      (digitsM wrap res s).bind (fun v => .ok (v, rd e (s.dropWhile isDigit)))
  | 0, res, s, _, h => by
    have : s = [] := List.length_eq_zero_iff.mp (by omega)
    subst this; rfl
  | n+1, res, [], v, _ => by simp [readDigitsN, rd, digitsM, Except.bind]
  | n+1, res, c :: s, v, h => by
    rw [readDigitsN, if_pos v.lt, v.get_d, ok_bind, v.adv, digitsM, List.dropWhile_cons]
    by_cases hc : isDigit c
    · simp only [hc, if_true]
      cases hw : wrap (res * 10 + digitVal c) with
      | error f => rfl
      | ok res' =>
        simp only [ok_bind]
        exact readDigitsN_eq wrap n res' s v.tail (by simpa using h)
    · simp [hc, Except.bind]

/-- Bytes left after skipping to the first digit (`read_int`'s first loop). -/
abbrev toDigitL (s : List Byte) : List Byte := s.dropWhile (fun b => !isDigit b)

theorem readInt_eq (wrap) {s} (v : View μ e s) :
    readInt μ wrap (rd e s) =
      (digitsM wrap 0 (toDigitL s)).bind (fun x => .ok (x, rd e ((toDigitL s).dropWhile isDigit))) := by
  have v' := v.of_suffix (dropWhile_suffix' (fun b => !isDigit b) s)
  rw [readInt, scan_eq _ v, ok_bind, v'.sub, readDigitsN_eq _ _ _ _ v' (Nat.le_refl _)]

/-- Decimal value of a list of digit characters. -/
def decVal (ds : List Byte) : Nat := ds.foldl (fun a b => a * 10 + digitVal b) 0

theorem foldl_dec_mod (w : Nat) (ds : List Byte) (a : Nat) :
    (ds.foldl (fun a b => (a * 10 + digitVal b) % 2 ^ w) (a % 2 ^ w)) =
      (ds.foldl (fun a b => a * 10 + digitVal b) a) % 2 ^ w := by
  induction ds generalizing a with
  | nil => rfl
  | cons c ds ih =>
    simp only [List.foldl_cons]
    rw [← ih]
    congr 1
    simp [Nat.add_mod, Nat.mul_mod]

theorem digitsM_wrapU (w : Nat) : ∀ (s : List Byte) (res : Nat),
    digitsM (wrapU w) (res % 2 ^ w) s =
      .ok (((s.takeWhile isDigit).foldl (fun a b => a * 10 + digitVal b) res) % 2 ^ w)
  | [], res => by simp [digitsM]
  | c :: s, res => by
    rw [digitsM, List.takeWhile_cons]
    by_cases hc : isDigit c
    · simp only [hc, if_true, wrapU, ok_bind, List.foldl_cons]
      have := digitsM_wrapU w s (res * 10 + digitVal c)
      rw [← this]
      congr 1
      simp [Nat.add_mod, Nat.mul_mod]
    · simp [hc]

/-- `read_int` into an unsigned type of `w` bits: first digit run modulo `2^w`. -/
theorem readInt_wrapU (w : Nat) {s} (v : View μ e s) :
    readInt μ (wrapU w) (rd e s) =
      .ok (decVal ((toDigitL s).takeWhile isDigit) % 2 ^ w, rd e ((toDigitL s).dropWhile isDigit)) := by
  rw [readInt_eq _ v]
  have := digitsM_wrapU w (toDigitL s) 0
  simp only [Nat.zero_mod] at this
  rw [this]; rfl

theorem foldl_dec_le (ds : List Byte) (a : Nat) :
    a ≤ ds.foldl (fun a b => a * 10 + digitVal b) a := by
  induction ds generalizing a with
  | nil => exact Nat.le_refl _
  | cons c ds ih =>
    simp only [List.foldl_cons]
    exact Nat.le_trans (by omega) (ih _)

theorem digitsM_wrapS (w : Nat) : ∀ (s : List Byte) (res : Nat),
    (s.takeWhile isDigit).foldl (fun a b => a * 10 + digitVal b) res < 2 ^ (w - 1) →
    digitsM (wrapS w) res s = .ok ((s.takeWhile isDigit).foldl (fun a b => a * 10 + digitVal b) res)
  | [], res, _ => by simp [digitsM]
  | c :: s, res, h => by
    rw [digitsM]
    rw [List.takeWhile_cons] at h ⊢
    by_cases hc : isDigit c
    · simp only [hc, if_true, List.foldl_cons] at h ⊢
      have hlt : res * 10 + digitVal c < 2 ^ (w - 1) := Nat.lt_of_le_of_lt (foldl_dec_le _ _) h
      rw [wrapS, if_pos hlt, ok_bind]
      exact digitsM_wrapS w s _ h
    · simp [hc]

/-- `read_int` into a signed type of `w` bits, for a digit run that fits. -/
theorem readInt_wrapS (w : Nat) {s} (v : View μ e s)
    (h : decVal ((toDigitL s).takeWhile isDigit) < 2 ^ (w - 1)) :
    readInt μ (wrapS w) (rd e s) =
      .ok (decVal ((toDigitL s).takeWhile isDigit), rd e ((toDigitL s).dropWhile isDigit)) := by
  rw [readInt_eq _ v, digitsM_wrapS w _ _ h]; rfl

end Pigo
