import Verif.Lemmas.WeightedFlags

/-!
# `read_fp` on any text, as a function of the text
-/

namespace Pigo

variable {V : Type} {μ : Mapping} {e : Nat} (ops : FpOps V)

/-- The sign and what is left. -/
def fpSignL : List Byte → Bool × List Byte
  | [] => (false, [])
  | c :: t => if c == 45 then (true, t) else if c == 43 then (false, t) else (false, c :: t)

/-- The value after the fraction, and what is left. -/
def fpFracL (res : V) : List Byte → V × List Byte
  | [] => (res, [])
  | c :: t => if c == 46 then (ops.addFrac res (fpDigits ops (t.takeWhile isDigit)) (t.takeWhile isDigit).length, t.dropWhile isDigit) else (res, c :: t)

/-- `read_fp` on a text: the value and what is left. -/
def fpL : Nat → List Byte → V × List Byte
  | 0, s => (ops.zero, s)
  | n+1, s =>
    let s0 := s.dropWhile (fun b => !isFp b)
    let (neg, s1) := fpSignL s0
    let (res, s2) := fpFracL ops (fpDigits ops (s1.takeWhile isDigit)) (s1.dropWhile isDigit)
    let (res, s3) := match s2 with
      | [] => (res, [])
      | c :: t => if c == 101 || c == 69 then (ops.scale res (fpL n t).1, (fpL n t).2) else (res, c :: t)
    (if neg then ops.neg res else res, s3)

theorem fpSignL_suffix (s : List Byte) : (fpSignL s).2 <:+ s := by
  cases s with
  | nil => exact List.suffix_refl _
  | cons c t =>
    simp only [fpSignL]
    split
    · exact List.suffix_cons _ _
    · split
      · exact List.suffix_cons _ _
      · exact List.suffix_refl _

theorem fpFracL_suffix (res : V) (s : List Byte) : (fpFracL ops res s).2 <:+ s := by
  cases s with
  | nil => exact List.suffix_refl _
  | cons c t =>
    simp only [fpFracL]
    split
    · exact (dropWhile_suffix' _ _).trans (List.suffix_cons _ _)
    · exact List.suffix_refl _

theorem fpSign_eq (he : EndB μ e) {s : List Byte} (v : View μ e s) : fpSign μ (rd e s) = .ok ((fpSignL s).1, rd e (fpSignL s).2) := by
  unfold fpSign
  cases s with
  | nil =>
    obtain ⟨b, hb, h⟩ := he
    have : μ.get (rd e []).d = .ok b := hb
    rw [this, ok_bind]
    simp only [(digit_facts h).1, (digit_facts h).2.1, Bool.false_eq_true, if_false]
    rfl
  | cons c t =>
    rw [v.get_d, ok_bind, v.adv]
    simp only [fpSignL]
    split
    · rfl
    · split <;> rfl

theorem fpFrac_eq (he : EndB μ e) {s : List Byte} (v : View μ e s) (res : V) :
    fpFrac μ ops res (rd e s) = .ok ((fpFracL ops res s).1, rd e (fpFracL ops res s).2) := by
  unfold fpFrac
  cases s with
  | nil =>
    obtain ⟨b, hb, h⟩ := he
    have : μ.get (rd e []).d = .ok b := hb
    rw [this, ok_bind]
    simp only [(digit_facts h).2.2.1, Bool.false_eq_true, if_false]
    rfl
  | cons c t =>
    rw [v.get_d, ok_bind, v.adv]
    simp only [fpFracL]
    split
    · simp only
      rw [v.tail.sub, fpDigitsN_eq _ _ _ _ _ v.tail (Nat.le_refl _), Nat.zero_add]
      rfl
    · rfl

theorem fpL_suffix : ∀ (n : Nat) (s : List Byte), (fpL ops n s).2 <:+ s
  | 0, s => List.suffix_refl _
  | n+1, s => by
    have h0 := dropWhile_suffix' (fun b => !isFp b) s
    have h1 := (fpSignL_suffix (s.dropWhile (fun b => !isFp b))).trans h0
    have h2 := (fpFracL_suffix ops (fpDigits ops ((fpSignL (s.dropWhile (fun b => !isFp b))).2.takeWhile isDigit))
      ((fpSignL (s.dropWhile (fun b => !isFp b))).2.dropWhile isDigit)).trans ((dropWhile_suffix' _ _).trans h1)
    rw [fpL]
    dsimp only
    cases hs : (fpFracL ops (fpDigits ops ((fpSignL (s.dropWhile (fun b => !isFp b))).2.takeWhile isDigit))
      ((fpSignL (s.dropWhile (fun b => !isFp b))).2.dropWhile isDigit)).2 with
    | nil => exact List.nil_suffix
    | cons c t =>
      rw [hs] at h2
      dsimp only
      split
      · exact (fpL_suffix n t).trans ((List.suffix_cons _ _).trans h2)
      · exact h2

theorem readFpN_eq (he : EndB μ e) : ∀ (n : Nat) (s : List Byte), s.length < n → View μ e s →
    readFpN μ ops n (rd e s) = .ok ((fpL ops n s).1, rd e (fpL ops n s).2) := by
  intro n
  induction n with
  | zero => intro s h; omega
  | succ n ih =>
    intro s hn v
    rw [readFpN, fpL]
    dsimp only
    have h0 := dropWhile_suffix' (fun b => !isFp b) s
    have v0 := v.of_suffix h0
    rw [scan_eq _ v, ok_bind, fpSign_eq he v0, ok_bind]
    dsimp only
    have h1 := (fpSignL_suffix (s.dropWhile (fun b => !isFp b))).trans h0
    have v1 := v.of_suffix h1
    generalize (fpSignL (s.dropWhile (fun b => !isFp b))).1 = neg
    generalize (fpSignL (s.dropWhile (fun b => !isFp b))).2 = s1 at *
    rw [v1.sub, fpDigitsN_eq _ _ _ _ _ v1 (Nat.le_refl _), ok_bind]
    dsimp only
    have v2 := v1.of_suffix (dropWhile_suffix' isDigit s1)
    rw [fpFrac_eq ops he v2, ok_bind]
    dsimp only
    have h3 := (fpFracL_suffix ops (fpDigits ops (s1.takeWhile isDigit)) (s1.dropWhile isDigit)).trans ((dropWhile_suffix' _ _).trans h1)
    rw [show (s1.takeWhile isDigit).foldl (fun a b => ops.digit a (digitVal b)) ops.zero = fpDigits ops (s1.takeWhile isDigit) from rfl]
    have v3 := v.of_suffix h3
    generalize (fpFracL ops (fpDigits ops (s1.takeWhile isDigit)) (s1.dropWhile isDigit)).1 = res at *
    generalize (fpFracL ops (fpDigits ops (s1.takeWhile isDigit)) (s1.dropWhile isDigit)).2 = s3 at *
    cases s3 with
    | nil =>
      obtain ⟨b, hb, h⟩ := he
      have : μ.get (rd e []).d = .ok b := hb
      rw [this, ok_bind]
      simp only [(digit_facts h).2.2.2.1, (digit_facts h).2.2.2.2.1, Bool.or_self, Bool.false_eq_true, if_false, ok_bind]
    | cons c t =>
      rw [v3.get_d, ok_bind]
      dsimp only
      split
      · have hl := h3.length_le
        simp only [List.length_cons] at hl
        rw [v3.adv, ih t (by omega) v3.tail]
        rfl
      · rfl

/-- Reading a weight of floating point type out of any text. -/
def fpV (s : List Byte) : V := (fpL ops ((s.dropWhile (fun b => !isFp b)).length + 2) (s.dropWhile (fun b => !isFp b))).1

/-- What is left. -/
def fpR (s : List Byte) : List Byte :=
  (fpL ops ((s.dropWhile (fun b => !isFp b)).length + 2) (s.dropWhile (fun b => !isFp b))).2.dropWhile isFp

theorem wFp_any (μ : Mapping) : AnyW μ (wFp ops) (fpV ops) (fpR ops) where
  wgt := rfl
  suffix s := (dropWhile_suffix' isFp _).trans ((fpL_suffix ops _ _).trans (dropWhile_suffix' _ _))
  read {e s} v he := by
    have v0 := v.of_suffix (dropWhile_suffix' (fun b => !isFp b) s)
    show (do let r ← moveToFp μ (rd e s); let (v, r) ← readFp μ ops r; let r ← moveToNonFp μ r; .ok (v, r)) = _
    rw [moveToFp_eq v, ok_bind]
    unfold readFp
    rw [v0.sub, readFpN_eq ops he _ _ (by omega) v0, ok_bind]
    dsimp only
    rw [moveToNonFp_eq (v0.of_suffix (fpL_suffix ops _ _))]
    rfl

end Pigo
