import Verif.Lemmas.WeightedCutAny
import Verif.Lemmas.WeightedFlags
import Verif.Spec.WeightedCut

/-!
# Reading a signed weight out of any text whose numbers fit
-/

namespace Pigo

variable {μ : Mapping} {e : Nat}

/-- What is looked at: after a sign at the cursor. -/
def signL : List Byte → List Byte
  | [] => []
  | c :: t => if isSign c then t else c :: t

/-- The next number or sign. -/
def nextSL (s : List Byte) : List Byte := toStop (fun b => isDigit b || isSign b) false ((signL s).dropWhile isDigit)

theorem signL_suffix (s : List Byte) : signL s <:+ s := by
  cases s with
  | nil => exact List.suffix_refl _
  | cons c t =>
    rw [signL]
    by_cases h : isSign c
    · rw [if_pos h]; exact List.suffix_cons _ _
    · rw [if_neg h]; exact List.suffix_refl _

theorem nextSL_suffix (s : List Byte) : nextSL s <:+ s :=
  ((toStop_suffix _ _ _).trans (dropWhile_suffix' _ _)).trans (signL_suffix s)

/-- The value of the weight. -/
def sintV (s : List Byte) : Int :=
  if (nextSL s).head? = some 45 then -(decVal ((toDigitL (nextSL s)).takeWhile isDigit) : Int) else (decVal ((toDigitL (nextSL s)).takeWhile isDigit) : Int)

/-- What is left. -/
def sintR (s : List Byte) : List Byte := afterNum (nextSL s)

theorem sintR_suffix (s : List Byte) : sintR s <:+ s :=
  (toDigitL_suffix _).trans (nextSL_suffix s)

theorem moveToNextSignedInt_eq (he : EndB μ e) {s : List Byte} (v : View μ e s) : moveToNextSignedInt μ (rd e s) = .ok (rd e (nextSL s)) := by
  have hr := he.readable
  have rest : ∀ t, View μ e t → (do
      let r ← moveToNonInt μ (rd e t)
      let r ← skipIfCom μ r
      firstN μ (fun b => isDigit b || isSign b) (r.e - r.d) r) = .ok (rd e (toStop (fun b => isDigit b || isSign b) false (t.dropWhile isDigit))) := by
    intro t vt
    rw [moveToNonInt_eq vt, ok_bind]
    exact skip_first_eq _ hr (vt.of_suffix (dropWhile_suffix' _ _))
  cases s with
  | nil =>
    obtain ⟨b, hb, h⟩ := he
    unfold moveToNextSignedInt
    have : μ.get (rd e []).d = .ok b := hb
    rw [this, ok_bind]
    simp only [(digit_facts h).2.2.2.2.2.1, Bool.false_eq_true, if_false]
    exact rest [] v
  | cons c t =>
    unfold moveToNextSignedInt
    rw [v.get_d, ok_bind]
    by_cases hc : isSign c
    · simp only [hc, if_true]
      rw [v.adv, rest t v.tail]
      simp [nextSL, signL, hc]
    · simp only [hc, Bool.false_eq_true, if_false]
      rw [rest (c :: t) v]
      simp [nextSL, signL, hc]

theorem readNeg_eq (he : EndB μ e) {s : List Byte} (v : View μ e s) : readNeg μ (rd e s) = .ok (s.head? == some 45) := by
  unfold readNeg
  cases s with
  | nil =>
    obtain ⟨b, hb, h⟩ := he
    have : μ.get (rd e []).d = .ok b := hb
    rw [this, ok_bind]
    simp [(digit_facts h).1]
  | cons c t =>
    rw [v.get_d, ok_bind]
    simp

theorem wSint_read (he : EndB μ e) (w : Nat) {s : List Byte} (v : View μ e s) :
    (wSint w).read μ (rd e s) = (readInt μ (wrapS w) (rd e (nextSL s))).bind
      (fun p => .ok (if ((nextSL s).head? == some 45) = true then -(p.1 : Int) else (p.1 : Int), p.2)) := by
  show (do let r ← moveToNextSignedInt μ (rd e s); let neg ← readNeg μ r; let (v, r) ← readInt μ (wrapS w) r; .ok (if neg then -(v : Int) else (v : Int), r)) = _
  rw [moveToNextSignedInt_eq he v, ok_bind, readNeg_eq he (v.of_suffix (nextSL_suffix s)), ok_bind]
  rfl

/-- If the number does not overflow, it is its decimal value. -/
theorem digitsM_wrapS_val (w : Nat) : ∀ (s : List Byte) (res x : Nat), digitsM (wrapS w) res s = .ok x →
    x = (s.takeWhile isDigit).foldl (fun a b => a * 10 + digitVal b) res
  | [], res, x, h => by simpa [digitsM] using h.symm
  | c :: s, res, x, h => by
    rw [digitsM] at h
    by_cases hc : isDigit c
    · simp only [hc, if_true] at h
      unfold wrapS at h
      split at h
      · rw [ok_bind] at h
        simpa [List.takeWhile_cons, hc] using digitsM_wrapS_val w s _ x h
      · cases h
    · simp only [hc, Bool.false_eq_true, if_false, Except.ok.injEq] at h
      simp [hc, ← h]

theorem wSint_val (w : Nat) : ValW (wSint w) sintV sintR where
  suffix := sintR_suffix
  val {μ e s p} v he hr := by
    rw [wSint_read he w v, readInt_eq _ (v.of_suffix (nextSL_suffix s))] at hr
    cases hd : digitsM (wrapS w) 0 (toDigitL (nextSL s)) with
    | error f => rw [hd] at hr; cases hr
    | ok x =>
      rw [hd] at hr
      have hx : x = decVal ((toDigitL (nextSL s)).takeWhile isDigit) := digitsM_wrapS_val w _ _ x hd
      subst hx
      injection hr with hr
      rw [← hr]
      simp [sintV, sintR, afterNum]

/-- In a file whose numbers fit the type, no weight overflows, wherever it is read. -/
theorem wSint_any (μ : Mapping) (w : Nat) (hfit : Spec.DigitsBelow (2 ^ (w - 1)) μ.bytes) : AnyW μ (wSint w) sintV sintR where
  wgt := rfl
  suffix := sintR_suffix
  read {e s} v he := by
    have v1 := v.of_suffix (nextSL_suffix s)
    have hlt : decVal ((toDigitL (nextSL s)).takeWhile isDigit) < 2 ^ (w - 1) := by
      rw [← decimal_eq]
      refine hfit _ ?_ (fun z hz => by rw [isDigit_spec]; exact List.all_eq_true.mp List.all_takeWhile z hz)
      have h1 : (toDigitL (nextSL s)).takeWhile isDigit <:+: toDigitL (nextSL s) := (List.takeWhile_prefix _).isInfix
      have h2 : toDigitL (nextSL s) <:+: μ.bytes.take e := ((dropWhile_suffix' _ _).trans v1.suf).isInfix
      exact (h1.trans h2).trans (List.take_prefix _ _).isInfix
    rw [wSint_read he w v, readInt_wrapS w v1 hlt]
    simp [sintV, sintR, afterNum]
    rfl

end Pigo
