import Verif.Lemmas.SintAny
import Verif.Lemmas.TensorSpec
import Verif.Lemmas.TensorTail

/-!
# A weight at the end of the file is read as it would be before a newline
-/

namespace Pigo

variable {μ : Mapping} {e : Nat}

/-- The second text is the first one, perhaps with a newline behind it. -/
def OneNl (s s' : List Byte) : Prop := s' = s ∨ s' = s ++ [nl]

theorem OneNl.dropWhile (p : Byte → Bool) {s s' : List Byte} (h : OneNl s s') : OneNl (s.dropWhile p) (s'.dropWhile p) := by
  rcases h with rfl | rfl
  · exact .inl rfl
  · induction s with
    | nil =>
      rw [List.nil_append, List.dropWhile_cons]
      split
      · exact .inl rfl
      · exact .inr rfl
    | cons c s ih =>
      rw [List.cons_append, List.dropWhile_cons, List.dropWhile_cons]
      split
      · exact ih
      · exact .inr rfl

theorem OneNl.takeWhile {p : Byte → Bool} (hp : p nl = false) {s s' : List Byte} (h : OneNl s s') : s'.takeWhile p = s.takeWhile p := by
  rcases h with rfl | rfl
  · rfl
  · induction s with
    | nil => simp [hp]
    | cons c s ih =>
      rw [List.cons_append, List.takeWhile_cons, List.takeWhile_cons, ih]

/-- Either both texts begin with the same character, or nothing but a newline is left. -/
theorem OneNl.cases {s s' : List Byte} (h : OneNl s s') : (s = [] ∧ (s' = [] ∨ s' = [nl])) ∨ ∃ c t t', s = c :: t ∧ s' = c :: t' ∧ OneNl t t' := by
  rcases h with rfl | rfl
  · cases s' with
    | nil => exact .inl ⟨rfl, .inl rfl⟩
    | cons c t => exact .inr ⟨c, t, t, rfl, rfl, .inl rfl⟩
  · cases s with
    | nil => exact .inl ⟨rfl, .inr rfl⟩
    | cons c t => exact .inr ⟨c, t, t ++ [nl], rfl, rfl, .inr rfl⟩

/-! ## Signed integers -/

theorem OneNl.sign {s s' : List Byte} (h : OneNl s s') : OneNl (signL s) (signL s') := by
  rcases h.cases with ⟨rfl, rfl | rfl⟩ | ⟨c, t, t', rfl, rfl, ht⟩
  · exact .inl rfl
  · exact .inr rfl
  · simp only [signL]
    by_cases hc : isSign c
    · rw [if_pos hc, if_pos hc]; exact ht
    · rw [if_neg hc, if_neg hc]
      rcases ht with rfl | rfl
      · exact .inl rfl
      · exact .inr rfl

theorem OneNl.toStop {p : Byte → Bool} (hp : p nl = false) {s s' : List Byte} (h : OneNl s s') (b : Bool) : OneNl (toStop p b s) (toStop p b s') := by
  rcases h with rfl | rfl
  · exact .inl rfl
  · induction s generalizing b with
    | nil => cases b <;> simp [Pigo.toStop, OneNl, hp, show isCom nl = false by decide]
    | cons c s ih =>
      cases b with
      | true =>
        rw [List.cons_append, Pigo.toStop, Pigo.toStop]
        split <;> exact ih _
      | false =>
        rw [List.cons_append, Pigo.toStop, Pigo.toStop]
        split
        · exact ih _
        · split
          · exact .inr rfl
          · exact ih _

theorem OneNl.nextS {s s' : List Byte} (h : OneNl s s') : OneNl (nextSL s) (nextSL s') :=
  (h.sign.dropWhile _).toStop (by decide) _

theorem OneNl.toDigit {s s' : List Byte} (h : OneNl s s') : OneNl (toDigitL s) (toDigitL s') := h.dropWhile _

theorem OneNl.sintV {s s' : List Byte} (h : OneNl s s') : sintV s' = sintV s := by
  have h1 := h.nextS
  have h2 : ((nextSL s').head? = some 45) ↔ ((nextSL s).head? = some 45) := by
    rcases h1.cases with ⟨e1, e2 | e2⟩ | ⟨c, t, t', e1, e2, _⟩ <;> rw [e1, e2] <;> simp [nl]
  unfold Pigo.sintV
  rw [h1.toDigit.takeWhile (by decide)]
  by_cases hh : (nextSL s).head? = some 45
  · rw [if_pos hh, if_pos (h2.mpr hh)]
  · rw [if_neg hh, if_neg (fun h => hh (h2.mp h))]

theorem OneNl.digits (wrap : Nat → M Nat) {s s' : List Byte} (h : OneNl s s') (res : Nat) : digitsM wrap res s' = digitsM wrap res s := by
  rcases h with rfl | rfl
  · rfl
  · induction s generalizing res with
    | nil => simp [digitsM, show isDigit nl = false by decide]
    | cons c s ih =>
      rw [List.cons_append, digitsM, digitsM]
      split
      · congr 1
        funext x
        exact ih x
      · rfl

theorem sint_end {w : Nat} {tail : List Byte} {x : Int} (h : WTail (wSint w) tail x) (he : EndB μ e) (v : View μ e tail) : WEnd (wSint w) μ e tail x := by
  obtain ⟨⟨u', _, h1⟩, _⟩ := h ⟨tail ++ [nl], 1⟩ (tail ++ [nl]).length [] (View.full _) (by unfold Readable; simp)
  have ve : EndB ⟨tail ++ [nl], 1⟩ (tail ++ [nl]).length := endB_file (μ := ⟨tail ++ [nl], 1⟩) (by simp)
  have vv : View ⟨tail ++ [nl], 1⟩ (tail ++ [nl]).length (tail ++ [nl]) := View.full _
  have hone : OneNl tail (tail ++ [nl]) := .inr rfl
  have hx : x = sintV tail := by
    have := (wSint_val w).val vv ve h1
    rw [← hone.sintV]
    exact congrArg Prod.fst this
  rw [wSint_read ve w vv, readInt_eq _ (vv.of_suffix (nextSL_suffix _)), hone.nextS.toDigit.digits] at h1
  cases hd : digitsM (wrapS w) 0 (toDigitL (nextSL tail)) with
  | error f => rw [hd] at h1; cases h1
  | ok y =>
    have hr : ∃ p, (wSint w).read μ (rd e tail) = .ok p := by
      rw [wSint_read he w v, readInt_eq _ (v.of_suffix (nextSL_suffix _)), hd]
      exact ⟨_, rfl⟩
    obtain ⟨p, hp⟩ := hr
    have := (wSint_val w).val v he hp
    exact ⟨sintR tail, sintR_suffix _, by rw [hp, this, hx]⟩

/-! ## Floating point numbers -/

variable {V : Type} (ops : FpOps V)

theorem OneNl.fpSign {s s' : List Byte} (h : OneNl s s') : (fpSignL s').1 = (fpSignL s).1 ∧ OneNl (fpSignL s).2 (fpSignL s').2 := by
  rcases h.cases with ⟨rfl, rfl | rfl⟩ | ⟨c, t, t', rfl, rfl, ht⟩
  · exact ⟨rfl, .inl rfl⟩
  · exact ⟨by decide, .inr (by decide)⟩
  · simp only [fpSignL]
    by_cases hc : (c == 45) = true
    · simp only [if_pos hc]; exact ⟨trivial, ht⟩
    · by_cases hc' : (c == 43) = true
      · simp only [if_neg hc, if_pos hc']; exact ⟨trivial, ht⟩
      · simp only [if_neg hc, if_neg hc']
        refine ⟨trivial, ?_⟩
        rcases ht with rfl | rfl
        · exact .inl rfl
        · exact .inr rfl

theorem OneNl.fpFrac (res : V) {s s' : List Byte} (h : OneNl s s') :
    (fpFracL ops res s').1 = (fpFracL ops res s).1 ∧ OneNl (fpFracL ops res s).2 (fpFracL ops res s').2 := by
  rcases h.cases with ⟨rfl, rfl | rfl⟩ | ⟨c, t, t', rfl, rfl, ht⟩
  · exact ⟨rfl, .inl rfl⟩
  · have : ¬ (nl == 46) = true := by decide
    simp only [fpFracL, if_neg this]
    exact ⟨trivial, .inr rfl⟩
  · simp only [fpFracL]
    by_cases hc : (c == 46) = true
    · simp only [if_pos hc]
      rw [ht.takeWhile (by decide)]
      exact ⟨rfl, ht.dropWhile _⟩
    · simp only [if_neg hc]
      refine ⟨trivial, ?_⟩
      rcases ht with rfl | rfl
      · exact .inl rfl
      · exact .inr rfl

theorem OneNl.fp : ∀ (n n' : Nat) {s s' : List Byte}, OneNl s s' → s.length < n → s'.length < n' →
    (fpL ops n' s').1 = (fpL ops n s).1 ∧ OneNl (fpL ops n s).2 (fpL ops n' s').2 := by
  intro n
  induction n with
  | zero => intro n' s s' _ h; omega
  | succ n ih =>
    intro n' s s' h hn hn'
    cases n' with
    | zero => omega
    | succ n' =>
      rw [fpL, fpL]
      dsimp only
      have l0 := h.dropWhile (fun b => !isFp b)
      obtain ⟨s1, s2⟩ := l0.fpSign
      have l3 := (s2.dropWhile isDigit).fpFrac ops (fpDigits ops ((fpSignL (s.dropWhile (fun b => !isFp b))).2.takeWhile isDigit))
      have z1 : (fpFracL ops (fpDigits ops ((fpSignL (s.dropWhile (fun b => !isFp b))).2.takeWhile isDigit)) ((fpSignL (s.dropWhile (fun b => !isFp b))).2.dropWhile isDigit)).2.length ≤ s.length :=
        ((fpFracL_suffix ops _ _).trans ((dropWhile_suffix' _ _).trans ((fpSignL_suffix _).trans (dropWhile_suffix' _ _)))).length_le
      have z2 : (fpFracL ops (fpDigits ops ((fpSignL (s.dropWhile (fun b => !isFp b))).2.takeWhile isDigit)) ((fpSignL (s'.dropWhile (fun b => !isFp b))).2.dropWhile isDigit)).2.length ≤ s'.length :=
        ((fpFracL_suffix ops _ _).trans ((dropWhile_suffix' _ _).trans ((fpSignL_suffix _).trans (dropWhile_suffix' _ _)))).length_le
      rw [s1, s2.takeWhile (p := isDigit) (by decide), l3.1]
      generalize (fpSignL (s.dropWhile (fun b => !isFp b))).1 = neg
      generalize fpFracL ops (fpDigits ops ((fpSignL (s.dropWhile (fun b => !isFp b))).2.takeWhile isDigit)) ((fpSignL (s.dropWhile (fun b => !isFp b))).2.dropWhile isDigit) = A at *
      generalize (fpFracL ops (fpDigits ops ((fpSignL (s.dropWhile (fun b => !isFp b))).2.takeWhile isDigit)) ((fpSignL (s'.dropWhile (fun b => !isFp b))).2.dropWhile isDigit)).2 = B at *
      obtain ⟨res, A⟩ := A
      simp only at l3 z1 ⊢
      rcases l3.2.cases with ⟨rfl, rfl | rfl⟩ | ⟨c, t, t', rfl, rfl, ht⟩
      · exact ⟨rfl, .inl rfl⟩
      · have : ¬ (nl == 101 || nl == 69) = true := by decide
        simp only [if_neg this]
        exact ⟨trivial, .inr rfl⟩
      · simp only [List.length_cons] at z1 z2
        by_cases hc : (c == 101 || c == 69) = true
        · simp only [if_pos hc]
          obtain ⟨i1, i2⟩ := ih n' ht (by omega) (by omega)
          rw [i1]
          exact ⟨rfl, i2⟩
        · simp only [if_neg hc]
          refine ⟨trivial, ?_⟩
          rcases ht with rfl | rfl
          · exact .inl rfl
          · exact .inr rfl

theorem OneNl.fpV {s s' : List Byte} (h : OneNl s s') : fpV ops s' = fpV ops s :=
  (OneNl.fp ops _ _ (h.dropWhile (fun b => !isFp b)) (by omega) (by omega)).1

theorem fp_end {tail : List Byte} {x : V} (h : WTail (wFp ops) tail x) (he : EndB μ e) (v : View μ e tail) : WEnd (wFp ops) μ e tail x := by
  obtain ⟨⟨u', _, h1⟩, _⟩ := h ⟨tail ++ [nl], 1⟩ (tail ++ [nl]).length [] (View.full _) (by unfold Readable; simp)
  have ve : EndB ⟨tail ++ [nl], 1⟩ (tail ++ [nl]).length := endB_file (μ := ⟨tail ++ [nl], 1⟩) (by simp)
  have vv : View ⟨tail ++ [nl], 1⟩ (tail ++ [nl]).length (tail ++ [nl]) := View.full _
  have hone : OneNl tail (tail ++ [nl]) := .inr rfl
  rw [(wFp_any ops _).read vv ve] at h1
  have hx : x = fpV ops tail := by
    injection h1 with h1
    rw [← hone.fpV ops]
    exact (congrArg Prod.fst h1).symm
  exact ⟨fpR ops tail, (wFp_any ops μ).suffix _, by rw [(wFp_any ops μ).read v he, hx]⟩

/-- A weight of any kind. -/
theorem TFormat.wend {W : Type} {wk : WKind W} {entry : Nat → List Byte → Option (List Nat × W)} {wp : List Nat × W → Prop} (hf : TFormat wk entry wp)
    (hw : wk.wgt = true) {tail : List Byte} {x : W} (h : WTail wk tail x) (hn : nl ∉ tail) (hs : tail.dropWhile isDigit = tail) (hne : firstIntL tail ≠ [])
    (he : EndB μ e) (v : View μ e tail) : WEnd wk μ e tail x := by
  cases hf with
  | none => cases hw
  | uint ww => exact uint_end h hn hs hne he.readable v
  | sint ww => exact sint_end h he v
  | float ops => exact fp_end ops h he v

end Pigo
