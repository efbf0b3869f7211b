import Verif.Lemmas.WeightedExec
import Verif.Lemmas.Fp

/-!
# Loading arbitrary bytes with flags and any kind of weights

Every read stays inside of the file; what the threads store is fixed before any of them stores, so whether a store
lies outside of the arrays does not depend on the schedule.
-/

namespace Pigo

variable {W : Type} {μ : Mapping} {e : Nat}

/-- Skipping and reading a weight stays inside of the text of the thread; if `ov` the value may overflow. -/
structure SafeW (ov : Prop) (wk : WKind W) (μ : Mapping) (e : Nat) : Prop where
  count : ∀ s, View μ e s → ∃ s', s' <:+ s ∧ wk.count μ (rd e s) = .ok (rd e s')
  read : ∀ s, View μ e s → (ov ∧ wk.read μ (rd e s) = .error .overflow) ∨ ∃ v s', s' <:+ s ∧ wk.read μ (rd e s) = .ok (v, rd e s')

theorem digit_facts {b : Byte} (h : isDigit b = true ∨ b = 0) : (b == 45) = false ∧ (b == 43) = false ∧ (b == 46) = false ∧ (b == 101) = false ∧ (b == 69) = false ∧
    isSign b = false ∧ isCom b = false := by
  rcases h with h | rfl
  · have := digit_ne h
    have h1 : isCom b = false := isDigit_not_com h
    simp [this, h1, isSign]
  · decide

theorem safe_none : SafeW False wNone μ e := ⟨fun s _ => ⟨s, List.suffix_refl _, rfl⟩, fun s _ => .inr ⟨(), s, List.suffix_refl _, rfl⟩⟩

theorem safe_uint (hr : Readable μ e) (w : Nat) : SafeW False (wUint w) μ e where
  count s v := ⟨_, nextIntL_suffix s, moveToNextInt_eq v hr⟩
  read s v := by
    obtain ⟨x, s', h, e1⟩ := readInt_any w (v.of_suffix (nextIntL_suffix s))
    refine .inr ⟨x, s', ?_, ?_⟩
    · rw [e1]; exact (toDigitL_suffix _).trans (nextIntL_suffix s)
    · show (do let r ← moveToNextInt μ (rd e s); let (v, r) ← readInt μ (wrapU w) r; .ok (v, r)) = _
      rw [moveToNextInt_eq v hr, ok_bind, h]; rfl

theorem moveToNextSignedInt_any (he : EndB μ e) {s : List Byte} (v : View μ e s) : ∃ s', s' <:+ s ∧ moveToNextSignedInt μ (rd e s) = .ok (rd e s') := by
  have hr := he.readable
  have rest : ∀ t, View μ e t → (do
      let r ← moveToNonInt μ (rd e t)
      let r ← skipIfCom μ r
      firstN μ (fun b => isDigit b || isSign b) (r.e - r.d) r) = .ok (rd e (toStop (fun b => isDigit b || isSign b) false (t.dropWhile isDigit))) := by
    intro t vt
    rw [moveToNonInt_eq vt, ok_bind]
    exact skip_first_eq _ hr (vt.of_suffix (dropWhile_suffix' _ _))
  have suf : ∀ t : List Byte, toStop (fun b => isDigit b || isSign b) false (t.dropWhile isDigit) <:+ t := fun t =>
    (toStop_suffix _ _ _).trans (dropWhile_suffix' _ _)
  cases s with
  | nil =>
    obtain ⟨b, hb, h⟩ := he
    refine ⟨_, suf [], ?_⟩
    unfold moveToNextSignedInt
    have : μ.get (rd e []).d = .ok b := hb
    rw [this, ok_bind]
    simp only [(digit_facts h).2.2.2.2.2.1, Bool.false_eq_true, if_false]
    exact rest [] v
  | cons c t =>
    unfold moveToNextSignedInt
    rw [v.get_d, ok_bind]
    by_cases hc : isSign c
    · refine ⟨_, (suf t).trans (List.suffix_cons _ _), ?_⟩
      simp only [hc, if_true]
      rw [v.adv]
      exact rest t v.tail
    · refine ⟨_, suf (c :: t), ?_⟩
      simp only [hc, Bool.false_eq_true, if_false]
      exact rest (c :: t) v

theorem digitsM_wrapS_any (w : Nat) : ∀ (s : List Byte) (res : Nat), digitsM (wrapS w) res s = .error .overflow ∨ ∃ x, digitsM (wrapS w) res s = .ok x
  | [], res => .inr ⟨res, rfl⟩
  | c :: s, res => by
    rw [digitsM]
    split
    · unfold wrapS
      split
      · exact digitsM_wrapS_any w s _
      · exact .inl rfl
    · exact .inr ⟨_, rfl⟩

theorem safe_sint (he : EndB μ e) (w : Nat) : SafeW True (wSint w) μ e where
  count s v := moveToNextSignedInt_any he v
  read s v := by
    obtain ⟨s1, hs1, h1⟩ := moveToNextSignedInt_any he v
    have v1 := v.of_suffix hs1
    obtain ⟨b, hb⟩ := v1.get_rd he.readable
    have hread : (wSint w).read μ (rd e s) = (readInt μ (wrapS w) (rd e s1)).bind (fun p => .ok (if (b == 45) = true then -(p.1 : Int) else (p.1 : Int), p.2)) := by
      show (do let r ← moveToNextSignedInt μ (rd e s); let neg ← readNeg μ r; let (v, r) ← readInt μ (wrapS w) r; .ok (if neg then -(v : Int) else (v : Int), r)) = _
      rw [h1, ok_bind]
      unfold readNeg
      rw [hb]
      rfl
    rw [hread, readInt_eq _ v1]
    rcases digitsM_wrapS_any w (toDigitL s1) 0 with h | ⟨x, h⟩
    · rw [h]; exact .inl ⟨trivial, rfl⟩
    · rw [h]
      exact .inr ⟨_, _, (toDigitL_suffix s1).trans hs1, rfl⟩

theorem fpSign_any (he : EndB μ e) {s : List Byte} (v : View μ e s) : ∃ n s', s' <:+ s ∧ fpSign μ (rd e s) = .ok (n, rd e s') := by
  unfold fpSign
  cases s with
  | nil =>
    obtain ⟨b, hb, h⟩ := he
    have : μ.get (rd e []).d = .ok b := hb
    rw [this, ok_bind]
    simp only [(digit_facts h).1, (digit_facts h).2.1, Bool.false_eq_true, if_false]
    exact ⟨_, _, List.suffix_refl _, rfl⟩
  | cons c t =>
    rw [v.get_d, ok_bind, v.adv]
    split
    · exact ⟨_, _, List.suffix_cons _ _, rfl⟩
    · split
      · exact ⟨_, _, List.suffix_cons _ _, rfl⟩
      · exact ⟨_, _, List.suffix_refl _, rfl⟩

theorem fpFrac_any {ops : FpOps W} (he : EndB μ e) {s : List Byte} (v : View μ e s) (res : W) : ∃ n s', s' <:+ s ∧ fpFrac μ ops res (rd e s) = .ok (n, rd e s') := by
  unfold fpFrac
  cases s with
  | nil =>
    obtain ⟨b, hb, h⟩ := he
    have : μ.get (rd e []).d = .ok b := hb
    rw [this, ok_bind]
    simp only [(digit_facts h).2.2.1, Bool.false_eq_true, if_false]
    exact ⟨_, _, List.suffix_refl _, rfl⟩
  | cons c t =>
    rw [v.get_d, ok_bind, v.adv]
    split
    · simp only
      rw [v.tail.sub, fpDigitsN_eq _ _ _ _ _ v.tail (Nat.le_refl _)]
      exact ⟨_, _, (dropWhile_suffix' _ _).trans (List.suffix_cons _ _), rfl⟩
    · exact ⟨_, _, List.suffix_refl _, rfl⟩

theorem readFpN_any {ops : FpOps W} (he : EndB μ e) : ∀ (n : Nat) (s : List Byte), s.length < n → View μ e s →
    ∃ v s', s' <:+ s ∧ readFpN μ ops n (rd e s) = .ok (v, rd e s') := by
  intro n
  induction n with
  | zero => intro s h; omega
  | succ n ih =>
    intro s hn v
    rw [readFpN]
    have v0 := v.of_suffix (dropWhile_suffix' (fun b => !isFp b) s)
    rw [scan_eq _ v, ok_bind]
    obtain ⟨neg, s1, h1, e1⟩ := fpSign_any he v0
    have v1 := v0.of_suffix h1
    rw [e1, ok_bind]
    simp only
    rw [v1.sub, fpDigitsN_eq _ _ _ _ _ v1 (Nat.le_refl _), ok_bind]
    simp only
    have v2 := v1.of_suffix (dropWhile_suffix' isDigit s1)
    obtain ⟨res, s3, h3, e3⟩ := fpFrac_any (ops := ops) he v2 ((s1.takeWhile isDigit).foldl (fun a b => ops.digit a (digitVal b)) ops.zero)
    have v3 := v2.of_suffix h3
    rw [e3, ok_bind]
    simp only
    have hsuf : s3 <:+ s := h3.trans ((dropWhile_suffix' _ _).trans (h1.trans (dropWhile_suffix' _ _)))
    cases s3 with
    | nil =>
      obtain ⟨b, hb, h⟩ := he
      have : μ.get (rd e []).d = .ok b := hb
      rw [this, ok_bind]
      simp only [(digit_facts h).2.2.2.1, (digit_facts h).2.2.2.2.1, Bool.or_self, Bool.false_eq_true, if_false, ok_bind]
      exact ⟨_, _, hsuf, rfl⟩
    | cons c t =>
      rw [v3.get_d, ok_bind]
      split
      · have hl := hsuf.length_le
        simp only [List.length_cons] at hl
        obtain ⟨x, s5, h5, e5⟩ := ih t (by omega) v3.tail
        rw [v3.adv, e5]
        exact ⟨_, _, h5.trans ((List.suffix_cons _ _).trans hsuf), rfl⟩
      · exact ⟨_, _, hsuf, rfl⟩

theorem safe_fp {ops : FpOps W} (he : EndB μ e) : SafeW False (wFp ops) μ e where
  count s v := by
    refine ⟨_, (dropWhile_suffix' isFp _).trans (dropWhile_suffix' (fun b => !isFp b) s), ?_⟩
    show (do let r ← moveToFp μ (rd e s); moveToNonFp μ r) = _
    rw [moveToFp_eq v, ok_bind, moveToNonFp_eq (v.of_suffix (dropWhile_suffix' _ _))]
  read s v := by
    have v0 := v.of_suffix (dropWhile_suffix' (fun b => !isFp b) s)
    obtain ⟨x, s1, h1, e1⟩ := readFpN_any (ops := ops) he ((s.dropWhile (fun b => !isFp b)).length + 2) _ (by omega) v0
    refine .inr ⟨x, _, (dropWhile_suffix' isFp s1).trans (h1.trans (dropWhile_suffix' _ _)), ?_⟩
    show (do let r ← moveToFp μ (rd e s); let (v, r) ← readFp μ ops r; let r ← moveToNonFp μ r; .ok (v, r)) = _
    rw [moveToFp_eq v, ok_bind]
    unfold readFp
    rw [v0.sub, e1, ok_bind]
    simp only
    rw [moveToNonFp_eq (v0.of_suffix h1)]
    rfl

end Pigo
