import Verif.Lemmas.Fp

/-!
# The weight formats: signed integers and floating point literals
-/

namespace Pigo

theorem byte_eq {a b : Byte} (h : a.toNat = b.toNat) : a = b := UInt8.toNat_inj.mp h

/-! ### parsing literals -/

theorem takeSign_text (t : List Byte) : (Spec.takeSign t).1.text ++ (Spec.takeSign t).2 = t := by
  cases t with
  | nil => rfl
  | cons c t =>
    simp only [Spec.takeSign]
    split
    · rename_i h
      have : c = 45 := byte_eq h
      subst this; rfl
    · split
      · rename_i h
        have : c = 43 := byte_eq h
        subst this; rfl
      · rfl

theorem takeFrac_text (t : List Byte) : Spec.Lit.fracText (Spec.takeFrac t).1 ++ (Spec.takeFrac t).2 = t := by
  cases t with
  | nil => rfl
  | cons c t =>
    simp only [Spec.takeFrac]
    split
    · rename_i h
      have : c = 46 := byte_eq h
      subst this
      show 46 :: (t.takeWhile _ ++ t.dropWhile _) = _
      rw [List.takeWhile_append_dropWhile]
    · rfl

theorem takeFrac_digits (t : List Byte) (f : List Byte) (h : (Spec.takeFrac t).1 = some f) :
    f.all Spec.isDigit = true := by
  cases t with
  | nil => simp [Spec.takeFrac] at h
  | cons c t =>
    simp only [Spec.takeFrac] at h
    split at h
    · simp at h; subst h; exact List.all_takeWhile
    · simp at h

theorem parseLit_ok {t : List Byte} {l : Spec.Lit} (h : Spec.parseLit t = some l) : l.Ok ∧ l.text = t := by
  unfold Spec.parseLit at h
  simp only at h
  have hs := takeSign_text t
  generalize Spec.takeSign t = s at h hs
  have hf := takeFrac_text (s.2.dropWhile Spec.isDigit)
  have hd := takeFrac_digits (s.2.dropWhile Spec.isDigit)
  have htd : s.2.takeWhile Spec.isDigit ++ s.2.dropWhile Spec.isDigit = s.2 := List.takeWhile_append_dropWhile
  have hall : (s.2.takeWhile Spec.isDigit).all Spec.isDigit = true := List.all_takeWhile
  generalize Spec.takeFrac (s.2.dropWhile Spec.isDigit) = f at h hf hd
  generalize s.2.dropWhile Spec.isDigit = dr at *
  generalize s.2.takeWhile Spec.isDigit = a at *
  split at h
  · simp at h
  · rename_i hne
    have hne' : a ≠ [] ∨ ∃ g, f.1 = some g ∧ g ≠ [] := by
      by_cases ha : a = []
      · right
        cases hf1 : f.1 with
        | none => exact absurd ⟨ha, .inl hf1⟩ hne
        | some g => exact ⟨g, rfl, fun hg => hne ⟨ha, .inr (by rw [hf1, hg])⟩⟩
      · exact .inl ha
    split at h
    · rename_i hf2
      injection h with h; subst h
      refine ⟨⟨hall, hd, hne', by simp⟩, ?_⟩
      rw [hf2] at hf
      simp only [Spec.Lit.text, Spec.Lit.expText, hf, htd, hs]
    · rename_i c u hf2
      split at h
      · rename_i hx
        injection h with h; subst h
        refine ⟨⟨hall, hd, hne', ?_⟩, ?_⟩
        · intro _ s' ds he
          simp at he
          obtain ⟨_, _, rfl⟩ := he
          exact ⟨hx.2.2, hx.2.1⟩
        · have hu := takeSign_text u
          simp only [Spec.Lit.text, Spec.Lit.expText, hu]
          have : str (if decide (c.toNat = 'E'.toNat) = true then "E" else "e") ++ u = c :: u := by
            rcases hx.1 with hc | hc
            · have : c = 101 := byte_eq hc
              subst this; rfl
            · have : c = 69 := byte_eq hc
              subst this; rfl
          rw [this, ← hf2, hf, htd, hs]
      · simp at h

/-! ### the formats -/

variable {V : Type}

theorem isFp_nl : isFp nl = false := by decide

theorem com_not_fp {b : Byte} (h : isCom b = true) : isFp b = false := by
  simp only [isCom, Bool.or_eq_true, beq_iff_eq] at h
  rcases h with rfl | rfl <;> decide

theorem suffix_nl {a b : List Byte} (rest : List Byte) (hs : a <:+ b) : a ++ nl :: rest <:+ b ++ nl :: rest := by
  obtain ⟨t, ht⟩ := hs; exact ⟨t, by rw [← ht]; simp⟩

theorem lit_head (l : Spec.Lit) (hl : l.Ok) (r : List Byte) : ∃ c s, l.text ++ r = c :: s ∧ isFp c = true := by
  obtain ⟨sg, int, frac, exp⟩ := l
  obtain ⟨h1, h2, h3, h4⟩ := hl
  simp only at h1 h3
  match sg with
  | some true => exact ⟨45, _, rfl, by decide⟩
  | some false => exact ⟨43, _, rfl, by decide⟩
  | none =>
    cases int with
    | cons c t =>
      refine ⟨c, _, rfl, isFp_digit ?_⟩
      rw [← isDigit_spec]; exact List.all_eq_true.mp h1 c (List.mem_cons_self ..)
    | nil =>
      rcases h3 with h3 | ⟨f, hf, _⟩
      · exact absurd rfl h3
      · subst hf; exact ⟨46, _, rfl, by decide⟩

theorem format_fp (lw : Nat) (ops : FpOps V) :
    FormatOk lw (wFp ops) (Spec.entryF (evalLit ops)) (fun _ => True) := by
  intro l hn en he _
  unfold Spec.entryF Spec.entryW at he
  split at he
  · rename_i x y t ts htok
    split at he
    · rename_i hxy
      simp only at he
      cases hp : Spec.parseLit t with
      | none => rw [hp] at he; simp at he
      | some lit =>
        rw [hp] at he
        simp at he; subst he
        obtain ⟨hok, htext⟩ := parseLit_ok hp
        refine lineLaw_of_tokens hn htok hxy.1 hxy.2 (fun bl r _ hbl hrr _ _ hnn μ e rest v hr => ?_)
        have hstop : ∀ b s, r ++ nl :: rest = b :: s → isFp b = false := by
          intro b s h
          cases r with
          | nil => injection h with h; subst h; exact isFp_nl
          | cons c r =>
            injection h with h; subst h
            rcases hrr _ _ rfl with h | h
            · exact (blank_not h).2.2.2.1
            · exact com_not_fp h
        have e1 : bl ++ t ++ r ++ nl :: rest = bl ++ (lit.text ++ (r ++ nl :: rest)) := by
          rw [htext]; simp
        have e2 : r <:+ bl ++ t ++ r := List.suffix_append _ _
        have v1 : View μ e (lit.text ++ (r ++ nl :: rest)) := by rw [e1] at v; exact v.append
        have v2 : View μ e (r ++ nl :: rest) := v1.append
        have hskip : moveToFp μ (rd e (bl ++ t ++ r ++ nl :: rest)) = .ok (rd e (lit.text ++ (r ++ nl :: rest))) := by
          rw [moveToFp_eq v, e1]
          obtain ⟨c, s, hc, hcf⟩ := lit_head lit hok (r ++ nl :: rest)
          congr 2
          refine (takeWhile_word (fun b => !isFp b) bl _ ?_ ?_).2
          · intro b hb; simp [(blank_not (hbl b hb)).2.2.2.1]
          · intro b s' h; rw [hc] at h; injection h with h; subst h; simp [hcf]
        have hst : Stops μ e (r ++ nl :: rest) := by
          refine ⟨hstop, ?_⟩
          cases hh : r ++ nl :: rest with
          | nil => simp at hh
          | cons b s =>
            rw [hh] at v2
            exact at_cons v2 (hstop b s hh)
        have hnon : moveToNonFp μ (rd e (r ++ nl :: rest)) = .ok (rd e (r ++ nl :: rest)) := by
          rw [moveToNonFp_eq v2]
          cases hh : r ++ nl :: rest with
          | nil => simp at hh
          | cons b s => simp [hstop b s hh]
        constructor
        · refine ⟨r, e2, ?_⟩
          simp only [wFp, hskip, ok_bind]
          rw [readFp_lit ops lit hok _ v1 hst]
          simp only [ok_bind, hnon]
        · simp only [wFp, hskip, ok_bind]
          refine ⟨(t ++ r).dropWhile isFp, ?_, ?_⟩
          · refine (dropWhile_suffix' _ _).trans ?_
            rw [List.append_assoc]; exact List.suffix_append _ _
          · rw [moveToNonFp_eq v1, htext, ← List.append_assoc, dropWhile_append_nl _ isFp_nl]
    · simp at he
  · simp at he

theorem isSign_nl : isSign nl = false := by decide

/-- A signed decimal: what is before and what are the digits. -/
theorem parseSigned_cases {t : List Byte} {w : Int} (h : Spec.parseSigned t = some w) :
    ∃ sg ds, t = sg ++ ds ∧ ds ≠ [] ∧ (∀ b ∈ ds, isDigit b = true) ∧
      ((sg = [45] ∧ w = -(decVal ds : Int)) ∨ (sg = [43] ∧ w = (decVal ds : Int)) ∨ (sg = [] ∧ w = (decVal ds : Int))) := by
  have hall : ∀ {ds : List Byte}, ds.all Spec.isDigit = true → ∀ b ∈ ds, isDigit b = true := by
    intro ds h b hb; rw [← isDigit_spec]; exact List.all_eq_true.mp h b hb
  cases t with
  | nil => simp [Spec.parseSigned] at h
  | cons c ds =>
    simp only [Spec.parseSigned] at h
    split at h
    · rename_i hc
      have : c = 45 := byte_eq hc
      subst this
      split at h
      · rename_i hd
        injection h with h
        exact ⟨[45], ds, rfl, hd.1, hall hd.2, .inl ⟨rfl, by rw [← h, decimal_eq]⟩⟩
      · simp at h
    · split at h
      · rename_i hc
        have : c = 43 := byte_eq hc
        subst this
        split at h
        · rename_i hd
          injection h with h
          exact ⟨[43], ds, rfl, hd.1, hall hd.2, .inr (.inl ⟨rfl, by rw [← h, decimal_eq]⟩)⟩
        · simp at h
      · split at h
        · rename_i hd
          injection h with h
          exact ⟨[], c :: ds, rfl, by simp, hall hd, .inr (.inr ⟨rfl, by rw [← h, decimal_eq]⟩)⟩
        · simp at h

theorem format_sint (lw ww : Nat) :
    FormatOk lw (wSint ww) Spec.entryS (fun en => en.2.2.natAbs < 2 ^ (ww - 1)) := by
  intro l hn en he hlt
  unfold Spec.entryS Spec.entryW at he
  split at he
  · rename_i x y t ts htok
    split at he
    · rename_i hxy
      cases hp : Spec.parseSigned t with
      | none => rw [hp] at he; simp at he
      | some w =>
        rw [hp] at he
        simp at he; subst he
        simp only at hlt
        obtain ⟨sg, ds, ht, hne, hds, hcase⟩ := parseSigned_cases hp
        refine lineLaw_of_tokens hn htok hxy.1 hxy.2 (fun bl r hblne hbl hrr _ _ hnn μ e rest v hr => ?_)
        have hstop : ∀ b s, r ++ nl :: rest = b :: s → isDigit b = false := by
          intro b s h
          cases r with
          | nil => injection h with h; subst h; exact isDigit_nl
          | cons c r =>
            injection h with h; subst h
            rcases hrr _ _ rfl with h | h
            · exact (blank_not h).1
            · exact isCom_not_digit h
        obtain ⟨b0, bl', rfl⟩ : ∃ b0 bl', bl = b0 :: bl' := by
          cases bl with
          | nil => exact absurd rfl hblne
          | cons c t => exact ⟨c, t, rfl⟩
        have hb0 := blank_not (hbl b0 (List.mem_cons_self ..))
        obtain ⟨d0, ds', rfl⟩ : ∃ d0 ds', ds = d0 :: ds' := by
          cases ds with
          | nil => exact absurd rfl hne
          | cons c t => exact ⟨c, t, rfl⟩
        have hd0 := hds d0 (List.mem_cons_self ..)
        have e1 : b0 :: bl' ++ t ++ r ++ nl :: rest = b0 :: bl' ++ (sg ++ (d0 :: ds' ++ (r ++ nl :: rest))) := by
          rw [ht]; simp
        have e2 : t ++ r <:+ b0 :: bl' ++ t ++ r := by
          rw [List.append_assoc]; exact List.suffix_append _ _
        have hmv : moveToNextSignedInt μ (rd e (b0 :: bl' ++ t ++ r ++ nl :: rest)) =
            .ok (rd e (t ++ r ++ nl :: rest)) := by
          have hb : μ.get (rd e (b0 :: bl' ++ t ++ r ++ nl :: rest)).d = .ok b0 := View.get_d v
          rw [moveToNextSignedInt, hb, ok_bind]
          simp only [hb0.2.2.1]
          rw [if_neg (by simp), moveToNonInt_eq v, ok_bind]
          have hdw : (b0 :: bl' ++ t ++ r ++ nl :: rest).dropWhile isDigit = b0 :: bl' ++ t ++ r ++ nl :: rest := by
            simp [hb0.1]
          rw [hdw, skip_first_eq _ hr v, e1, toStop_blanks _ _ _ _ hbl]
          · congr 2
            rcases hcase with ⟨rfl, _⟩ | ⟨rfl, _⟩ | ⟨rfl, _⟩
            · subst ht; simp [toStop.eq_3, isCom, isSign]
            · subst ht; simp [toStop.eq_3, isCom, isSign]
            · subst ht; simp [toStop.eq_3, isDigit_not_com hd0, hd0]
          · intro b hb; simp [(blank_not hb).1, (blank_not hb).2.2.1]
        have v1 : View μ e (t ++ r ++ nl :: rest) := v.of_suffix (suffix_nl _ e2)
        constructor
        · refine ⟨r, List.suffix_append _ _, ?_⟩
          simp only [wSint, hmv, ok_bind]
          have hdig : toDigitL (t ++ r ++ nl :: rest) = d0 :: ds' ++ (r ++ nl :: rest) := by
            rcases hcase with ⟨rfl, _⟩ | ⟨rfl, _⟩ | ⟨rfl, _⟩ <;> subst ht <;>
              simp [toDigitL, hd0, show isDigit 45 = false by decide, show isDigit 43 = false by decide]
          obtain ⟨k1, k2⟩ := takeWhile_word isDigit (d0 :: ds') (r ++ nl :: rest) hds hstop
          have hval : decVal (d0 :: ds') < 2 ^ (ww - 1) := by
            rcases hcase with ⟨_, h⟩ | ⟨_, h⟩ | ⟨_, h⟩ <;> subst h <;> simpa using hlt
          have hneg : readNeg μ (rd e (t ++ r ++ nl :: rest)) = .ok (t.head? == some 45) := by
            have : ∀ c s, t = c :: s → readNeg μ (rd e (t ++ r ++ nl :: rest)) = .ok (c == 45) := by
              intro c s h
              subst h
              have hb : μ.get (rd e (c :: s ++ r ++ nl :: rest)).d = .ok c := View.get_d v1
              rw [readNeg, hb, ok_bind]
            cases t with
            | nil => rcases hcase with ⟨rfl, _⟩ | ⟨rfl, _⟩ | ⟨rfl, _⟩ <;> simp at ht
            | cons c s => rw [this c s rfl]; simp
          rw [hneg, ok_bind, readInt_wrapS ww v1 (by rw [hdig, k1]; exact hval), hdig, k1, k2]
          simp only [ok_bind]
          have hd45 : d0 ≠ 45 := by rintro rfl; revert hd0; decide
          rcases hcase with ⟨rfl, h⟩ | ⟨rfl, h⟩ | ⟨rfl, h⟩ <;> subst h <;> subst ht <;> simp [hd45]
        · exact ⟨t ++ r, e2, hmv⟩
    · simp at he
  · simp at he

end Pigo
