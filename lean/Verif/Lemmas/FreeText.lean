import Verif.Lemmas.Formats

/-!
# Weights among other text

The formats `Spec.entryInS` and `Spec.entryInF`: text between the labels and the weight is passed over.
-/

namespace Pigo

variable {W V : Type}

theorem isSign_spec (b : Byte) : Spec.isSignChar b = isSign b := by
  have : ∀ a : Byte, (b == a) = decide (b.toNat = a.toNat) := by
    intro a
    rw [Bool.eq_iff_iff]
    simp [← UInt8.toNat_inj]
  simp only [Spec.isSignChar, isSign, Bool.decide_or, this]
  rfl

theorem isFp_spec (b : Byte) : Spec.isLitChar b = isFp b := by
  have : ∀ a : Byte, (b == a) = decide (b.toNat = a.toNat) := by
    intro a
    rw [Bool.eq_iff_iff]
    simp [← UInt8.toNat_inj]
  simp only [Spec.isLitChar, isSign_spec, isDigit_spec, isFp, isSign, Bool.decide_or, this]
  change (isDigit b || (decide (b.toNat = 43) || decide (b.toNat = 45)) || (decide (b.toNat = 46) || (decide (b.toNat = 101) || decide (b.toNat = 69)))) =
    (isDigit b || decide (b.toNat = 101) || decide (b.toNat = 69) || decide (b.toNat = 45) || decide (b.toNat = 43) || decide (b.toNat = 46))
  generalize isDigit b = p
  generalize decide (b.toNat = 101) = q
  generalize decide (b.toNat = 69) = r
  generalize decide (b.toNat = 45) = s
  generalize decide (b.toNat = 43) = t
  generalize decide (b.toNat = 46) = u
  revert p q r s t u
  decide

theorem toStop_over (stop : Byte → Bool) (pre s : List Byte) (h : ∀ b ∈ pre, isCom b = false ∧ stop b = false) :
    toStop stop false (pre ++ s) = toStop stop false s := by
  induction pre with
  | nil => rfl
  | cons a pre ih =>
    have ha := h a (List.mem_cons_self ..)
    rw [List.cons_append, toStop.eq_3, ha.1, ha.2]
    simpa using ih (fun b hb => h b (List.mem_cons_of_mem _ hb))

/-- The first integer, in text without comments that has one. -/
theorem firstIntL_plain' {s : List Byte} (com : List Byte) (h : ∀ b ∈ s, isCom b = false) (hne : s.dropWhile (fun b => !isDigit b) ≠ []) :
    firstIntL (s ++ com) = s.dropWhile (fun b => !isDigit b) ++ com := by
  unfold firstIntL
  induction s with
  | nil => simp at hne
  | cons c s ih =>
    have hc := h c (List.mem_cons_self ..)
    rw [List.cons_append, toStop.eq_3, hc, List.dropWhile_cons]
    rw [List.dropWhile_cons] at hne
    cases hd : isDigit c with
    | true => simp
    | false =>
      rw [hd] at hne
      simp only [Bool.false_eq_true, if_false, Bool.not_false, if_true] at hne ⊢
      exact ih (fun b hb => h b (List.mem_cons_of_mem _ hb)) hne

theorem dropWhile_digit_com (s com : List Byte) (hcom : ∀ b r, com = b :: r → isCom b = true) :
    (s ++ com).dropWhile isDigit = s.dropWhile isDigit ++ com := by
  induction s with
  | nil =>
    cases com with
    | nil => rfl
    | cons b r => simp [isCom_not_digit (hcom b r rfl)]
  | cons c s ih =>
    rw [List.cons_append, List.dropWhile_cons, List.dropWhile_cons]
    split
    · exact ih
    · rfl

theorem dropWhile_nil_true {P : Byte → Bool} : ∀ {s : List Byte}, s.dropWhile P = [] → ∀ b ∈ s, P b = true
  | [], _ => by simp
  | c :: s, h => by
    rw [List.dropWhile_cons] at h
    split at h
    · rename_i hc
      intro b hb
      rcases List.mem_cons.mp hb with rfl | hb
      · exact hc
      · exact dropWhile_nil_true h b hb
    · cases h

theorem mem_takeWhile_true {P : Byte → Bool} : ∀ {s : List Byte}, ∀ b ∈ s.takeWhile P, P b = true
  | [] => by simp
  | c :: s => by
    intro b hb
    rw [List.takeWhile_cons] at hb
    split at hb
    · rename_i hc
      rcases List.mem_cons.mp hb with rfl | hb
      · exact hc
      · exact mem_takeWhile_true b hb
    · cases hb

theorem dropWhile_cons_false {P : Byte → Bool} : ∀ {s : List Byte} {b : Byte} {r : List Byte}, s.dropWhile P = b :: r → P b = false
  | [], _, _, h => by cases h
  | c :: s, b, r, h => by
    rw [List.dropWhile_cons] at h
    split at h
    · exact dropWhile_cons_false h
    · rename_i hc
      injection h with h _
      subst h
      simpa using hc

theorem afterInt_eq (s : List Byte) : Spec.afterInt s = (s.dropWhile (fun b => !isDigit b)).dropWhile isDigit := by
  unfold Spec.afterInt
  rw [show Spec.isDigit = isDigit from funext isDigit_spec]

theorem ints_ne_drop {s : List Byte} (hs : ∀ b ∈ s, isCom b = false) {x : Nat} {t : List Nat} (com : List Byte)
    (hcom : ∀ b r, com = b :: r → isCom b = true) (hn : nl ∉ s ++ com) (h : Spec.ints (s ++ com) = x :: t) :
    s.dropWhile (fun b => !isDigit b) ≠ [] := by
  intro hd
  have hall : ∀ b ∈ s, isDigit b = false := by
    intro b hb
    have := dropWhile_nil_true hd b hb
    simpa using this
  refine (ints_cons _ hn _ _ h).1 ?_
  unfold firstIntL
  rw [toStop_over isDigit s com (fun b hb => ⟨hs b hb, hall b hb⟩)]
  cases com with
  | nil => rfl
  | cons b r =>
    have hb := hcom b r rfl
    rw [toStop.eq_3, hb]
    simp only [if_true]
    have hr : nl ∉ r := fun h => hn (by simp [h])
    clear hn h hcom
    induction r with
    | nil => rfl
    | cons c r ih =>
      rw [toStop.eq_2, if_neg (by simp; intro h; exact hr (by simp [h]))]
      exact ih (fun h => hr (by simp [h]))

/-- Where the scanner is after the two labels. -/
theorem afterLabels_eq {l : List Byte} (hn : nl ∉ l) {x y : Nat} {t : List Nat} (h : Spec.ints l = x :: y :: t) :
    ∃ com, (∀ b r, com = b :: r → isCom b = true) ∧ (nextIntL (firstIntL l)).dropWhile isDigit = Spec.afterLabels l ++ com ∧
      (∀ b ∈ Spec.afterLabels l, isCom b = false) ∧ (∀ b r, Spec.afterLabels l = b :: r → isDigit b = false) := by
  obtain ⟨com, hl, hcom⟩ := strip_append l
  have hs : ∀ b ∈ Spec.stripComment l, isCom b = false := by
    intro b hb
    have := mem_takeWhile_true b hb
    rw [isCom_spec] at this
    simpa using this
  generalize hgs : Spec.stripComment l = s at hl hs
  have hn1 := hn
  rw [hl] at hn1
  have hd1 := ints_ne_drop hs com hcom hn1 (hl ▸ h)
  have f1 : firstIntL l = s.dropWhile (fun b => !isDigit b) ++ com := by rw [hl]; exact firstIntL_plain' com hs hd1
  obtain ⟨_, _, h3⟩ := ints_cons l hn x _ h
  rw [f1, dropWhile_digit_com _ com hcom, ← afterInt_eq] at h3
  have hsub : Spec.afterInt s <:+ s := by
    rw [afterInt_eq]; exact (dropWhile_suffix' _ _).trans (dropWhile_suffix' _ _)
  have hs2 : ∀ b ∈ Spec.afterInt s, isCom b = false := fun b hb => hs b (hsub.subset hb)
  have hn2 : nl ∉ Spec.afterInt s ++ com := by
    intro h
    rcases List.mem_append.mp h with h | h
    · exact hn1 (List.mem_append_left _ (hsub.subset h))
    · exact hn1 (List.mem_append_right _ h)
  have hd2 := ints_ne_drop hs2 com hcom hn2 h3
  refine ⟨com, hcom, ?_, ?_, ?_⟩
  · have : nextIntL (firstIntL l) = (Spec.afterInt s).dropWhile (fun b => !isDigit b) ++ com := by
      unfold nextIntL
      rw [f1, dropWhile_digit_com _ com hcom, ← afterInt_eq]
      exact firstIntL_plain' com hs2 hd2
    rw [this, dropWhile_digit_com _ com hcom, ← afterInt_eq, Spec.afterLabels, hgs]
  · intro b hb
    refine hs2 b ?_
    rw [Spec.afterLabels, hgs, afterInt_eq] at hb
    exact ((dropWhile_suffix' _ _).trans (dropWhile_suffix' _ _)).subset hb
  · intro b r hb
    rw [Spec.afterLabels, hgs, afterInt_eq] at hb
    exact dropWhile_cons_false hb

/-- A signed integer after text without digits, signs or comments. -/
theorem wTail_sint {ww : Nat} {bl t r : List Byte} {w : Int} (hblne : bl ≠ [])
    (hbl : ∀ b ∈ bl, isDigit b = false ∧ isCom b = false ∧ isSign b = false) (hp : Spec.parseSigned t = some w)
    (hrr : ∀ b s, r = b :: s → isDigit b = false) (hlt : w.natAbs < 2 ^ (ww - 1)) : WTail (wSint ww) (bl ++ t ++ r) w := by
  obtain ⟨sg, ds, ht, hne, hds, hcase⟩ := parseSigned_cases hp
  intro μ e rest v hr
  have hstop : ∀ b s, r ++ nl :: rest = b :: s → isDigit b = false := by
    intro b s h
    cases r with
    | nil => injection h with h; subst h; exact isDigit_nl
    | cons c r =>
      injection h with h; subst h
      exact hrr _ _ rfl
  obtain ⟨b0, bl', rfl⟩ : ∃ b0 bl', bl = b0 :: bl' := by
    cases bl with
    | nil => exact absurd rfl hblne
    | cons c t => exact ⟨c, t, rfl⟩
  have hb0 := hbl b0 (List.mem_cons_self ..)
  obtain ⟨d0, ds', rfl⟩ : ∃ d0 ds', ds = d0 :: ds' := by
    cases ds with
    | nil => exact absurd rfl hne
    | cons c t => exact ⟨c, t, rfl⟩
  have hd0 := hds d0 (List.mem_cons_self ..)
  have e1 : b0 :: bl' ++ t ++ r ++ nl :: rest = b0 :: bl' ++ (sg ++ (d0 :: ds' ++ (r ++ nl :: rest))) := by
    rw [ht]; simp
  have e2 : t ++ r <:+ b0 :: bl' ++ t ++ r := by
    rw [List.append_assoc]; exact List.suffix_append _ _
  have hmv : moveToNextSignedInt μ (rd e (b0 :: bl' ++ t ++ r ++ nl :: rest)) =
      .ok (rd e (t ++ r ++ nl :: rest)) := by
    have hb : μ.get (rd e (b0 :: bl' ++ t ++ r ++ nl :: rest)).d = .ok b0 := View.get_d v
    rw [moveToNextSignedInt, hb, ok_bind]
    simp only [hb0.2.2]
    rw [if_neg (by simp), moveToNonInt_eq v, ok_bind]
    have hdw : (b0 :: bl' ++ t ++ r ++ nl :: rest).dropWhile isDigit = b0 :: bl' ++ t ++ r ++ nl :: rest := by
      simp [hb0.1]
    rw [hdw, skip_first_eq _ hr v, e1, toStop_over _ _ _ (fun b hb => ⟨(hbl b hb).2.1, by simp [(hbl b hb).1, (hbl b hb).2.2]⟩)]
    · congr 2
      rcases hcase with ⟨rfl, _⟩ | ⟨rfl, _⟩ | ⟨rfl, _⟩
      · subst ht; simp [toStop.eq_3, isCom, isSign]
      · subst ht; simp [toStop.eq_3, isCom, isSign]
      · subst ht; simp [toStop.eq_3, isDigit_not_com hd0, hd0]
  have v1 : View μ e (t ++ r ++ nl :: rest) := v.of_suffix (suffix_nl _ e2)
  constructor
  · refine ⟨r, List.suffix_append _ _, ?_⟩
    simp only [wSint, hmv, ok_bind]
    have hdig : toDigitL (t ++ r ++ nl :: rest) = d0 :: ds' ++ (r ++ nl :: rest) := by
      rcases hcase with ⟨rfl, _⟩ | ⟨rfl, _⟩ | ⟨rfl, _⟩ <;> subst ht <;>
        simp [toDigitL, hd0, show isDigit 45 = false by decide, show isDigit 43 = false by decide]
    obtain ⟨k1, k2⟩ := takeWhile_word isDigit (d0 :: ds') (r ++ nl :: rest) hds hstop
    have hval : decVal (d0 :: ds') < 2 ^ (ww - 1) := by
      rcases hcase with ⟨_, h⟩ | ⟨_, h⟩ | ⟨_, h⟩ <;> subst h <;> simpa using hlt
    have hneg : readNeg μ (rd e (t ++ r ++ nl :: rest)) = .ok (t.head? == some 45) := by
      have : ∀ c s, t = c :: s → readNeg μ (rd e (t ++ r ++ nl :: rest)) = .ok (c == 45) := by
        intro c s h
        subst h
        have hb : μ.get (rd e (c :: s ++ r ++ nl :: rest)).d = .ok c := View.get_d v1
        rw [readNeg, hb, ok_bind]
      cases t with
      | nil => rcases hcase with ⟨rfl, _⟩ | ⟨rfl, _⟩ | ⟨rfl, _⟩ <;> simp at ht
      | cons c s => rw [this c s rfl]; simp
    rw [hneg, ok_bind, readInt_wrapS ww v1 (by rw [hdig, k1]; exact hval), hdig, k1, k2]
    simp only [ok_bind]
    have hd45 : d0 ≠ 45 := by rintro rfl; revert hd0; decide
    rcases hcase with ⟨rfl, h⟩ | ⟨rfl, h⟩ | ⟨rfl, h⟩ <;> subst h <;> subst ht <;> simp [hd45]
  · exact ⟨t ++ r, e2, hmv⟩

/-- A literal after text without characters of literals. -/
theorem wTail_fp (ops : FpOps V) {bl t r : List Byte} {lit : Spec.Lit}
    (hbl : ∀ b ∈ bl, isFp b = false) (hp : Spec.parseLit t = some lit) (hrr : ∀ b s, r = b :: s → isFp b = false) :
    WTail (wFp ops) (bl ++ t ++ r) (evalLit ops lit) := by
  obtain ⟨hok, htext⟩ := parseLit_ok hp
  intro μ e rest v hr
  have hstop : ∀ b s, r ++ nl :: rest = b :: s → isFp b = false := by
    intro b s h
    cases r with
    | nil => injection h with h; subst h; exact isFp_nl
    | cons c r =>
      injection h with h; subst h
      exact hrr _ _ rfl
  have e1 : bl ++ t ++ r ++ nl :: rest = bl ++ (lit.text ++ (r ++ nl :: rest)) := by
    rw [htext]; simp
  have e2 : r <:+ bl ++ t ++ r := List.suffix_append _ _
  have v1 : View μ e (lit.text ++ (r ++ nl :: rest)) := by rw [e1] at v; exact v.append
  have v2 : View μ e (r ++ nl :: rest) := v1.append
  have hskip : moveToFp μ (rd e (bl ++ t ++ r ++ nl :: rest)) = .ok (rd e (lit.text ++ (r ++ nl :: rest))) := by
    rw [moveToFp_eq v, e1]
    obtain ⟨c, s, hc, hcf⟩ := lit_head lit hok (r ++ nl :: rest)
    congr 2
    refine (takeWhile_word (fun b => !isFp b) bl _ ?_ ?_).2
    · intro b hb; simp [hbl b hb]
    · intro b s' h; rw [hc] at h; injection h with h; subst h; simp [hcf]
  have hst : Stops μ e (r ++ nl :: rest) := by
    refine ⟨hstop, ?_⟩
    cases hh : r ++ nl :: rest with
    | nil => simp at hh
    | cons b s =>
      rw [hh] at v2
      exact at_cons v2 (hstop b s hh)
  have hnon : moveToNonFp μ (rd e (r ++ nl :: rest)) = .ok (rd e (r ++ nl :: rest)) := by
    rw [moveToNonFp_eq v2]
    cases hh : r ++ nl :: rest with
    | nil => simp at hh
    | cons b s => simp [hstop b s hh]
  constructor
  · refine ⟨r, e2, ?_⟩
    simp only [wFp, hskip, ok_bind]
    rw [readFp_lit ops lit hok _ v1 hst]
    simp only [ok_bind, hnon]
  · simp only [wFp, hskip, ok_bind]
    refine ⟨(t ++ r).dropWhile isFp, ?_, ?_⟩
    · refine (dropWhile_suffix' _ _).trans ?_
      rw [List.append_assoc]; exact List.suffix_append _ _
    · rw [moveToNonFp_eq v1, htext, ← List.append_assoc, dropWhile_append_nl _ isFp_nl]

/-- Text before a comment or the end of the line, with the comment. -/
theorem head_com {P : Byte → Bool} (hP : ∀ b, isCom b = true → P b = false) {r com : List Byte} (hcom : ∀ b s, com = b :: s → isCom b = true)
    (hr : ∀ b s, r = b :: s → P b = false) : ∀ b s, r ++ com = b :: s → P b = false := by
  intro b s h
  cases r with
  | nil => exact hP b (hcom b s h)
  | cons c r => injection h with h; subst h; exact hr _ _ rfl

/-- The format of `Spec.entryInS`. -/
theorem format_sint_in (lw ww : Nat) :
    FormatOk lw (wSint ww) Spec.entryInS (fun en => en.2.2.natAbs < 2 ^ (ww - 1)) := by
  intro l hn en he hlt
  unfold Spec.entryInS Spec.entryIn at he
  split at he
  · rename_i x y t hx
    obtain ⟨com, hcom, htail, hnc, hnd⟩ := afterLabels_eq hn hx
    generalize hA : Spec.afterLabels l = A at *
    cases hp : Spec.signedIn A with
    | none => rw [hp] at he; simp at he
    | some w =>
      rw [hp] at he
      simp at he; subst he
      refine lineLaw_of_ints hn hx (fun _ _ => ?_)
      rw [htail]
      unfold Spec.signedIn at hp
      rw [show Spec.isDigit = isDigit from funext isDigit_spec, show Spec.isSignChar = isSign from funext isSign_spec] at hp
      split at hp
      · cases hp
      · rename_i hsg
        split at hp
        · cases hp
        · rename_i c u hcu
          have hsplit : A = A.takeWhile (fun b => !(isDigit b || isSign b)) ++ (c :: u) := by
            rw [← hcu, List.takeWhile_append_dropWhile]
          have hpre : ∀ b ∈ A.takeWhile (fun b => !(isDigit b || isSign b)), isDigit b = false ∧ isCom b = false ∧ isSign b = false := by
            intro b hb
            have h1 := mem_takeWhile_true b hb
            have h2 := hnc b ((List.takeWhile_prefix _).subset hb)
            simp only [Bool.not_eq_true', Bool.or_eq_false_iff] at h1
            exact ⟨h1.1, h2, h1.2⟩
          have hne : A.takeWhile (fun b => !(isDigit b || isSign b)) ≠ [] := by
            intro h
            rw [h, List.nil_append] at hsplit
            have h1 : isDigit c = false := hnd c u hsplit
            have h2 : (isDigit c || isSign c) = true := by
              have := dropWhile_cons_false hcu
              revert this
              cases isDigit c <;> cases isSign c <;> simp
            rw [h1, Bool.false_or] at h2
            rw [hsplit] at hsg
            simp [h2] at hsg
          have e : A ++ com = A.takeWhile (fun b => !(isDigit b || isSign b)) ++ (c :: u.takeWhile isDigit) ++ (u.dropWhile isDigit ++ com) := by
            conv => lhs; rw [hsplit, ← List.takeWhile_append_dropWhile (p := isDigit) (l := u)]
            simp only [List.append_assoc, List.cons_append]
          rw [e]
          exact wTail_sint hne hpre hp (head_com (fun b hb => isCom_not_digit hb) hcom (fun b s h => dropWhile_cons_false h)) hlt
  · simp at he

/-- The format of `Spec.entryInF`. -/
theorem format_fp_in (lw : Nat) (ops : FpOps V) :
    FormatOk lw (wFp ops) (Spec.entryInF (evalLit ops)) (fun _ => True) := by
  intro l hn en he _
  unfold Spec.entryInF Spec.entryIn at he
  split at he
  · rename_i x y t hx
    obtain ⟨com, hcom, htail, hnc, _⟩ := afterLabels_eq hn hx
    generalize hA : Spec.afterLabels l = A at *
    simp only at he
    cases hp : Spec.litIn A with
    | none => rw [hp] at he; simp at he
    | some lit =>
      rw [hp] at he
      simp at he; subst he
      refine lineLaw_of_ints hn hx (fun _ _ => ?_)
      rw [htail]
      unfold Spec.litIn at hp
      rw [show Spec.isLitChar = isFp from funext isFp_spec] at hp
      have e : A ++ com = A.takeWhile (fun b => !isFp b) ++ (A.dropWhile (fun b => !isFp b)).takeWhile isFp ++
          ((A.dropWhile (fun b => !isFp b)).dropWhile isFp ++ com) := by
        conv => lhs; rw [← List.takeWhile_append_dropWhile (p := fun b => !isFp b) (l := A),
          ← List.takeWhile_append_dropWhile (p := isFp) (l := A.dropWhile (fun b => !isFp b))]
        simp only [List.append_assoc]
      rw [e]
      refine wTail_fp ops (fun b hb => ?_) hp (head_com (fun b hb => com_not_fp hb) hcom (fun b s h => dropWhile_cons_false h))
      have := mem_takeWhile_true b hb
      simpa using this
  · simp at he

end Pigo
