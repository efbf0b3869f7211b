import Verif.Lemmas.EdgeFile

/-!
# `read_el_` on arbitrary bytes (no assumption on the content), unweighted
-/

namespace Pigo

variable {μ : Mapping} {e : Nat}

/-! ### where the regions are -/

theorem toStop_after_nl (b : Bool) (x t : List Byte) : firstIntL t <:+ toStop isDigit b (x ++ nl :: t) := by
  induction x generalizing b with
  | nil =>
    cases b
    · simp [toStop, isCom_nl, isDigit_nl]
    · simp [toStop]
  | cons c x ih =>
    cases b
    · rw [List.cons_append, toStop]
      split
      · exact ih true
      · split
        · refine (toStop_suffix _ _ _).trans ?_
          exact ⟨c :: x ++ [nl], by simp⟩
        · exact ih false
    · rw [List.cons_append, toStop]
      split
      · exact ih false
      · exact ih true

theorem dropWhile_mono (P : Byte → Bool) {s t : List Byte} (h : t <:+ s) : t.dropWhile P <:+ s.dropWhile P := by
  obtain ⟨a, rfl⟩ := h
  induction a with
  | nil => exact List.suffix_refl _
  | cons c a ih =>
    rw [List.cons_append, List.dropWhile_cons]
    split
    · exact ih
    · exact (dropWhile_suffix' _ _).trans ⟨c :: a, by simp⟩

theorem eolL_cases (s : List Byte) : eolL s = [] ∨ ∃ t, eolL s = nl :: t := by
  cases h : eolL s with
  | nil => exact .inl rfl
  | cons c t =>
    have := List.head?_dropWhile_not (p := fun b => b != nl) (l := s)
    rw [show s.dropWhile (fun b => b != nl) = c :: t from h] at this
    simp at this
    exact .inr ⟨t, by rw [this]⟩

/-- text from the first integer of the line after position `s` -/
abbrev nextLineL (s : List Byte) : List Byte := nextIntL (eolL s)

theorem nextLine_first {s t : List Byte} (h : t <:+ s) : nextLineL t <:+ firstIntL s := by
  unfold nextLineL
  rcases eolL_cases t with h1 | ⟨t', h1⟩
  · rw [h1]; exact List.nil_suffix
  · rw [h1, nextIntL_nl]
    have : nl :: t' <:+ s := by rw [← h1]; exact (dropWhile_suffix' _ _).trans h
    obtain ⟨x, hx⟩ := this
    rw [← hx]
    exact toStop_after_nl false x t'

theorem nextLine_mono {s t : List Byte} (h : t <:+ s) : nextLineL t <:+ nextLineL s := by
  unfold nextLineL
  have hm : eolL t <:+ eolL s := dropWhile_mono _ h
  rcases eolL_cases t with h1 | ⟨t', h1⟩
  · rw [h1]; exact List.nil_suffix
  · rcases eolL_cases s with h2 | ⟨s', h2⟩
    · rw [h1, h2] at hm; simp at hm
    · rw [h1, h2, nextIntL_nl, nextIntL_nl]
      rw [h1, h2, List.suffix_cons_iff] at hm
      rcases hm with h | ⟨x, hx⟩
      · injection h with _ h; subst h; exact List.suffix_refl _
      · rw [← hx]; exact toStop_after_nl false x t'

/-- Start of the text of thread `tid`. -/
def startL (s : List Byte) (T tid : Nat) : List Byte :=
  if tid = 0 then firstIntL s else nextLineL (s.drop (cut s.length T tid))

theorem startL_mono (s : List Byte) (T tid : Nat) : startL s T (tid+1) <:+ startL s T tid := by
  unfold startL
  rw [if_neg (by omega)]
  split
  · exact nextLine_first (List.drop_suffix _ _)
  · apply nextLine_mono
    obtain ⟨k, hk⟩ : ∃ k, cut s.length T (tid+1) = cut s.length T tid + k :=
      ⟨_, (Nat.add_sub_cancel' (cut_mono _ _ (Nat.le_succ tid))).symm⟩
    rw [hk, ← List.drop_drop]
    exact List.drop_suffix _ _

theorem startL_digit {s : List Byte} {T tid : Nat} : ∀ c t, startL s T tid = c :: t → isDigit c = true := by
  intro c t h
  unfold startL at h
  split at h
  · exact (toStop_head isDigit false s c t h).1
  · exact (toStop_head isDigit false _ c t h).1

theorem nextLineInt_eq {s} (v : View μ e s) (hr : Readable μ e) :
    nextLineInt μ (rd e s) = .ok (rd e (nextLineL s)) := by
  rw [nextLineInt, moveToEol_eq v, ok_bind, moveToNextInt_eq (v.of_suffix (dropWhile_suffix' _ _)) hr]

/-- The region of a thread. -/
theorem elRegion_any {s : List Byte} (v : View μ e s) (hr : Readable μ e) {T tid : Nat} (hT : tid < T) :
    ∃ R, startL s T tid = R ++ startL s T (tid+1) ∧
      elRegion μ (rd e s) T tid = .ok (rd (e - (startL s T (tid+1)).length) R) ∧
      View μ (e - (startL s T (tid+1)).length) R ∧ Readable μ (e - (startL s T (tid+1)).length) := by
  obtain ⟨R, hR⟩ := startL_mono s T tid
  have vs : View μ e (startL s T tid) := by
    refine v.of_suffix ?_
    unfold startL
    split
    · exact toStop_suffix _ _ _
    · exact (toStop_suffix _ _ _).trans ((dropWhile_suffix' _ _).trans ((dropWhile_suffix' _ _).trans (List.drop_suffix _ _)))
  rw [← hR] at vs
  refine ⟨R, hR.symm, ?_, vs.shrink, ?_⟩
  · unfold elRegion
    rw [size_rd v]
    have h1 := plus_rd v (cut_le s.length T (tid+1) (by omega))
    have h2 := plus_rd v (cut_le s.length T tid (by omega))
    unfold cut at h1 h2
    rw [h1, h2, nextLineInt_eq (v.of_suffix (List.drop_suffix _ _)) hr, ok_bind]
    have hs : elStart μ (rd e (s.drop (tid * s.length / T))) tid = .ok (rd e (startL s T tid)) := by
      unfold elStart startL
      by_cases h0 : tid = 0
      · subst h0
        simp [moveToFirstInt_eq v hr]
      · rw [if_pos h0, if_neg h0, nextLineInt_eq (v.of_suffix (List.drop_suffix _ _)) hr]
        rfl
    rw [hs, ok_bind, ← hR]
    have : nextLineL (s.drop ((tid + 1) * s.length / T)) = startL s T (tid+1) := by
      unfold startL; rw [if_neg (by omega)]; rfl
    rw [this]
    have := smallerEnd_rd vs
    rw [this]
  · unfold Readable at *; omega

/-! ### one entry -/

/-- A store inside `[lo, hi)`, to `x_` or `y_`. -/
def actIn {W : Type} (lo hi : Nat) : Act W → Prop
  | .setX i _ => lo ≤ i ∧ i < hi
  | .setY i _ => lo ≤ i ∧ i < hi
  | .setW .. => False
  | .copyW .. => False

theorem actIn_mono {W : Type} {lo hi lo' hi' : Nat} (h1 : lo' ≤ lo) (h2 : hi ≤ hi') (a : Act W) (h : actIn lo hi a) :
    actIn lo' hi' a := by
  cases a <;> simp only [actIn] at * <;> omega

/-- Both passes handled the same stretch of text, pass 2 with at most as many positions as pass 1 counted. -/
structure Step (e : Nat) (pos : Nat) (st : SetSt Unit) (s : List Byte)
    (cr : M (Nat × Reader)) (sr : M (SetSt Unit × Reader)) : Prop where
  ex : ∃ k k' s' st', cr = .ok (pos + k, rd e s') ∧ sr = .ok (st', rd e s') ∧ k' ≤ k ∧ (s' ≠ [] → k' = k) ∧
    st'.pos = st.pos + k' ∧ (∃ as, st'.acts = st.acts ++ as ∧ ∀ a ∈ as, actIn st.pos (st.pos + k') a) ∧
    s' <:+ s ∧ k + s'.length ≤ s.length ∧ (s ≠ [] → s'.length < s.length) ∧ (∀ c t, s' = c :: t → isDigit c = true)

theorem readInt_any (lw : Nat) {s : List Byte} (v : View μ e s) :
    ∃ x s', readInt μ (wrapU lw) (rd e s) = .ok (x, rd e s') ∧ s' = (toDigitL s).dropWhile isDigit :=
  ⟨_, _, readInt_wrapU lw v, rfl⟩

theorem toDigitL_suffix (s : List Byte) : (toDigitL s).dropWhile isDigit <:+ s :=
  (dropWhile_suffix' _ _).trans (dropWhile_suffix' _ _)

/-- reading an integer from a non-empty text consumes something -/
theorem toDigitL_length {c : Byte} {s : List Byte} : ((toDigitL (c :: s)).dropWhile isDigit).length ≤ s.length := by
  by_cases h : isDigit c
  · have : toDigitL (c :: s) = c :: s := by simp [toDigitL, h]
    rw [this, List.dropWhile_cons, if_pos h]
    exact (dropWhile_suffix' _ _).length_le
  · have : toDigitL (c :: s) = toDigitL s := by
      show List.dropWhile _ (c :: s) = _
      rw [List.dropWhile_cons, if_pos (by simpa using h)]
    rw [this]
    exact (toDigitL_suffix s).length_le

theorem nextIntL_suffix (s : List Byte) : nextIntL s <:+ s := (toStop_suffix _ _ _).trans (dropWhile_suffix' _ _)

theorem nextLineL_length {c : Byte} {s : List Byte} : (nextLineL (c :: s)).length ≤ s.length := by
  unfold nextLineL
  rcases eolL_cases (c :: s) with h | ⟨t, h⟩
  · rw [h]; simp [nextIntL, toStop]
  · rw [h, nextIntL_nl]
    have h1 : (eolL (c :: s)).length ≤ (c :: s).length := (dropWhile_suffix' _ _).length_le
    rw [h] at h1
    simp only [List.length_cons] at h1
    have h2 : (firstIntL t).length ≤ t.length := (toStop_suffix isDigit false t).length_le
    omega

theorem entryN_any (lw : Nat) (cfg : Cfg) (hr : Readable μ e) :
    ∀ (n : Nat) (s : List Byte), s.length < n → View μ e s → ∀ (pos : Nat) (st : SetSt Unit),
    Step e pos st s (countEntryN μ lw cfg wNone n pos (rd e s)) (setEntryN μ lw cfg wNone n st (rd e s)) := by
  intro n
  induction n with
  | zero => intro s h; omega
  | succ n ih =>
    intro s hn v pos st
    obtain ⟨x, s1, h1, e1⟩ := readInt_any lw v
    have v1 : View μ e s1 := v.of_suffix (by rw [e1]; exact toDigitL_suffix s)
    have h2 := moveToNextInt_eq v1 hr
    have v2 : View μ e (nextIntL s1) := v1.of_suffix (nextIntL_suffix _)
    obtain ⟨y, s3, h3, e3⟩ := readInt_any lw v2
    have v3 : View μ e s3 := v2.of_suffix (by rw [e3]; exact toDigitL_suffix _)
    have suf3 : s3 <:+ s := by
      rw [e3]; refine (toDigitL_suffix _).trans ((nextIntL_suffix _).trans ?_)
      rw [e1]; exact toDigitL_suffix s
    have h4 := good_rd v3
    have h5 := moveToEol_eq v3
    have v5 : View μ e (eolL s3) := v3.of_suffix (dropWhile_suffix' _ _)
    have h6 := moveToNextInt_eq v5 hr
    have v6 : View μ e (nextLineL s3) := v5.of_suffix (nextIntL_suffix _)
    have hd6 : ∀ c t, nextLineL s3 = c :: t → isDigit c = true := fun c t h => (toStop_head isDigit false _ c t h).1
    have suf6 : nextLineL s3 <:+ s := (nextIntL_suffix _).trans ((dropWhile_suffix' _ _).trans suf3)
    simp only [countEntryN, setEntryN, setWgt, h1, ok_bind, h2, h3, wNone, h4]
    cases hs3 : s3 with
    | nil =>
      simp only [List.isEmpty_nil, Bool.not_true, Bool.not_false, if_true]
      refine ⟨0, 0, [], st, by simp, by simp, Nat.le_refl _, fun h => absurd rfl h, by simp, ⟨[], by simp, by simp⟩,
        List.nil_suffix, by simp, ?_, by simp⟩
      intro hne
      cases s with
      | nil => exact absurd rfl hne
      | cons c s => simp
    | cons c3 t3 =>
      rw [hs3] at h5 h6 v6 suf6 hd6 v3 suf3
      -- something was consumed
      have hl3 : t3.length + 3 ≤ s.length := by
        cases s with
        | nil => simp at suf3
        | cons c s =>
          have a1 : s1.length ≤ s.length := by rw [e1]; exact toDigitL_length
          cases hs2 : nextIntL s1 with
          | nil => rw [e3, hs2] at hs3; simp [toDigitL] at hs3
          | cons c2 t2 =>
            have a2 : s3.length ≤ t2.length := by rw [e3, hs2]; exact toDigitL_length
            have a3 := (nextIntL_suffix s1).length_le
            rw [hs2] at a3
            rw [hs3] at a2
            simp only [List.length_cons] at a2 a3 ⊢
            omega
      have hl6 : (nextLineL (c3 :: t3)).length ≤ t3.length := nextLineL_length
      simp only [List.isEmpty_cons, Bool.not_false, Bool.not_true]
      simp only [h5, h6, ok_bind, Bool.false_eq_true, if_false]
      have drop : Step e pos st s (countEntryN μ lw cfg wNone n pos (rd e (nextLineL (c3 :: t3))))
          (setEntryN μ lw cfg wNone n st (rd e (nextLineL (c3 :: t3)))) := by
        obtain ⟨k, k', s', st', i1, i2, i3, i4, i5, i6, i7, i8, i9, i10⟩ :=
          (ih (nextLineL (c3 :: t3)) (by omega) v6 pos st).ex
        refine ⟨k, k', s', st', i1, i2, i3, i4, i5, i6, i7.trans suf6, by omega, ?_, i10⟩
        intro _
        have := i7.length_le
        omega
      split
      · exact drop
      · split
        · exact drop
        · by_cases hp : (cfg.sym && !cfg.ut && x != y) = true
          · have hut : (cfg.sym && cfg.ut && decide (x > y)) = false := by
              simp only [Bool.and_eq_true] at hp
              have := hp.1.2
              cases hu : cfg.ut <;> simp_all
            simp only [hut, hp, if_true, Bool.false_eq_true, if_false]
            refine ⟨2, 2, nextLineL (c3 :: t3), _, by rfl, by rfl, Nat.le_refl _, fun _ => rfl, by rfl,
              ⟨_, by simp only [List.append_assoc]; rfl, ?_⟩, suf6, by omega, fun _ => by omega, hd6⟩
            intro a ha
            simp at ha
            rcases ha with rfl | rfl | rfl | rfl <;> simp only [actIn] <;> omega
          · have hp : (cfg.sym && !cfg.ut && x != y) = false := Bool.eq_false_iff.mpr hp
            have hp' : ∀ a b : Nat, (if (cfg.sym && cfg.ut && decide (x > y)) = true then (y, x) else (x, y)) = (a, b) →
                (cfg.sym && !cfg.ut && a != b) = false := by
              intro a b h
              split at h
              · rename_i hc
                simp only [Bool.and_eq_true] at hc
                simp [hc.1.2]
              · injection h with ha hb; subst ha hb; exact hp
            generalize hab : (if (cfg.sym && cfg.ut && decide (x > y)) = true then (y, x) else (x, y)) = ab
            obtain ⟨a, b⟩ := ab
            have hab' := hp' a b hab
            simp only [hp, hab', Bool.false_eq_true, if_false, List.append_nil]
            refine ⟨1, 1, nextLineL (c3 :: t3), _, by rfl, by rfl, Nat.le_refl _, fun _ => rfl, by rfl,
              ⟨_, by rfl, ?_⟩, suf6, by omega, fun _ => by omega, hd6⟩
            intro q hq
            simp at hq
            rcases hq with rfl | rfl <;> simp only [actIn] <;> omega

theorem entryPlain_any (lw : Nat) (hr : Readable μ e) (s : List Byte) (v : View μ e s)
    (hdig : ∀ c t, s = c :: t → isDigit c = true) (pos : Nat) (st : SetSt Unit) :
    Step e pos st s (countEntryPlain μ pos (rd e s)) (setEntryPlain μ lw wNone st (rd e s)) := by
  obtain ⟨x, s1, h1, e1⟩ := readInt_any lw v
  have htd : toDigitL s = s := by
    cases s with
    | nil => rfl
    | cons c t => simp [toDigitL, hdig c t rfl]
  rw [htd] at e1
  have v1 : View μ e s1 := v.of_suffix (by rw [e1]; exact dropWhile_suffix' _ _)
  have h2 := moveToNextInt_eq v1 hr
  have hc2 := moveToNextInt_eq v hr
  have hns : nextIntL s1 = nextIntL s := by rw [e1, nextIntL_dropWhile]
  rw [hns] at h2
  have v2 : View μ e (nextIntL s) := v.of_suffix (nextIntL_suffix _)
  obtain ⟨y, s3, h3, e3⟩ := readInt_any lw v2
  have v3 : View μ e s3 := v2.of_suffix (by rw [e3]; exact toDigitL_suffix _)
  have hg2 := good_rd v2
  have hg3 := good_rd v3
  have h5 := moveToEol_eq v3
  have hc5 := moveToEol_eq v2
  have v5 : View μ e (eolL s3) := v3.of_suffix (dropWhile_suffix' _ _)
  have vc5 : View μ e (eolL (nextIntL s)) := v2.of_suffix (dropWhile_suffix' _ _)
  have h6 := moveToNextInt_eq v5 hr
  have hc6 := moveToNextInt_eq vc5 hr
  simp only [countEntryPlain, setEntryPlain, setWgt, h1, ok_bind, h2, h3, wNone, hg2, hg3, hc2]
  have hd2 : ∀ c t, nextIntL s = c :: t → isDigit c = true := fun c t h => (toStop_head isDigit false _ c t h).1
  have htd2 : toDigitL (nextIntL s) = nextIntL s := toDigitL_firstInt _ _
  rw [htd2] at e3
  have heol : eolL s3 = eolL (nextIntL s) := by
    rw [e3]
    generalize nextIntL s = u
    induction u with
    | nil => rfl
    | cons a u ih =>
      by_cases ha : isDigit a
      · have : (a != nl) = true := by simpa using isDigit_ne_nl ha
        simp only [List.dropWhile_cons, ha, if_true, this]
        exact ih
      · simp [List.dropWhile_cons, ha]
  cases hs2 : nextIntL s with
  | nil =>
    have hs3 : s3 = [] := by rw [e3, hs2]; rfl
    subst hs3
    simp only [List.isEmpty_nil, Bool.not_true, Bool.not_false, if_true]
    refine ⟨0, 0, [], st, by simp, by simp, Nat.le_refl _, fun h => absurd rfl h, by simp, ⟨[], by simp, by simp⟩,
      List.nil_suffix, by simp, ?_, by simp⟩
    intro hne
    cases s with
    | nil => exact absurd rfl hne
    | cons c s => simp
  | cons c2 t2 =>
    have hlen : t2.length + 2 ≤ s.length := by
      cases s with
      | nil => simp [nextIntL, toStop] at hs2
      | cons c s =>
        have hc : isDigit c = true := hdig c s rfl
        have : nextIntL (c :: s) = nextIntL s := by
          unfold nextIntL; rw [List.dropWhile_cons, if_pos hc]
        have a3 := (nextIntL_suffix s).length_le
        rw [← this, hs2] at a3
        simpa using a3
    rw [hs2] at hc5 hc6
    simp only [List.isEmpty_cons, Bool.not_false, Bool.not_true, Bool.false_eq_true, if_false, hc5, ok_bind, hc6]
    have hl6 : (nextLineL (c2 :: t2)).length ≤ t2.length := nextLineL_length
    have hd6 : ∀ c t, nextLineL (c2 :: t2) = c :: t → isDigit c = true := fun c t h => (toStop_head isDigit false _ c t h).1
    have suf6 : nextLineL (c2 :: t2) <:+ s := by
      refine (nextIntL_suffix _).trans ((dropWhile_suffix' _ _).trans ?_)
      rw [← hs2]; exact nextIntL_suffix s
    cases hs3 : s3 with
    | nil =>
      have hend : nextLineL (c2 :: t2) = [] := by
        unfold nextLineL
        rw [← hs2, ← heol, hs3]; rfl
      simp only [List.isEmpty_nil, Bool.not_true, Bool.not_false, if_true]
      refine ⟨1, 0, [], st, by rw [show nextIntL (eolL (c2 :: t2)) = [] from hend], rfl, by omega, fun h => absurd rfl h, rfl, ⟨[], by simp, by simp⟩, List.nil_suffix,
        by simp; omega, fun _ => by simp; omega, by simp⟩
    | cons c3 t3 =>
      rw [hs3] at h5 h6
      have heq : nextIntL (eolL (c3 :: t3)) = nextLineL (c2 :: t2) := by
        unfold nextLineL; rw [← hs3, heol, hs2]
      simp only [List.isEmpty_cons, Bool.not_false, Bool.not_true, Bool.false_eq_true, if_false, h5, ok_bind, h6, heq]
      refine ⟨1, 1, nextLineL (c2 :: t2), _, rfl, rfl, Nat.le_refl _, fun _ => rfl, rfl, ⟨_, rfl, ?_⟩, suf6,
        by omega, fun _ => by omega, hd6⟩
      intro q hq
      simp at hq
      rcases hq with rfl | rfl <;> simp only [actIn] <;> omega

theorem entry_any (lw : Nat) (cfg : Cfg) (hr : Readable μ e) (s : List Byte) (v : View μ e s)
    (hdig : ∀ c t, s = c :: t → isDigit c = true) (pos : Nat) (st : SetSt Unit) :
    Step e pos st s (countEntry μ lw cfg wNone pos (rd e s)) (setEntry μ lw cfg wNone st (rd e s)) := by
  unfold countEntry setEntry
  split
  · exact entryPlain_any lw hr s v hdig pos st
  · rw [v.sub]; exact entryN_any lw cfg hr _ s (by omega) v pos st

/-- The loops of the two passes over a region. -/
theorem loop_any (lw : Nat) (cfg : Cfg) (hr : Readable μ e) :
    ∀ (n : Nat) (s : List Byte), s.length ≤ n → View μ e s → (∀ c t, s = c :: t → isDigit c = true) →
    ∀ (pos : Nat) (st : SetSt Unit), ∃ k st',
      whileGood (countEntry μ lw cfg wNone) n pos (rd e s) = .ok (pos + k, rd e []) ∧
      whileGood (setEntry μ lw cfg wNone) n st (rd e s) = .ok (st', rd e []) ∧ k ≤ s.length ∧
      ∃ as, st'.acts = st.acts ++ as ∧ ∀ a ∈ as, actIn st.pos (st.pos + k) a := by
  intro n
  induction n with
  | zero =>
    intro s hs v _ pos st
    have : s = [] := List.length_eq_zero_iff.mp (by omega)
    subst this
    refine ⟨0, st, ?_, ?_, by simp, [], by simp, by simp⟩ <;> simp [whileGood, good_rd v]
  | succ n ih =>
    intro s hs v hdig pos st
    cases s with
    | nil => refine ⟨0, st, ?_, ?_, by simp, [], by simp, by simp⟩ <;> simp [whileGood, good_rd v]
    | cons c s =>
      obtain ⟨k, k', s', st', i1, i2, i3, i4, i5, ⟨as, i6, i6'⟩, i7, i8, i9, i10⟩ :=
        (entry_any lw cfg hr (c :: s) v hdig pos st).ex
      have hg : (rd e (c :: s)).good = true := by rw [good_rd v]; rfl
      obtain ⟨k2, st2, j1, j2, j3, as2, j4, j5⟩ := ih s' (by have := i9 (by simp); simp at hs this; omega)
        (v.of_suffix i7) i10 (pos + k) st'
      refine ⟨k + k2, st2, ?_, ?_, by omega, as ++ as2, by rw [j4, i6, List.append_assoc], ?_⟩
      · rw [whileGood, if_pos hg, i1, ok_bind]; simp only; rw [j1, Nat.add_assoc]
      · rw [whileGood, if_pos hg, i2, ok_bind]; exact j2
      · intro a ha
        rcases List.mem_append.mp ha with ha | ha
        · exact actIn_mono (Nat.le_refl _) (by omega) a (i6' a ha)
        · have := j5 a ha
          rw [i5] at this
          exact actIn_mono (by omega) (by omega) a this

/-! ### the whole loader -/

/-- Any list of in-bounds stores can be executed. -/
theorem run_inBounds (acts : List (Act Unit)) (m : Nat) (h : ∀ a ∈ acts, actIn 0 m a) :
    ∀ s : Mem Unit, s.x.length = m → s.y.length = m → ∃ s', runActs stepAct acts s = .ok s' := by
  induction acts with
  | nil => intro s _ _; exact ⟨s, rfl⟩
  | cons a acts ih =>
    intro s hx hy
    have ha := h a (List.mem_cons_self ..)
    have ih := ih (fun b hb => h b (List.mem_cons_of_mem _ hb))
    rw [runActs]
    cases a with
    | setX i v =>
      simp only [actIn] at ha
      simp only [stepAct, store, hx, if_pos ha.2, ok_bind]
      exact ih _ (by simpa using hx) hy
    | setY i v =>
      simp only [actIn] at ha
      simp only [stepAct, store, hy, if_pos ha.2, ok_bind]
      exact ih _ hx (by simpa using hy)
    | setW i v => exact absurd ha (by simp [actIn])
    | copyW d c => exact absurd ha (by simp [actIn])

/-- Text of the region of thread `tid`. -/
def regL (s : List Byte) (T tid : Nat) : List Byte :=
  (startL s T tid).take ((startL s T tid).length - (startL s T (tid+1)).length)

/-- Number of entries pass 1 counts in the region of a thread. -/
def cntL (μ : Mapping) (e lw : Nat) (cfg : Cfg) (s : List Byte) (T tid : Nat) : Nat :=
  match elCount μ lw cfg wNone (rd (e - (startL s T (tid+1)).length) (regL s T tid)) with
  | .ok k => k
  | .error _ => 0

/-- Result of pass 2 of a thread. -/
def setL (μ : Mapping) (e lw : Nat) (cfg : Cfg) (s : List Byte) (T : Nat) (offs : List Nat) (tid : Nat) : SetSt Unit :=
  match elSet μ lw cfg wNone offs (tid, rd (e - (startL s T (tid+1)).length) (regL s T tid)) with
  | .ok st => st
  | .error _ => { pos := 0 }

theorem region_facts {s : List Byte} (v : View μ e s) (hr : Readable μ e) (lw : Nat) (cfg : Cfg) {T tid : Nat}
    (hT : tid < T) (offs : List Nat) :
    elRegion μ (rd e s) T tid = .ok (rd (e - (startL s T (tid+1)).length) (regL s T tid)) ∧
    elCount μ lw cfg wNone (rd (e - (startL s T (tid+1)).length) (regL s T tid)) = .ok (cntL μ e lw cfg s T tid) ∧
    elSet μ lw cfg wNone offs (tid, rd (e - (startL s T (tid+1)).length) (regL s T tid)) =
      .ok (setL μ e lw cfg s T offs tid) ∧
    cntL μ e lw cfg s T tid + (startL s T (tid+1)).length ≤ (startL s T tid).length ∧
    ∀ a ∈ (setL μ e lw cfg s T offs tid).acts,
      actIn (startOf offs tid) (startOf offs tid + cntL μ e lw cfg s T tid) a := by
  obtain ⟨R, h1, h2, h3, h4⟩ := elRegion_any v hr hT
  have hR : regL s T tid = R := by
    unfold regL
    rw [h1]
    simp
  rw [hR]
  have hdig : ∀ c t, R = c :: t → isDigit c = true := by
    intro c t h
    refine startL_digit (s := s) (T := T) (tid := tid) c (t ++ startL s T (tid+1)) ?_
    rw [h1, h]; rfl
  have hc : ∃ k st', elCount μ lw cfg wNone (rd (e - (startL s T (tid+1)).length) R) = .ok k ∧
      elSet μ lw cfg wNone offs (tid, rd (e - (startL s T (tid+1)).length) R) = .ok st' ∧ k ≤ R.length ∧
      ∀ a ∈ st'.acts, actIn (startOf offs tid) (startOf offs tid + k) a := by
    obtain ⟨k, st', i1, i2, i3, as, i4, i5⟩ := loop_any lw cfg h4 R.length R (Nat.le_refl _) h3 hdig 0
      { pos := startOf offs tid }
    refine ⟨k, st', ?_, ?_, i3, ?_⟩
    · unfold elCount; rw [h3.sub, i1]; simp
    · unfold elSet; simp only [h3.sub]; rw [i2]; rfl
    · rw [i4]; simpa using i5
  obtain ⟨k, st', j1, j2, j3, j4⟩ := hc
  have hk : cntL μ e lw cfg s T tid = k := by unfold cntL; rw [hR, j1]
  have hs : setL μ e lw cfg s T offs tid = st' := by unfold setL; rw [hR, j2]
  rw [hk, hs]
  refine ⟨h2, j1, j2, ?_, j4⟩
  rw [h1, List.length_append]; omega

theorem counts_le {s : List Byte} (v : View μ e s) (hr : Readable μ e) (lw : Nat) (cfg : Cfg) (T : Nat) :
    ∀ k, k ≤ T → ((List.range k).map (cntL μ e lw cfg s T)).sum + (startL s T k).length ≤ s.length := by
  intro k
  induction k with
  | zero =>
    intro _
    have : (firstIntL s).length ≤ s.length := (toStop_suffix isDigit false s).length_le
    simpa [startL] using this
  | succ k ih =>
    intro hk
    have ih := ih (by omega)
    have := (region_facts v hr lw cfg (tid := k) (T := T) (by omega) []).2.2.2.1
    rw [List.range_succ, List.map_append, List.sum_append]
    simp only [List.map_cons, List.map_nil, List.sum_cons, List.sum_nil]
    omega

theorem Interleave.mem {α : Type _} {ls : List (List α)} {s : List α} (h : Interleave ls s) :
    ∀ a ∈ s, ∃ l ∈ ls, a ∈ l := by
  intro a ha
  have := h.perm.mem_iff.mp ha
  simpa using this

/-- The plan of `read_el_` on arbitrary bytes, unweighted. -/
theorem readElPlan_any {s : List Byte} (v : View μ e s) (hr : Readable μ e) (lw ow : Nat) (cfg : Cfg) (T : Nat) :
    readElPlan μ lw ow cfg wNone T (rd e s) = .ok (elPlan ow T
      (prefixSums 0 ((List.range T).map (cntL μ e lw cfg s T)))
      ((List.range T).map (setL μ e lw cfg s T (prefixSums 0 ((List.range T).map (cntL μ e lw cfg s T)))))) := by
  have hreg : mapE (elRegion μ (rd e s) T) (List.range T) =
      .ok ((List.range T).map (fun tid => rd (e - (startL s T (tid+1)).length) (regL s T tid))) :=
    mapE_ok _ _ _ (fun tid ht => (region_facts v hr lw cfg (List.mem_range.mp ht) []).1)
  have hcnt : mapE (elCount μ lw cfg wNone)
      ((List.range T).map (fun tid => rd (e - (startL s T (tid+1)).length) (regL s T tid))) =
      .ok ((List.range T).map (cntL μ e lw cfg s T)) := by
    have : ∀ l : List Nat, (∀ tid ∈ l, tid < T) → mapE (elCount μ lw cfg wNone)
      (l.map (fun tid => rd (e - (startL s T (tid+1)).length) (regL s T tid))) = .ok (l.map (cntL μ e lw cfg s T)) := by
      intro l
      induction l with
      | nil => intro _; rfl
      | cons a l ih =>
        intro h
        have ha := (region_facts v hr lw cfg (h a (List.mem_cons_self ..)) []).2.1
        simp only [List.map_cons, mapE, ha, ok_bind, ih (fun t ht => h t (List.mem_cons_of_mem _ ht))]
    exact this _ (fun t ht => List.mem_range.mp ht)
  have hset : mapE (elSet μ lw cfg wNone (prefixSums 0 ((List.range T).map (cntL μ e lw cfg s T))))
      ((List.range T).zip ((List.range T).map (fun tid => rd (e - (startL s T (tid+1)).length) (regL s T tid)))) =
      .ok ((List.range T).map (setL μ e lw cfg s T (prefixSums 0 ((List.range T).map (cntL μ e lw cfg s T))))) := by
    rw [zip_map_self]
    generalize prefixSums 0 ((List.range T).map (cntL μ e lw cfg s T)) = offs
    have : ∀ l : List Nat, (∀ tid ∈ l, tid < T) → mapE (elSet μ lw cfg wNone offs)
      (l.map (fun tid => (tid, rd (e - (startL s T (tid+1)).length) (regL s T tid)))) =
        .ok (l.map (setL μ e lw cfg s T offs)) := by
      intro l
      induction l with
      | nil => intro _; rfl
      | cons a l ih =>
        intro h
        have ha := (region_facts v hr lw cfg (h a (List.mem_cons_self ..)) offs).2.2.1
        simp only [List.map_cons, mapE, ha, ok_bind, ih (fun t ht => h t (List.mem_cons_of_mem _ ht))]
    exact this _ (fun t ht => List.mem_range.mp ht)
  unfold readElPlan
  rw [hreg, ok_bind, hcnt, ok_bind, hset, ok_bind]

/-- Loading arbitrary bytes, unweighted: whatever the file contains, no fault occurs. -/
theorem readEl_safe {s : List Byte} (v : View μ e s) (hr : Readable μ e) (lw ow : Nat) (cfg : Cfg) {T : Nat}
    (hT : 0 < T) (hm : s.length < 2 ^ ow) {out : M (Coo Unit)} (hrun : ReadEl μ lw ow cfg wNone T (rd e s) out) :
    ∃ c, out = .ok c := by
  have hplan := readElPlan_any v hr lw ow cfg T
  unfold ReadEl at hrun
  rw [hplan] at hrun
  obtain ⟨j, sched, hint, rfl⟩ := hrun
  -- the number of allocated entries
  have hsum := counts_le v hr lw cfg T T (Nat.le_refl _)
  have hlen : ((List.range T).map (cntL μ e lw cfg s T)).length = T := by simp
  have hM : (prefixSums 0 ((List.range T).map (cntL μ e lw cfg s T))).getD (T - 1) 0 =
      ((List.range T).map (cntL μ e lw cfg s T)).sum := by
    rw [prefixSums_getD _ _ _ (by rw [hlen]; omega), List.take_of_length_le (by rw [hlen]; omega)]
    omega
  have hbound : ∀ a ∈ sched, actIn 0 ((List.range T).map (cntL μ e lw cfg s T)).sum a := by
    intro a ha
    obtain ⟨l, hl, hal⟩ := hint.mem a ha
    simp only [elPlan, List.mem_map, List.mem_range] at hl
    obtain ⟨st, ⟨tid, htid, rfl⟩, rfl⟩ := hl
    have := (region_facts v hr lw cfg htid (prefixSums 0 ((List.range T).map (cntL μ e lw cfg s T)))).2.2.2.2 a hal
    refine actIn_mono (Nat.zero_le _) ?_ a this
    rw [startOf_eq _ _ (by rw [hlen]; omega)]
    have h1 : ((List.range T).map (cntL μ e lw cfg s T)).take (tid+1) =
        ((List.range T).map (cntL μ e lw cfg s T)).take tid ++ [cntL μ e lw cfg s T tid] := by
      rw [List.take_add_one]
      simp [htid]
    have h2 := List.take_append_drop (tid+1) ((List.range T).map (cntL μ e lw cfg s T))
    have h3 := congrArg List.sum h2
    rw [List.sum_append, h1, List.sum_append] at h3
    simp only [List.sum_cons, List.sum_nil, Nat.add_zero] at h3
    omega
  unfold execPlan
  obtain ⟨mem, hmem⟩ := run_inBounds sched _ hbound (allocCoo false j (((List.range T).map (cntL μ e lw cfg s T)).sum))
    (by simp [allocCoo, alloc]) (by simp [allocCoo, alloc])
  have hmm : (elPlan ow T (prefixSums 0 ((List.range T).map (cntL μ e lw cfg s T)))
      ((List.range T).map (setL μ e lw cfg s T (prefixSums 0 ((List.range T).map (cntL μ e lw cfg s T)))))).m =
      ((List.range T).map (cntL μ e lw cfg s T)).sum := by
    show _ % _ = _
    rw [hM, Nat.mod_eq_of_lt (by omega)]
  rw [hmm, show (wNone : WKind Unit).wgt = false from rfl, hmem]
  exact ⟨_, rfl⟩

end Pigo
