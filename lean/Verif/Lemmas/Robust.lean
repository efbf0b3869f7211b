import Verif.Lemmas.Safety

/-!
# `read_el_` on arbitrary bytes that do not end in a digit, unweighted

Both passes find the same entries, so that every allocated entry is stored.
-/

namespace Pigo

variable {μ : Mapping} {e : Nat}

/-- The last byte, if any, is not a digit. -/
def EndsOk (s : List Byte) : Prop := ∀ c, s.getLast? = some c → isDigit c = false

theorem EndsOk.suffix {s t : List Byte} (h : EndsOk s) (ht : t <:+ s) : EndsOk t := by
  obtain ⟨p, rfl⟩ := ht
  intro c hc
  refine h c ?_
  cases t with
  | nil => simp at hc
  | cons a t => rw [List.getLast?_append, hc]; rfl

theorem EndsOk.dropDigits {s : List Byte} (h : EndsOk s) (hs : s ≠ []) : s.dropWhile isDigit ≠ [] := by
  induction s with
  | nil => exact absurd rfl hs
  | cons a s ih =>
    cases ha : isDigit a with
    | false => rw [List.dropWhile_cons]; simp [ha]
    | true =>
      rw [List.dropWhile_cons, if_pos ha]
      refine ih (h.suffix ⟨[a], rfl⟩) ?_
      intro hn
      rw [hn] at h
      have := h a rfl
      rw [ha] at this
      cases this

/-- Both passes handled the same entries. -/
structure StepX (e lw : Nat) (cfg : Cfg) (pos : Nat) (st : SetSt Unit) (s : List Byte)
    (cr : M (Nat × Reader)) (sr : M (SetSt Unit × Reader)) : Prop where
  ex : ∃ es s', cr = .ok (pos + total cfg es, rd e s') ∧ sr = .ok (es.foldl (setLine cfg false) st, rd e s') ∧
    (∀ en ∈ es, en.1 < 2 ^ lw ∧ en.2.1 < 2 ^ lw) ∧
    s' <:+ s ∧ total cfg es + s'.length ≤ s.length ∧ (s ≠ [] → s'.length < s.length) ∧ (∀ c t, s' = c :: t → isDigit c = true)

theorem readInt_lt (lw : Nat) {s : List Byte} (v : View μ e s) :
    ∃ x s', readInt μ (wrapU lw) (rd e s) = .ok (x, rd e s') ∧ s' = (toDigitL s).dropWhile isDigit ∧ x < 2 ^ lw :=
  ⟨_, _, readInt_wrapU lw v, rfl, Nat.mod_lt _ (Nat.two_pow_pos _)⟩

theorem total_one (cfg : Cfg) (en : Nat × Nat × Unit) : total cfg [en] = (storedC cfg en).length := by
  simp [total]

theorem stored_le_two (cfg : Cfg) (en : Nat × Nat × Unit) : (storedC cfg en).length ≤ 2 := by
  rcases storedC_shape cfg en with h | ⟨_, _, _, h⟩ | ⟨_, _, _, h⟩ <;> rw [h] <;> simp

theorem entryN_exact (lw : Nat) (cfg : Cfg) (hr : Readable μ e) :
    ∀ (n : Nat) (s : List Byte), s.length < n → View μ e s → EndsOk s → ∀ (pos : Nat) (st : SetSt Unit),
    StepX e lw cfg pos st s (countEntryN μ lw cfg wNone n pos (rd e s)) (setEntryN μ lw cfg wNone n st (rd e s)) := by
  intro n
  induction n with
  | zero => intro s h; omega
  | succ n ih =>
    intro s hn v hok pos st
    obtain ⟨x, s1, h1, e1, hx⟩ := readInt_lt lw v
    have v1 : View μ e s1 := v.of_suffix (by rw [e1]; exact toDigitL_suffix s)
    have h2 := moveToNextInt_eq v1 hr
    have v2 : View μ e (nextIntL s1) := v1.of_suffix (nextIntL_suffix _)
    obtain ⟨y, s3, h3, e3, hy⟩ := readInt_lt lw v2
    have v3 : View μ e s3 := v2.of_suffix (by rw [e3]; exact toDigitL_suffix _)
    have suf3 : s3 <:+ s := by
      rw [e3]; refine (toDigitL_suffix _).trans ((nextIntL_suffix _).trans ?_)
      rw [e1]; exact toDigitL_suffix s
    have h4 := good_rd v3
    have h5 := moveToEol_eq v3
    have v5 : View μ e (eolL s3) := v3.of_suffix (dropWhile_suffix' _ _)
    have h6 := moveToNextInt_eq v5 hr
    have v6 : View μ e (nextLineL s3) := v5.of_suffix (nextIntL_suffix _)
    have hd6 : ∀ c t, nextLineL s3 = c :: t → isDigit c = true := fun c t h => (toStop_head isDigit false _ c t h).1
    have suf6 : nextLineL s3 <:+ s := (nextIntL_suffix _).trans ((dropWhile_suffix' _ _).trans suf3)
    cases hs3 : s3 with
    | nil =>
      rw [hs3] at h3 h4
      simp only [countEntryN, setEntryN, setWgt, h1, ok_bind, h2, h3, wNone, h4]
      simp only [List.isEmpty_nil, Bool.not_true, Bool.not_false, if_true]
      refine ⟨[], [], by simp [total], rfl, by simp, List.nil_suffix, by simp [total], ?_, by simp⟩
      intro hne
      cases s with
      | nil => exact absurd rfl hne
      | cons c s => simp
    | cons c3 t3 =>
      rw [hs3] at h3 h4 h5 h6 v6 suf6 hd6 v3 suf3
      -- something was consumed
      have hl3 : t3.length + 3 ≤ s.length := by
        cases s with
        | nil => simp at suf3
        | cons c s =>
          have a1 : s1.length ≤ s.length := by rw [e1]; exact toDigitL_length
          cases hs2 : nextIntL s1 with
          | nil => rw [e3, hs2] at hs3; simp [toDigitL] at hs3
          | cons c2 t2 =>
            have a2 : s3.length ≤ t2.length := by rw [e3, hs2]; exact toDigitL_length
            have a3 := (nextIntL_suffix s1).length_le
            rw [hs2] at a3
            rw [hs3] at a2
            simp only [List.length_cons] at a2 a3 ⊢
            omega
      have hl6 : (nextLineL (c3 :: t3)).length ≤ t3.length := nextLineL_length
      have hcnt : countEntryN μ lw cfg wNone (n+1) pos (rd e s) =
          if storedC cfg (x, y, ()) = [] then countEntryN μ lw cfg wNone n pos (rd e (nextLineL (c3 :: t3)))
          else .ok (pos + (storedC cfg (x, y, ())).length, rd e (nextLineL (c3 :: t3))) := by
        simp only [countEntryN, h1, ok_bind, h2, h3, wNone, h4, List.isEmpty_cons, Bool.not_false, Bool.not_true, h5, h6]
        clear h1 h2 h3 h4 h5 h6 hd6 suf6 v6 v5 v3 v2 v1 e1 e3 suf3 ih
        obtain ⟨sym, ut, sl⟩ := cfg
        simp only [storedC, Spec.stored]
        cases sym <;> cases ut <;> cases sl <;> rcases Nat.lt_trichotomy x y with hxy | hxy | hxy <;>
          simp_all [Nat.le_of_lt, Nat.not_lt_of_lt, Nat.ne_of_lt, Nat.ne_of_gt, Nat.not_le_of_lt, Nat.lt_irrefl]
      have hset : setEntryN μ lw cfg wNone (n+1) st (rd e s) =
          if storedC cfg (x, y, ()) = [] then setEntryN μ lw cfg wNone n st (rd e (nextLineL (c3 :: t3)))
          else .ok (setLine cfg false st (x, y, ()), rd e (nextLineL (c3 :: t3))) := by
        simp only [setEntryN, setWgt, h1, ok_bind, h2, h3, wNone, h4, List.isEmpty_cons, Bool.not_false, Bool.not_true, h5, h6]
        clear h1 h2 h3 h4 h5 h6 hd6 suf6 v6 v5 v3 v2 v1 e1 e3 suf3 ih hcnt
        obtain ⟨sym, ut, sl⟩ := cfg
        simp only [storedC, Spec.stored, setLine]
        cases sym <;> cases ut <;> cases sl <;> rcases Nat.lt_trichotomy x y with hxy | hxy | hxy <;>
          simp_all [entryActs, Nat.le_of_lt, Nat.min_eq_left, Nat.min_eq_right, Nat.max_eq_left, Nat.max_eq_right,
            Nat.not_lt_of_lt, Nat.ne_of_lt, Nat.ne_of_gt, Nat.not_le_of_lt, Nat.lt_irrefl]
      rw [hcnt, hset]
      by_cases he : storedC cfg (x, y, ()) = []
      · rw [if_pos he, if_pos he]
        obtain ⟨es, s', i1, i2, i3, i4, i5, i6, i7⟩ := (ih (nextLineL (c3 :: t3)) (by omega) v6 (hok.suffix suf6) pos st).ex
        refine ⟨es, s', i1, i2, i3, i4.trans suf6, by omega, ?_, i7⟩
        intro _
        have := i4.length_le
        omega
      · rw [if_neg he, if_neg he]
        have h2' := stored_le_two cfg (x, y, ())
        refine ⟨[(x, y, ())], nextLineL (c3 :: t3), by rw [total_one], rfl, ?_, suf6, by rw [total_one]; omega, fun _ => by omega, hd6⟩
        intro en hen
        rw [List.mem_singleton] at hen
        subst hen
        exact ⟨hx, hy⟩

theorem entryPlain_exact (lw : Nat) (cfg : Cfg) (hp : cfg.plain = true) (hr : Readable μ e) (s : List Byte) (v : View μ e s)
    (hdig : ∀ c t, s = c :: t → isDigit c = true) (hok : EndsOk s) (pos : Nat) (st : SetSt Unit) :
    StepX e lw cfg pos st s (countEntryPlain μ pos (rd e s)) (setEntryPlain μ lw wNone st (rd e s)) := by
  obtain ⟨x, s1, h1, e1, hx⟩ := readInt_lt lw v
  have htd : toDigitL s = s := by
    cases s with
    | nil => rfl
    | cons c t => simp [toDigitL, hdig c t rfl]
  rw [htd] at e1
  have v1 : View μ e s1 := v.of_suffix (by rw [e1]; exact dropWhile_suffix' _ _)
  have h2 := moveToNextInt_eq v1 hr
  have hc2 := moveToNextInt_eq v hr
  have hns : nextIntL s1 = nextIntL s := by rw [e1, nextIntL_dropWhile]
  rw [hns] at h2
  have v2 : View μ e (nextIntL s) := v.of_suffix (nextIntL_suffix _)
  obtain ⟨y, s3, h3, e3, hy⟩ := readInt_lt lw v2
  have v3 : View μ e s3 := v2.of_suffix (by rw [e3]; exact toDigitL_suffix _)
  have hg2 := good_rd v2
  have hg3 := good_rd v3
  have h5 := moveToEol_eq v3
  have hc5 := moveToEol_eq v2
  have v5 : View μ e (eolL s3) := v3.of_suffix (dropWhile_suffix' _ _)
  have vc5 : View μ e (eolL (nextIntL s)) := v2.of_suffix (dropWhile_suffix' _ _)
  have h6 := moveToNextInt_eq v5 hr
  have hc6 := moveToNextInt_eq vc5 hr
  have htd2 : toDigitL (nextIntL s) = nextIntL s := toDigitL_firstInt _ _
  rw [htd2] at e3
  have heol : eolL s3 = eolL (nextIntL s) := by
    rw [e3]
    generalize nextIntL s = u
    induction u with
    | nil => rfl
    | cons a u ih =>
      by_cases ha : isDigit a
      · have : (a != nl) = true := by simpa using isDigit_ne_nl ha
        simp only [List.dropWhile_cons, ha, if_true, this]
        exact ih
      · simp [List.dropWhile_cons, ha]
  simp only [countEntryPlain, setEntryPlain, setWgt, h1, ok_bind, h2, h3, wNone, hg2, hg3, hc2]
  cases hs2 : nextIntL s with
  | nil =>
    have hs3 : s3 = [] := by rw [e3, hs2]; rfl
    subst hs3
    simp only [List.isEmpty_nil, Bool.not_true, Bool.not_false, if_true]
    refine ⟨[], [], by simp [total], rfl, by simp, List.nil_suffix, by simp [total], ?_, by simp⟩
    intro hne
    cases s with
    | nil => exact absurd rfl hne
    | cons c s => simp
  | cons c2 t2 =>
    have hne3 : s3 ≠ [] := by
      rw [e3]
      exact (hok.suffix (nextIntL_suffix s)).dropDigits (by rw [hs2]; simp)
    have hlen : t2.length + 2 ≤ s.length := by
      cases s with
      | nil => simp [nextIntL, toStop] at hs2
      | cons c s =>
        have hc : isDigit c = true := hdig c s rfl
        have : nextIntL (c :: s) = nextIntL s := by
          unfold nextIntL; rw [List.dropWhile_cons, if_pos hc]
        have a3 := (nextIntL_suffix s).length_le
        rw [← this, hs2] at a3
        simpa using a3
    rw [hs2] at hc5 hc6
    simp only [List.isEmpty_cons, Bool.not_false, Bool.not_true, Bool.false_eq_true, if_false, hc5, ok_bind, hc6]
    have hl6 : (nextLineL (c2 :: t2)).length ≤ t2.length := nextLineL_length
    have hd6 : ∀ c t, nextLineL (c2 :: t2) = c :: t → isDigit c = true := fun c t h => (toStop_head isDigit false _ c t h).1
    have suf6 : nextLineL (c2 :: t2) <:+ s := by
      refine (nextIntL_suffix _).trans ((dropWhile_suffix' _ _).trans ?_)
      rw [← hs2]; exact nextIntL_suffix s
    cases hs3 : s3 with
    | nil => exact absurd hs3 hne3
    | cons c3 t3 =>
      rw [hs3] at h5 h6
      have heq : nextIntL (eolL (c3 :: t3)) = nextLineL (c2 :: t2) := by
        unfold nextLineL; rw [← hs3, heol, hs2]
      simp only [List.isEmpty_cons, Bool.not_false, Bool.not_true, Bool.false_eq_true, if_false, h5, ok_bind, h6, heq]
      have hst : storedC cfg (x, y, ()) = [(x, y, ())] := storedC_plain hp _
      refine ⟨[(x, y, ())], nextLineL (c2 :: t2), by rw [total_one, hst]; rfl, ?_, ?_, suf6,
        by rw [total_one, hst]; simp only [List.length_singleton]; omega, fun _ => by omega, hd6⟩
      · simp only [List.foldl_cons, List.foldl_nil, setLine, hst]
        rfl
      · intro en hen
        rw [List.mem_singleton] at hen
        subst hen
        exact ⟨hx, hy⟩

theorem entry_exact (lw : Nat) (cfg : Cfg) (hr : Readable μ e) (s : List Byte) (v : View μ e s)
    (hdig : ∀ c t, s = c :: t → isDigit c = true) (hok : EndsOk s) (pos : Nat) (st : SetSt Unit) :
    StepX e lw cfg pos st s (countEntry μ lw cfg wNone pos (rd e s)) (setEntry μ lw cfg wNone st (rd e s)) := by
  unfold countEntry setEntry
  by_cases hp : cfg.plain = true
  · rw [if_pos hp, if_pos hp]; exact entryPlain_exact lw cfg hp hr s v hdig hok pos st
  · rw [if_neg hp, if_neg hp, v.sub]; exact entryN_exact lw cfg hr _ s (by omega) v hok pos st

/-- The loops of the two passes over a region. -/
theorem loop_exact (lw : Nat) (cfg : Cfg) (hr : Readable μ e) :
    ∀ (n : Nat) (s : List Byte), s.length ≤ n → View μ e s → (∀ c t, s = c :: t → isDigit c = true) → EndsOk s →
    ∀ (pos : Nat) (st : SetSt Unit), ∃ es, (∀ en ∈ es, en.1 < 2 ^ lw ∧ en.2.1 < 2 ^ lw) ∧ total cfg es ≤ s.length ∧
      whileGood (countEntry μ lw cfg wNone) n pos (rd e s) = .ok (pos + total cfg es, rd e []) ∧
      whileGood (setEntry μ lw cfg wNone) n st (rd e s) = .ok (es.foldl (setLine cfg false) st, rd e []) := by
  intro n
  induction n with
  | zero =>
    intro s hs v _ _ pos st
    have : s = [] := List.length_eq_zero_iff.mp (by omega)
    subst this
    refine ⟨[], by simp, by simp [total], ?_, ?_⟩ <;> simp [whileGood, good_rd v, total]
  | succ n ih =>
    intro s hs v hdig hok pos st
    cases s with
    | nil => refine ⟨[], by simp, by simp [total], ?_, ?_⟩ <;> simp [whileGood, good_rd v, total]
    | cons c s =>
      obtain ⟨es, s', i1, i2, i3, i4, i5, i6, i7⟩ := (entry_exact lw cfg hr (c :: s) v hdig hok pos st).ex
      have hg : (rd e (c :: s)).good = true := by rw [good_rd v]; rfl
      obtain ⟨es2, j1, j2, j3, j4⟩ := ih s' (by have := i6 (by simp); simp at hs this; omega)
        (v.of_suffix i4) i7 (hok.suffix i4) (pos + total cfg es) (es.foldl (setLine cfg false) st)
      refine ⟨es ++ es2, ?_, by rw [total_append]; omega, ?_, ?_⟩
      · intro en hen
        rcases List.mem_append.mp hen with h | h
        · exact i3 en h
        · exact j1 en h
      · rw [whileGood, if_pos hg, i1, ok_bind]; simp only; rw [j3, total_append, Nat.add_assoc]
      · rw [whileGood, if_pos hg, i2, ok_bind, List.foldl_append]; exact j4

/-! ### the regions do not end in a digit -/

theorem toStop_before : ∀ (b : Bool) (u : List Byte) (c : Byte) (t : List Byte), toStop isDigit b u = c :: t →
    ∃ pre, u = pre ++ c :: t ∧ (pre = [] → b = false) ∧ EndsOk pre := by
  intro b u
  induction u generalizing b with
  | nil => intro c t h; simp [toStop] at h
  | cons a u ih =>
    intro c t h
    have glue : ∀ pre : List Byte, EndsOk pre → (pre = [] → isDigit a = false) → EndsOk (a :: pre) := by
      intro pre hp h0 d hd
      cases pre with
      | nil => simp at hd; subst hd; exact h0 rfl
      | cons q pre => rw [List.getLast?_cons_cons] at hd; exact hp d hd
    cases b with
    | true =>
      rw [toStop] at h
      by_cases ha : (a == nl) = true
      · rw [if_pos ha] at h
        obtain ⟨pre, h1, _, h3⟩ := ih false c t h
        refine ⟨a :: pre, by rw [h1]; rfl, by simp, glue pre h3 (fun _ => ?_)⟩
        rw [beq_iff_eq.mp ha]; exact isDigit_nl
      · rw [if_neg ha] at h
        obtain ⟨pre, h1, h2, h3⟩ := ih true c t h
        exact ⟨a :: pre, by rw [h1]; rfl, by simp, glue pre h3 (fun h => by cases h2 h)⟩
    | false =>
      rw [toStop] at h
      by_cases ha : isCom a = true
      · rw [if_pos ha] at h
        obtain ⟨pre, h1, h2, h3⟩ := ih true c t h
        exact ⟨a :: pre, by rw [h1]; rfl, by simp, glue pre h3 (fun h => by cases h2 h)⟩
      · rw [if_neg ha] at h
        by_cases hd : isDigit a = true
        · rw [if_pos hd] at h
          refine ⟨[], by rw [h]; rfl, fun _ => rfl, ?_⟩
          intro c hc; simp at hc
        · rw [if_neg hd] at h
          obtain ⟨pre, h1, _, h3⟩ := ih false c t h
          exact ⟨a :: pre, by rw [h1]; rfl, by simp, glue pre h3 (fun _ => by simpa using hd)⟩

theorem EndsOk.append {a b : List Byte} (hb : EndsOk b) (h : b = [] → EndsOk a) : EndsOk (a ++ b) := by
  cases b with
  | nil => rw [List.append_nil]; exact h rfl
  | cons q b =>
    intro c hc
    rw [List.getLast?_append] at hc
    refine hb c ?_
    cases hl : (q :: b).getLast? with
    | none => simp at hl
    | some d => rw [hl] at hc; simpa using hc

/-- What precedes the start of a thread other than the first ends with a non-digit. -/
theorem startL_before {s : List Byte} {T tid : Nat} {c : Byte} {t : List Byte} (h : startL s T (tid+1) = c :: t) :
    ∃ pre, s = pre ++ c :: t ∧ EndsOk pre := by
  unfold startL at h
  rw [if_neg (by omega)] at h
  generalize hk : cut s.length T (tid+1) = k at h
  unfold nextLineL at h
  rcases eolL_cases (s.drop k) with h1 | ⟨t', h1⟩
  · rw [h1] at h; simp [nextIntL, toStop] at h
  · rw [h1, nextIntL_nl] at h
    obtain ⟨pre, h2, _, h3⟩ := toStop_before false t' c t h
    have : nl :: t' <:+ s := by rw [← h1]; exact (dropWhile_suffix' _ _).trans (List.drop_suffix _ _)
    obtain ⟨p, hp⟩ := this
    refine ⟨p ++ nl :: pre, by rw [← hp, h2]; simp, ?_⟩
    have : EndsOk (nl :: pre) := by
      intro d hd
      cases pre with
      | nil => simp at hd; subst hd; exact isDigit_nl
      | cons q pre => rw [List.getLast?_cons_cons] at hd; exact h3 d hd
    exact EndsOk.append this (fun h => by cases h)

theorem region_ends {s R : List Byte} {T tid : Nat} (hs : EndsOk s) (h : startL s T tid = R ++ startL s T (tid+1))
    (hsuf : startL s T tid <:+ s) : EndsOk R := by
  cases hn : startL s T (tid+1) with
  | nil =>
    rw [hn, List.append_nil] at h
    rw [h] at hsuf
    exact hs.suffix hsuf
  | cons c t =>
    obtain ⟨pre, h1, h2⟩ := startL_before hn
    rw [h, hn, h1] at hsuf
    obtain ⟨q, hq⟩ := hsuf
    rw [← List.append_assoc] at hq
    have : q ++ R = pre := List.append_cancel_right hq
    exact h2.suffix ⟨q, this⟩

theorem startL_suffix (s : List Byte) (T tid : Nat) : startL s T tid <:+ s := by
  unfold startL
  split
  · exact toStop_suffix _ _ _
  · exact (toStop_suffix _ _ _).trans ((dropWhile_suffix' _ _).trans ((dropWhile_suffix' _ _).trans (List.drop_suffix _ _)))

/-! ### the whole loader -/

theorem mapE_mapX {α β γ : Type} (f : α → β) (h : β → M γ) (k : α → γ) : ∀ (l : List α),
    (∀ a ∈ l, h (f a) = .ok (k a)) → mapE h (l.map f) = .ok (l.map k) := by
  intro l hh
  induction l with
  | nil => rfl
  | cons a l ih =>
    rw [List.map_cons, mapE, hh a (List.mem_cons_self ..), ok_bind, ih (fun b hb => hh b (List.mem_cons_of_mem _ hb))]; rfl

variable {W : Type}

/-- The plan, when every thread handles the entries `seg tid` in both passes. -/
theorem plan_of_segs {lw ow : Nat} {wk : WKind W} (cfg : Cfg) {T : Nat} (hT : 0 < T) (r : Reader) (regs : Nat → Reader)
    (seg : Nat → List (Nat × Nat × W)) (hreg : ∀ tid, tid < T → elRegion μ r T tid = .ok (regs tid))
    (hcnt : ∀ tid, tid < T → elCount μ lw cfg wk (regs tid) = .ok (total cfg (seg tid)))
    (hset : ∀ tid, tid < T → elSet μ lw cfg wk (prefixSums 0 ((List.range T).map (fun tid => total cfg (seg tid)))) (tid, regs tid) =
      .ok ((seg tid).foldl (setLine cfg wk.wgt)
        ({ pos := startOf (prefixSums 0 ((List.range T).map (fun tid => total cfg (seg tid)))) tid } : SetSt W))) :
    readElPlan μ lw ow cfg wk T r = .ok
      { m := total cfg ((List.range T).map seg).flatten % 2 ^ ow
        threads := actsThreads cfg wk.wgt 0 ((List.range T).map seg)
        mr := Spec.maxOf ((prims cfg ((List.range T).map seg).flatten).map (·.1))
        mc := Spec.maxOf ((prims cfg ((List.range T).map seg).flatten).map (·.2.1)) } := by
  unfold readElPlan
  rw [mapE_ok _ _ _ (fun tid ht => hreg tid (List.mem_range.mp ht)), ok_bind,
    mapE_mapX _ _ _ _ (fun tid ht => hcnt tid (List.mem_range.mp ht)), ok_bind, zip_map_self,
    mapE_mapX _ _ _ _ (fun tid ht => hset tid (List.mem_range.mp ht)), ok_bind]
  have hstart : ∀ tid, tid < T → startOf (prefixSums 0 ((List.range T).map (fun tid => total cfg (seg tid)))) tid =
      total cfg (((List.range tid).map seg).flatten) := by
    intro tid ht
    rw [startOf_eq _ _ (by simp; omega), ← List.map_take, List.take_range, Nat.min_eq_left (by omega)]
    exact total_range cfg seg tid
  have hl : (List.range T).map (fun tid => (seg tid).foldl (setLine cfg wk.wgt)
        ({ pos := startOf (prefixSums 0 ((List.range T).map (fun tid => total cfg (seg tid)))) tid } : SetSt W)) =
      (List.range T).map (fun tid => (seg tid).foldl (setLine cfg wk.wgt)
        ({ pos := total cfg (((List.range tid).map seg).flatten) } : SetSt W)) :=
    List.map_congr_left (fun tid ht => by rw [hstart tid (List.mem_range.mp ht)])
  rw [hl]
  clear hl hstart hset hcnt hreg
  have hmax : ∀ (f : SetSt W → Nat) (k : Nat × Nat × W → Nat),
      (∀ es (st : SetSt W), f st = 0 → f (es.foldl (setLine cfg wk.wgt) st) = Spec.maxOf ((prims cfg es).map k)) →
      (∀ n, f { pos := n } = 0) →
      ((List.range T).map (fun tid => (seg tid).foldl (setLine cfg wk.wgt)
        ({ pos := total cfg (((List.range tid).map seg).flatten) } : SetSt W))).foldl (fun a s => max a (f s)) 0 =
      Spec.maxOf ((prims cfg ((List.range T).map seg).flatten).map k) := by
    intro f k hf h0
    generalize T = N
    induction N with
    | zero => simp [prims, Spec.maxOf]
    | succ N ih =>
      rw [List.range_succ, List.map_append, List.foldl_append, ih, List.map_append, List.flatten_append]
      simp only [List.map_cons, List.map_nil, List.foldl_cons, List.foldl_nil, List.flatten_cons,
        List.flatten_nil, List.append_nil]
      rw [hf _ _ (h0 _)]
      unfold prims
      rw [List.filterMap_append, List.map_append, maxOf_append]
  unfold elPlan
  congr 1
  congr 1
  · rw [prefixSums_getD _ _ _ (by simp; omega)]
    rw [show T - 1 + 1 = T by omega, List.take_of_length_le (by simp)]
    rw [total_range, Nat.zero_add]
  · rw [List.map_map]
    have := actsThreads_eq_map cfg wk.wgt seg T 0 0
    rw [← List.range_eq_range'] at this
    rw [this]
    apply List.map_congr_left
    intro t _
    simp only [Function.comp_apply, foldl_setLine_acts, List.nil_append, Nat.sub_zero, Nat.zero_add,
      ← List.range_eq_range']
  · exact hmax (·.mr) (·.1) (fun es st h => by simp [(foldl_setLine_max cfg wk.wgt es st).1, h]) (fun _ => rfl)
  · exact hmax (·.mc) (·.2.1) (fun es st h => by simp [(foldl_setLine_max cfg wk.wgt es st).2, h]) (fun _ => rfl)

/-- Executing such a plan, in any order, gives exactly the COO of the entries. -/
theorem exec_of_plan {lw ow : Nat} {wk : WKind W} (cfg : Cfg) {T : Nat} {r : Reader} (gs : List (List (Nat × Nat × W)))
    (hplan : readElPlan μ lw ow cfg wk T r = .ok
      { m := total cfg gs.flatten % 2 ^ ow
        threads := actsThreads cfg wk.wgt 0 gs
        mr := Spec.maxOf ((prims cfg gs.flatten).map (·.1))
        mc := Spec.maxOf ((prims cfg gs.flatten).map (·.2.1)) })
    (hm : total cfg gs.flatten < 2 ^ ow) (out : M (Coo W)) (hrun : ReadEl μ lw ow cfg wk T r out) :
    out = .ok (cooOf lw cfg wk.wgt gs.flatten) := by
  unfold ReadEl at hrun
  rw [hplan] at hrun
  obtain ⟨j, sched, hint, rfl⟩ := hrun
  unfold execPlan
  simp only at hint ⊢
  rw [interleave_eq_flatten stepAct hint (actsThreads_commute cfg wk.wgt gs 0), actsThreads_flatten,
    Nat.mod_eq_of_lt hm,
    run_actsOf cfg wk.wgt (total cfg gs.flatten) _ 0 _ (alloc_sized _ j _) (by omega), ok_bind]
  obtain ⟨f1, f2, f3⟩ := writeAt_full wk.wgt (gs.flatten.flatMap (storedC cfg))
    (allocCoo wk.wgt j (total cfg gs.flatten)) (alloc_sized _ j _)
  unfold cooOf
  congr 1
  rw [f1, f2]
  have hn : ∀ a b : Nat, (if a > b then a else b) = max a b := by intro a b; split <;> omega
  simp only [hn]
  congr 1
  cases hw : wk.wgt with
  | true => rw [hw] at f3; rw [f3 rfl]; rfl
  | false => rw [writeAt_w_false]; rfl

/-- Loading arbitrary bytes that do not end in a digit, unweighted: for a given number of threads the result is the COO of some
entries, whatever the fresh memory contains and whatever the interleaving. -/
theorem readEl_exact {s : List Byte} (v : View μ e s) (hr : Readable μ e) (hok : EndsOk s) (lw ow : Nat) (cfg : Cfg) {T : Nat}
    (hT : 0 < T) (hm : s.length < 2 ^ ow) :
    ∃ es : List (Nat × Nat × Unit), (∀ en ∈ es, en.1 < 2 ^ lw ∧ en.2.1 < 2 ^ lw) ∧ total cfg es ≤ s.length ∧
      ∀ out, ReadEl μ lw ow cfg wNone T (rd e s) out → out = .ok (cooOf lw cfg false es) := by
  have hex : ∀ tid, ∃ es : List (Nat × Nat × Unit), tid < T → ((∀ en ∈ es, en.1 < 2 ^ lw ∧ en.2.1 < 2 ^ lw) ∧
      elCount μ lw cfg wNone (rd (e - (startL s T (tid+1)).length) (regL s T tid)) = .ok (total cfg es) ∧
      elSet μ lw cfg wNone (prefixSums 0 ((List.range T).map (cntL μ e lw cfg s T)))
        (tid, rd (e - (startL s T (tid+1)).length) (regL s T tid)) =
        .ok (es.foldl (setLine cfg false) { pos := startOf (prefixSums 0 ((List.range T).map (cntL μ e lw cfg s T))) tid })) := by
    intro tid
    by_cases ht : tid < T
    · obtain ⟨R, h1, h2, h3, h4⟩ := elRegion_any v hr ht
      have hR : regL s T tid = R := by
        unfold regL
        rw [h1]
        simp
      have hdig : ∀ c t, R = c :: t → isDigit c = true := by
        intro c t h
        refine startL_digit (s := s) (T := T) (tid := tid) c (t ++ startL s T (tid+1)) ?_
        rw [h1, h]; rfl
      obtain ⟨es, i1, _, i3, i4⟩ := loop_exact lw cfg h4 R.length R (Nat.le_refl _) h3 hdig (region_ends hok h1 (startL_suffix ..)) 0
        { pos := startOf (prefixSums 0 ((List.range T).map (cntL μ e lw cfg s T))) tid }
      rw [hR]
      refine ⟨es, fun _ => ⟨i1, ?_, ?_⟩⟩
      · unfold elCount; rw [h3.sub, i3]; simp
      · unfold elSet; simp only [h3.sub]; rw [i4]; rfl
    · exact ⟨[], fun h => absurd h ht⟩
  obtain ⟨seg, hseg⟩ := Classical.axiomOfChoice hex
  have hc : ∀ tid, tid < T → cntL μ e lw cfg s T tid = total cfg (seg tid) := by
    intro tid ht
    unfold cntL
    rw [(hseg tid ht).2.1]
  have hcl : (List.range T).map (cntL μ e lw cfg s T) = (List.range T).map (fun tid => total cfg (seg tid)) :=
    List.map_congr_left (fun tid ht => hc tid (List.mem_range.mp ht))
  have hsum := counts_le v hr lw cfg T T (Nat.le_refl _)
  rw [hcl, total_range] at hsum
  have hplan := plan_of_segs (μ := μ) (lw := lw) (ow := ow) (wk := wNone) cfg hT (rd e s) (fun tid => rd (e - (startL s T (tid+1)).length) (regL s T tid)) seg
    (fun tid ht => (region_facts v hr lw cfg ht []).1) (fun tid ht => (hseg tid ht).2.1)
    (fun tid ht => by have := (hseg tid ht).2.2; rw [hcl] at this; exact this)
  refine ⟨((List.range T).map seg).flatten, ?_, by omega, fun out hrun => exec_of_plan cfg _ hplan (by omega) out hrun⟩
  intro en hen
  obtain ⟨l, hl, he⟩ := List.mem_flatten.mp hen
  obtain ⟨tid, ht, rfl⟩ := List.mem_map.mp hl
  exact (hseg tid (List.mem_range.mp ht)).1 en he

end Pigo
