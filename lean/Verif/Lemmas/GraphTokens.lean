import Verif.Model.GraphFile
import Verif.Lemmas.EdgePlan
import Verif.Lemmas.Lines

/-!
# Tokens of a `.graph` file without comments

`tk [] s` lists the integers (as runs of digits) and the newlines of `s`; both passes of `read_graph_` walk through them.
-/

namespace Pigo

/-- A run of digits or a newline. -/
inductive Tok
  | int (run : List Byte)
  | nl
  deriving DecidableEq, Repr

/-- The integer under construction. -/
def flush (cur : List Byte) : List Tok := if cur = [] then [] else [.int cur]

/-- The tokens of `cur ++ s`, where `cur` are the digits just before `s`. -/
def tk : List Byte → List Byte → List Tok
  | cur, [] => flush cur
  | cur, c :: s =>
    if isDigit c then tk (cur ++ [c]) s
    else flush cur ++ ((if c == nl then [Tok.nl] else []) ++ tk [] s)

/-- No comment characters. -/
def NoCom (s : List Byte) : Prop := ∀ c ∈ s, isCom c = false

/-- Not a digit and not a newline. -/
def skipB (b : Byte) : Bool := !(isDigit b || b == nl)

theorem tk_digits (r : List Byte) (hr : ∀ c ∈ r, isDigit c = true) (t : List Byte) : ∀ cur, tk cur (r ++ t) = tk (cur ++ r) t := by
  induction r with
  | nil => intro cur; simp
  | cons c r ih =>
    intro cur
    rw [List.cons_append, tk, if_pos (hr c (by simp)), ih (fun x hx => hr x (List.mem_cons_of_mem _ hx)), List.append_assoc]; rfl

theorem tk_end {cur t : List Byte} (hc : cur ≠ []) (ht : ∀ c t', t = c :: t' → isDigit c = false) : tk cur t = .int cur :: tk [] t := by
  cases t with
  | nil => simp [tk, flush, hc]
  | cons c t => simp [tk, ht c t rfl, flush, hc]

theorem tk_run {r t : List Byte} (hr : ∀ c ∈ r, isDigit c = true) (hne : r ≠ []) (ht : ∀ c t', t = c :: t' → isDigit c = false) :
    tk [] (r ++ t) = .int r :: tk [] t := by
  rw [tk_digits r hr t [], List.nil_append, tk_end hne ht]

theorem tk_nl (t : List Byte) : tk [] (nl :: t) = .nl :: tk [] t := by
  rw [tk, if_neg (by decide)]; simp [flush]

theorem tk_skip (t : List Byte) : tk [] (t.dropWhile skipB) = tk [] t := by
  induction t with
  | nil => rfl
  | cons c t ih =>
    rw [List.dropWhile_cons]
    split
    · rename_i h
      simp only [skipB, Bool.not_eq_true', Bool.or_eq_false_iff] at h
      rw [ih, tk, if_neg (by simp [h.1]), h.2]; simp [flush]
    · rfl

theorem tk_split (G X : List Byte) (c : Byte) (hc : isDigit c = false) : ∀ cur, tk cur (G ++ c :: X) = tk cur (G ++ [c]) ++ tk [] X := by
  induction G with
  | nil => intro cur; simp [tk, hc, flush]
  | cons g G ih =>
    intro cur
    rw [List.cons_append, List.cons_append, tk, tk]
    split
    · exact ih _
    · rw [ih, List.append_assoc, List.append_assoc]

/-- `G` is empty or its last byte is not a digit. -/
def EndsNd (G : List Byte) : Prop := G = [] ∨ ∃ p c, G = p ++ [c] ∧ isDigit c = false

theorem tk_append {G X : List Byte} (h : EndsNd G ∨ X = []) : tk [] (G ++ X) = tk [] G ++ tk [] X := by
  rcases h with (rfl | ⟨p, c, rfl, hc⟩) | rfl
  · simp [tk, flush]
  · rw [List.append_assoc]; exact tk_split p X c hc []
  · simp [tk, flush]

theorem EndsNd.suffix {G H : List Byte} (h : EndsNd G) (hs : H <:+ G) : EndsNd H := by
  rcases h with rfl | ⟨p, c, rfl, hc⟩
  · left; simpa using hs
  · rcases List.eq_nil_or_concat H with rfl | ⟨q, d, rfl⟩
    · left; rfl
    · right
      rw [List.concat_eq_append] at hs ⊢
      obtain ⟨z, hz⟩ := hs
      rw [← List.append_assoc] at hz
      obtain ⟨_, h2⟩ := List.append_inj' hz rfl
      injection h2 with h2
      exact ⟨q, d, rfl, by rw [h2]; exact hc⟩

theorem NoCom.suffix {s t : List Byte} (h : NoCom s) (hs : t <:+ s) : NoCom t := fun c hc => h c (hs.subset hc)

/-! ## The reader on comment-free text -/

variable {μ : Mapping} {e : Nat}

/-- What follows the reader's text `s`: a readable byte which is no comment character, and no digit if `s` ends with one. -/
def After (μ : Mapping) (e : Nat) (s : List Byte) : Prop :=
  ∃ b, μ.get e = .ok b ∧ isCom b = false ∧ (isDigit b = true → EndsNd s)

theorem After.suffix {s t : List Byte} (h : After μ e s) (hs : t <:+ s) : After μ e t := by
  obtain ⟨b, h1, h2, h3⟩ := h
  exact ⟨b, h1, h2, fun hd => (h3 hd).suffix hs⟩

theorem intOrNlN_eq : ∀ (n : Nat) (s : List Byte), View μ e s → NoCom s → After μ e s → s.length ≤ n →
    intOrNlN μ n (rd e s) = .ok (rd e (s.dropWhile skipB))
  | 0, s, _, _, _, h => by
    have : s = [] := List.length_eq_zero_iff.mp (by omega)
    subst this; rfl
  | n+1, [], v, _, _, _ => by simp [intOrNlN, rd]
  | n+1, c :: s, v, hn, ha, h => by
    rw [intOrNlN, if_pos v.lt, v.get_d, ok_bind, List.dropWhile_cons]
    have hsk : skipB c = !(isDigit c || c == nl) := rfl
    cases hst : (isDigit c || c == nl) with
    | true => rw [if_pos rfl, hsk, hst]; rfl
    | false =>
      have v' := v.tail
      have hn' : NoCom s := fun x hx => hn x (List.mem_cons_of_mem _ hx)
      have ha' := ha.suffix (List.suffix_cons c s)
      rw [if_neg (by simp), hsk, hst]
      simp only [v.adv, Bool.not_false, if_true]
      have hg : ∃ b, μ.get (rd e s).d = .ok b ∧ isCom b = false := by
        cases s with
        | nil => obtain ⟨b, h1, h2, _⟩ := ha; exact ⟨b, by simpa [rd] using h1, h2⟩
        | cons d s => exact ⟨d, v'.get_d, hn' d (by simp)⟩
      obtain ⟨b, h1, h2⟩ := hg
      have hadv : (rd e (c :: s)).d + 1 = (rd e s).d := by
        have := congrArg Reader.d v.adv
        simpa [Reader.adv] using this
      rw [hadv, h1, ok_bind, h2]
      exact intOrNlN_eq n s v' hn' ha' (by simpa using h)

theorem intOrNlRest_eq {s : List Byte} (v : View μ e s) (hn : NoCom s) (ha : After μ e s) :
    intOrNlRest μ (rd e s) = .ok (rd e (s.dropWhile skipB)) := by
  have hg : ∃ b, μ.get (rd e s).d = .ok b ∧ isCom b = false := by
    cases s with
    | nil => obtain ⟨b, h1, h2, _⟩ := ha; exact ⟨b, by simpa [rd] using h1, h2⟩
    | cons d s => exact ⟨d, v.get_d, hn d (by simp)⟩
  obtain ⟨b, h1, h2⟩ := hg
  rw [intOrNlRest, h1, ok_bind, h2, if_neg (by simp), v.sub]
  exact intOrNlN_eq _ s v hn ha (Nat.le_refl _)

/-- Does the first byte, if any, satisfy `P`? -/
def headIs (P : Byte → Bool) : List Byte → Bool
  | [] => false
  | c :: _ => P c

theorem guarded_eq (P : Byte → Bool) {s : List Byte} (v : View μ e s) : guarded μ P (rd e s) = .ok (headIs P s) := by
  cases s with
  | nil => simp [guarded, rd, headIs]
  | cons c s => rw [guarded, if_pos v.lt, v.get_d, ok_bind]; rfl

/-- `move_to_next_int_or_nl` on the remaining text. -/
def nextTokL : List Byte → List Byte
  | [] => []
  | c :: t => if isDigit c then ((c :: t).dropWhile isDigit).dropWhile skipB
    else if c == nl then t.dropWhile skipB else (c :: t).dropWhile skipB

theorem moveToNextIntOrNl_eq {s : List Byte} (v : View μ e s) (hn : NoCom s) (ha : After μ e s) :
    moveToNextIntOrNl μ (rd e s) = .ok (rd e (nextTokL s)) := by
  have v' := v.of_suffix (dropWhile_suffix' isDigit s)
  have hn' := hn.suffix (dropWhile_suffix' isDigit s)
  have ha' := ha.suffix (dropWhile_suffix' isDigit s)
  rw [moveToNextIntOrNl, guarded_eq _ v, ok_bind, moveToNonInt_eq v, ok_bind, guarded_eq _ v', ok_bind]
  cases s with
  | nil => simp only [List.dropWhile_nil, nextTokL, headIs, Bool.false_and, Bool.false_eq_true, if_false]; exact intOrNlRest_eq v hn ha
  | cons c t =>
    by_cases hd : isDigit c = true
    · rw [nextTokL, if_pos hd]
      simp only [headIs, hd, Bool.and_true]
      cases hu : (c :: t).dropWhile isDigit with
      | nil =>
        rw [hu] at v' hn' ha'
        simp only [headIs, Bool.false_eq_true, if_false]
        exact intOrNlRest_eq v' hn' ha'
      | cons x u =>
        rw [hu] at v' hn' ha'
        simp only [headIs]
        by_cases hx : x = nl
        · subst hx
          simp [List.dropWhile_cons, skipB]
        · have : (x == nl) = false := by simpa using hx
          simp only [this, Bool.false_eq_true, if_false]
          exact intOrNlRest_eq v' hn' ha'
    · have hd' : isDigit c = false := by simpa using hd
      have hdr : (c :: t).dropWhile isDigit = c :: t := by rw [List.dropWhile_cons, if_neg hd]
      simp only [hdr, headIs, hd', Bool.and_false, Bool.false_eq_true, if_false, nextTokL]
      by_cases hx : c = nl
      · subst hx
        simp only [beq_self_eq_true, if_true, v.adv]
        exact intOrNlRest_eq v.tail (hn.suffix (List.suffix_cons _ _)) (ha.suffix (List.suffix_cons _ _))
      · have : (c == nl) = false := by simpa using hx
        simp only [this, Bool.false_eq_true, if_false]
        exact intOrNlRest_eq v hn ha

/-- The text is empty or starts with a digit or a newline. -/
def AtTok (s : List Byte) : Prop := ∀ c t, s = c :: t → (isDigit c || c == nl) = true

theorem atTok_skip (s : List Byte) : AtTok (s.dropWhile skipB) := by
  induction s with
  | nil => intro c t h; cases h
  | cons a s ih =>
    rw [List.dropWhile_cons]
    split
    · exact ih
    · intro c t h
      injection h with h1 h2
      subst h1
      rename_i hh
      simp only [skipB, Bool.not_eq_true, Bool.not_eq_false'] at hh; exact hh

theorem nextTokL_suffix (c : Byte) (t : List Byte) (h : AtTok (c :: t)) : nextTokL (c :: t) <:+ t := by
  rw [nextTokL]
  split
  · rename_i hd
    rw [List.dropWhile_cons, if_pos hd]
    exact (dropWhile_suffix' _ _).trans (dropWhile_suffix' _ _)
  · rename_i hd
    have := h c t rfl
    have hc : (c == nl) = true := by simpa [hd] using this
    rw [if_pos hc]
    exact dropWhile_suffix' _ _

theorem atTok_next (s : List Byte) : AtTok (nextTokL s) := by
  cases s with
  | nil => intro c t h; cases h
  | cons c t =>
    rw [nextTokL]
    split
    · exact atTok_skip _
    · split <;> exact atTok_skip _

theorem dropWhile_head (P : Byte → Bool) (s : List Byte) : ∀ c t, s.dropWhile P = c :: t → P c = false := by
  induction s with
  | nil => intro c t h; cases h
  | cons a s ih =>
    intro c t h
    rw [List.dropWhile_cons] at h
    split at h
    · exact ih c t h
    · injection h with h1 h2; subst h1; exact Bool.eq_false_iff.mpr (by assumption)

/-- The tokens, one step. -/
theorem tk_next (c : Byte) (t : List Byte) (h : AtTok (c :: t)) :
    tk [] (c :: t) = (if isDigit c then Tok.int ((c :: t).takeWhile isDigit) else Tok.nl) :: tk [] (nextTokL (c :: t)) := by
  by_cases hd : isDigit c = true
  · rw [if_pos hd, nextTokL, if_pos hd, tk_skip]
    rw [← tk_run (r := (c :: t).takeWhile isDigit) (t := (c :: t).dropWhile isDigit)]
    · rw [List.takeWhile_append_dropWhile]
    · intro x hx; exact List.all_eq_true.mp (List.all_takeWhile (p := isDigit)) x hx
    · simp [hd]
    · exact dropWhile_head _ _
  · have hc : c = nl := by
      have := h c t rfl
      simpa [hd] using this
    subst hc
    rw [if_neg hd, tk_nl, nextTokL, if_neg hd, if_pos (by simp), tk_skip]

theorem atNlOrEol_eq {c : Byte} {t : List Byte} (v : View μ e (c :: t)) : atNlOrEol μ (rd e (c :: t)) = .ok (c == nl || isCom c) := by
  have hlt : (rd e (c :: t)).d < (rd e (c :: t)).e := v.lt
  rw [atNlOrEol, if_neg (by omega), v.get_d, ok_bind]

theorem atZero_eq {c : Byte} {t : List Byte} (v : View μ e (c :: t)) (ha : After μ e (c :: t)) :
    atZero μ (rd e (c :: t)) = .ok (decide ((c :: t).takeWhile isDigit = [48])) := by
  have hlt : (rd e (c :: t)).d < (rd e (c :: t)).e := v.lt
  rw [atZero, if_neg (by omega), v.get_d, ok_bind]
  by_cases hc : c = 48
  · subst hc
    rw [if_neg (by simp)]
    have hadv : (rd e (48 :: t)).d + 1 = (rd e t).d := by
      have := congrArg Reader.d v.adv
      simpa [Reader.adv] using this
    rw [hadv]
    have hd : isDigit 48 = true := by decide
    cases t with
    | nil =>
      obtain ⟨b, h1, h2, h3⟩ := ha
      have hb : isDigit b = false := by
        cases hb : isDigit b with
        | false => rfl
        | true =>
          rcases h3 hb with h | ⟨p, c, h, hc⟩
          · cases h
          · have : c = 48 := by
              have := congrArg List.getLast? h
              simpa using this.symm
            subst this
            exact absurd hc (by decide)
      have : μ.get (rd e ([] : List Byte)).d = .ok b := by simpa [rd] using h1
      rw [this, ok_bind, hb]
      rfl
    | cons d t =>
      rw [v.tail.get_d, ok_bind]
      cases hdd : isDigit d with
      | true => simp [List.takeWhile_cons, hd, hdd]
      | false => simp [List.takeWhile_cons, hd, hdd]
  · rw [if_pos (by simpa using hc)]
    congr 1
    symm
    rw [decide_eq_false_iff_not]
    intro h
    rw [List.takeWhile_cons] at h
    split at h
    · injection h with h1; exact hc h1
    · cases h

/-! ## Pass 1 -/

/-- Number of newlines. -/
def nlsOf (ts : List Tok) : Nat := ts.countP (fun t => match t with | .nl => true | .int _ => false)

/-- The integers. -/
def runsOf (ts : List Tok) : List (List Byte) := ts.filterMap (fun t => match t with | .nl => none | .int r => some r)

/-- Is there an integer written `0`? -/
def zeroIn (ts : List Tok) : Bool := decide (Tok.int [48] ∈ ts)

theorem zeroIn_cons (t : Tok) (ts : List Tok) : zeroIn (t :: ts) = (decide (t = Tok.int [48]) || zeroIn ts) := by
  simp only [zeroIn, List.mem_cons, Bool.decide_or, eq_comm]

theorem count_tokens : ∀ (n : Nat) (s : List Byte) (c : GCount), View μ e s → NoCom s → After μ e s → AtTok s → s.length ≤ n →
    whileGood (graphCount μ) n c (rd e s) =
      .ok (⟨c.nls + nlsOf (tk [] s), c.ints + (runsOf (tk [] s)).length, c.zero || zeroIn (tk [] s)⟩, rd e []) := by
  intro n
  induction n with
  | zero =>
    intro s c v hn ha ht hl
    have : s = [] := List.length_eq_zero_iff.mp (by omega)
    subst this
    simp [whileGood, good_rd v, tk, flush, nlsOf, runsOf, zeroIn]
  | succ n ih =>
    intro s c v hn ha ht hl
    cases s with
    | nil => simp [whileGood, good_rd v, tk, flush, nlsOf, runsOf, zeroIn]
    | cons b t =>
      have hsuf := nextTokL_suffix b t ht
      have hsuf' := hsuf.trans (List.suffix_cons b t)
      have hlen := hsuf.length_le
      rw [whileGood, good_rd v]
      simp only [List.isEmpty_cons, Bool.not_false, if_true]
      rw [graphCount, atNlOrEol_eq v, ok_bind, atZero_eq v ha]
      simp only [ok_bind, moveToNextIntOrNl_eq v hn ha]
      rw [ih _ _ (v.of_suffix hsuf') (hn.suffix hsuf') (ha.suffix hsuf') (atTok_next _) (by simp at hl; omega), tk_next b t ht]
      have hcom : isCom b = false := hn b (by simp)
      by_cases hd : isDigit b = true
      · have hb : (b == nl) = false := by simpa using isDigit_ne_nl hd
        simp only [hb, hcom, Bool.or_false, Bool.false_eq_true, if_false, hd, if_true]
        simp only [nlsOf, runsOf, zeroIn_cons, Tok.int.injEq]
        congr 3
        · simp; omega
        · rw [Bool.or_assoc]
      · have hb : b = nl := by
          have := ht b t rfl
          simpa [hd] using this
        subst hb
        simp only [beq_self_eq_true, Bool.true_or, if_true, hd]
        simp only [nlsOf, runsOf, zeroIn_cons]
        congr 3
        · simp; omega
        · have : (nl :: t).takeWhile isDigit = [] := by rw [List.takeWhile_cons, if_neg (by decide)]
          simp [this]

end Pigo
