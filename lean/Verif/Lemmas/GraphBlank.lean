import Verif.Lemmas.GraphAny5
import Verif.Lemmas.GraphRows

/-!
# `.graph` files with comments that have no digits

Replacing the comments by blanks does not change what the threads of `read_graph_` do, if no comment contains a digit or
directly follows one, a line with a comment is not followed by a line that starts with one, and the text does not end inside
of a comment.
-/

namespace Pigo

variable {W : Type} {μ μ' : Mapping} {e : Nat}

/-- Comments replaced by blanks; `true`: inside of a comment. -/
def blankL : Bool → List Byte → List Byte
  | _, [] => []
  | true, c :: s => if c == nl then c :: blankL false s else 32 :: blankL true s
  | false, c :: s => if isCom c then 32 :: blankL true s else c :: blankL false s

/-- Does the text start with a comment sign? -/
def headCom (s : List Byte) : Bool := s.head?.any isCom

/-- The condition on the comments. -/
def quietL : Bool → List Byte → Prop
  | true, [] => False
  | false, [] => True
  | true, c :: s => if c == nl then headCom s = false ∧ quietL false s else isDigit c = false ∧ quietL true s
  | false, c :: s => if isCom c then quietL true s else (isDigit c = true → headCom s = false) ∧ quietL false s

/-- Inside of a comment after the text? -/
def stateL : Bool → List Byte → Bool
  | b, [] => b
  | true, c :: s => if c == nl then stateL false s else stateL true s
  | false, c :: s => if isCom c then stateL true s else stateL false s

theorem blankL_length : ∀ (s : List Byte) (b : Bool), (blankL b s).length = s.length
  | [], b => by cases b <;> rfl
  | c :: s, true => by rw [blankL]; split <;> simp [blankL_length s]
  | c :: s, false => by rw [blankL]; split <;> simp [blankL_length s]

theorem blankL_append : ∀ (s t : List Byte) (b : Bool), blankL b (s ++ t) = blankL b s ++ blankL (stateL b s) t
  | [], t, b => by cases b <;> rfl
  | c :: s, t, true => by
    rw [List.cons_append, blankL, blankL, stateL]; split <;> simp [blankL_append s]
  | c :: s, t, false => by
    rw [List.cons_append, blankL, blankL, stateL]; split <;> simp [blankL_append s]

theorem quietL_right : ∀ (s t : List Byte) (b : Bool), quietL b (s ++ t) → quietL (stateL b s) t
  | [], t, b, h => by cases b <;> exact h
  | c :: s, t, true, h => by
    rw [List.cons_append, quietL] at h
    rw [stateL]
    split at h
    · rename_i hc; rw [if_pos hc]; exact quietL_right s t _ h.2
    · rename_i hc; rw [if_neg hc]; exact quietL_right s t _ h.2
  | c :: s, t, false, h => by
    rw [List.cons_append, quietL] at h
    rw [stateL]
    split at h
    · rename_i hc; rw [if_pos hc]; exact quietL_right s t _ h
    · rename_i hc; rw [if_neg hc]; exact quietL_right s t _ h.2

theorem headCom_left {s t : List Byte} (h : headCom (s ++ t) = false) : headCom s = false := by
  cases s with
  | nil => rfl
  | cons c s => exact h

theorem quietL_left : ∀ (s t : List Byte) (b : Bool), quietL b (s ++ t) → stateL b s = false → quietL b s
  | [], t, b, _, hs => by
    cases b
    · trivial
    · cases hs
  | c :: s, t, true, h, hs => by
    rw [List.cons_append, quietL] at h
    rw [stateL] at hs
    rw [quietL]
    split at h
    · rename_i hc; rw [if_pos hc] at hs ⊢; exact ⟨headCom_left h.1, quietL_left s t _ h.2 hs⟩
    · rename_i hc; rw [if_neg hc] at hs ⊢; exact ⟨h.1, quietL_left s t _ h.2 hs⟩
  | c :: s, t, false, h, hs => by
    rw [List.cons_append, quietL] at h
    rw [stateL] at hs
    rw [quietL]
    split at h
    · rename_i hc; rw [if_pos hc] at hs ⊢; exact quietL_left s t _ h hs
    · rename_i hc; rw [if_neg hc] at hs ⊢; exact ⟨fun hd => headCom_left (h.1 hd), quietL_left s t _ h.2 hs⟩

/-- A digit is not inside of a comment. -/
theorem quietL_digit {b : Bool} {c : Byte} {t : List Byte} (h : quietL b (c :: t)) (hd : isDigit c = true) : b = false := by
  cases b with
  | false => rfl
  | true =>
    rw [quietL] at h
    split at h
    · rename_i hc
      rw [eq_of_beq hc, isDigit_nl] at hd; cases hd
    · rw [h.1] at hd; cases hd

theorem isCom_not_nl {c : Byte} (h : isCom c = true) : (c == nl) = false := by
  cases hc : c == nl
  · rfl
  · rw [eq_of_beq hc, isCom_nl] at h; cases h

/-! ### looking for an integer -/

theorem toStop_blank : ∀ (s : List Byte) (b x : Bool), quietL b s → (b = false → x = false) →
    toStop isDigit false (blankL b s) = blankL false (toStop isDigit x s) ∧ quietL false (toStop isDigit x s)
  | [], b, x, _, _ => by cases b <;> cases x <;> exact ⟨rfl, trivial⟩
  | c :: s, true, x, h, _ => by
    rw [quietL] at h
    rw [blankL]
    by_cases hc : (c == nl) = true
    · rw [if_pos hc] at h ⊢
      have ih := toStop_blank s false false h.2 (fun _ => rfl)
      have hc' := eq_of_beq hc
      subst hc'
      rw [toStop.eq_3, isCom_nl, isDigit_nl]
      cases x with
      | true => rw [toStop.eq_2, if_pos hc]; simpa using ih
      | false => rw [toStop.eq_3, isCom_nl, isDigit_nl]; simpa using ih
    · rw [if_neg hc] at h ⊢
      rw [toStop.eq_3, show isCom 32 = false from by decide, show isDigit 32 = false from by decide]
      simp only [Bool.false_eq_true, if_false]
      cases x with
      | true => rw [toStop.eq_2, if_neg hc]; exact toStop_blank s true true h.2 (by simp)
      | false =>
        rw [toStop.eq_3]
        split
        · exact toStop_blank s true true h.2 (by simp)
        · rw [h.1]; exact toStop_blank s true false h.2 (by simp)
  | c :: s, false, x, h, hx => by
    rw [hx rfl]
    rw [blankL, toStop.eq_3]
    by_cases hc : isCom c = true
    · rw [quietL, if_pos hc] at h
      rw [if_pos hc, if_pos hc, toStop.eq_3, show isCom 32 = false from by decide, show isDigit 32 = false from by decide]
      simpa using toStop_blank s true true h (by simp)
    · rw [if_neg hc, if_neg hc, toStop.eq_3, if_neg hc]
      by_cases hd : isDigit c = true
      · rw [if_pos hd, if_pos hd, blankL, if_neg hc]
        exact ⟨rfl, h⟩
      · rw [if_neg hd, if_neg hd]
        rw [quietL, if_neg hc] at h
        exact toStop_blank s false false h.2 (fun _ => rfl)

theorem firstIntL_blank {s : List Byte} (h : quietL false s) :
    firstIntL (blankL false s) = blankL false (firstIntL s) ∧ quietL false (firstIntL s) := toStop_blank s false false h (fun _ => rfl)

theorem dropDigits_blank : ∀ (s : List Byte) (b : Bool), quietL b s →
    (blankL b s).dropWhile isDigit = blankL b (s.dropWhile isDigit) ∧ quietL b (s.dropWhile isDigit)
  | [], b, h => by cases b <;> exact ⟨rfl, h⟩
  | c :: s, true, h => by
    have hd : isDigit c = false := by
      cases hd : isDigit c
      · rfl
      · cases quietL_digit h hd
    rw [List.dropWhile_cons, hd]
    refine ⟨?_, h⟩
    rw [blankL]
    simp only [Bool.false_eq_true, if_false]
    split
    · rw [List.dropWhile_cons, hd, blankL]; simp_all
    · rw [List.dropWhile_cons, show isDigit 32 = false from by decide, blankL]; simp_all
  | c :: s, false, h => by
    rw [List.dropWhile_cons, blankL]
    by_cases hd : isDigit c = true
    · have hc : isCom c = false := by
        cases hc : isCom c
        · rfl
        · rw [isCom_not_digit hc] at hd; cases hd
      rw [quietL, hc] at h
      rw [hc]
      simp only [Bool.false_eq_true, if_false, hd, if_true, List.dropWhile_cons] at h ⊢
      exact dropDigits_blank s false h.2
    · rw [if_neg hd]
      refine ⟨?_, h⟩
      rw [blankL]
      split
      · rw [List.dropWhile_cons, show isDigit 32 = false from by decide]; simp
      · rw [List.dropWhile_cons, if_neg hd]

theorem nextIntL_blank {s : List Byte} {b : Bool} (h : quietL b s) :
    nextIntL (blankL b s) = blankL false (nextIntL s) ∧ quietL false (nextIntL s) := by
  obtain ⟨h1, h2⟩ := dropDigits_blank s b h
  unfold nextIntL
  rw [h1]
  exact toStop_blank _ b false h2 (fun _ => rfl)

/-! ### `move_to_next_int_or_nl` -/

/-- Starts with a digit or a newline. -/
def AtDn (s : List Byte) : Prop := ∀ c t, s = c :: t → isDigit c = true ∨ c = nl

theorem comment_line : ∀ (u : List Byte), quietL true u → ∃ p q, u = p ++ nl :: q ∧ nl ∉ p ∧ quietL false q ∧ headCom q = false ∧
    restL (blankL true u) = nl :: blankL false q ∧ skipLineL u = q
  | [], h => h.elim
  | c :: u, h => by
    rw [quietL] at h
    by_cases hc : (c == nl) = true
    · rw [if_pos hc] at h
      have hc' := eq_of_beq hc
      subst hc'
      refine ⟨[], u, rfl, by simp, h.2, h.1, ?_, by rw [skipLineL, if_pos hc]⟩
      rw [blankL, if_pos hc, restL, isCom_nl, hc]
      simp
    · rw [if_neg hc] at h
      obtain ⟨p, q, h1, h2, h3, h4, h5, h6⟩ := comment_line u h.2
      refine ⟨c :: p, q, by rw [h1]; rfl, ?_, h3, h4, ?_, by rw [skipLineL, if_neg hc, h6]⟩
      · intro hm
        rcases List.mem_cons.mp hm with hm | hm
        · exact hc (by rw [← hm]; simp)
        · exact h2 hm
      · rw [blankL, if_neg hc, restL, show isCom 32 = false from by decide, show isDigit 32 = false from by decide,
          show ((32 : Byte) == nl) = false from by decide]
        simpa using h5

theorem skipComL_stop {n : Nat} {q : List Byte} (h : headCom q = false) : skipComL n q = q := by
  cases n with
  | zero => rfl
  | succ n =>
    cases q with
    | nil => rfl
    | cons c q =>
      have hc : isCom c = false := h
      rw [skipComL, hc]; simp

theorem restL_blank : ∀ (s : List Byte), quietL false s →
    restL (blankL false s) = blankL false (restL s) ∧ quietL false (restL s) ∧ AtDn (restL s)
  | [], _ => ⟨rfl, trivial, by rintro c t h; cases h⟩
  | c :: u, h => by
    rw [blankL]
    by_cases hc : isCom c = true
    · rw [quietL, if_pos hc] at h
      obtain ⟨p, q, h1, h2, h3, h4, h5, h6⟩ := comment_line u h
      have hb : backL (c :: u) = nl :: q := by
        unfold backL skipIfComL
        rw [List.length_cons, skipComL, if_pos hc, skipLineL, isCom_not_nl hc]
        simp only [Bool.false_eq_true, if_false]
        rw [h6, skipComL_stop h4, h1]
        have : (p ++ nl :: q).length + 1 - (q.length + 1) = (c :: p).length := by simp; omega
        rw [this, ← List.cons_append, List.drop_left]
      rw [if_pos hc, restL, show isCom 32 = false from by decide, show isDigit 32 = false from by decide,
          show ((32 : Byte) == nl) = false from by decide, restL, if_pos hc, hb]
      simp only [Bool.false_eq_true, if_false, Bool.or_self]
      refine ⟨?_, ?_, ?_⟩
      · rw [h5, blankL, isCom_nl]; simp
      · rw [quietL, isCom_nl, isDigit_nl]; simpa using h3
      · intro c t hh; cases hh; exact .inr rfl
    · rw [if_neg hc, restL, if_neg hc, restL, if_neg hc]
      by_cases hd : (isDigit c || c == nl) = true
      · rw [if_pos hd, if_pos hd]
        refine ⟨by rw [blankL, if_neg hc], h, ?_⟩
        intro c' t hh
        cases hh
        rcases Bool.or_eq_true_iff.mp hd with hd | hd
        · exact .inl hd
        · exact .inr (eq_of_beq hd)
      · rw [if_neg hd, if_neg hd]
        rw [quietL, if_neg hc] at h
        exact restL_blank u h.2

theorem nextL_blank {s : List Byte} (h : quietL false s) :
    nextL (blankL false s) = blankL false (nextL s) ∧ quietL false (nextL s) ∧ AtDn (nextL s) := by
  obtain ⟨h1, h2⟩ := dropDigits_blank s false h
  have hh : (blankL false s).head?.any isDigit = s.head?.any isDigit := by
    cases s with
    | nil => rfl
    | cons c s =>
      rw [blankL]
      split
      · rename_i hc
        simp [isCom_not_digit hc]; decide
      · rfl
  unfold nextL
  rw [h1, hh]
  cases hs : s.dropWhile isDigit with
  | nil => exact ⟨rfl, trivial, by rintro c t h; cases h⟩
  | cons c u =>
    rw [hs] at h2
    have hr := restL_blank (c :: u) h2
    by_cases hc : isCom c = true
    · rw [blankL, if_pos hc] at hr ⊢
      simp only [isCom_not_nl hc, Bool.false_eq_true, if_false, show ((32 : Byte) == nl) = false from by decide]
      exact hr
    · rw [blankL, if_neg hc] at hr ⊢
      simp only
      by_cases hn : (c == nl) = true
      · rw [if_pos hn, if_pos hn]
        rw [quietL, if_neg hc] at h2
        split
        · refine ⟨by rw [blankL, if_neg hc], ?_, ?_⟩
          · rw [quietL, if_neg hc]; exact h2
          · intro c' t hh; cases hh; exact .inr (eq_of_beq hn)
        · exact restL_blank u h2.2
      · rw [if_neg hn, if_neg hn]
        exact hr

end Pigo
