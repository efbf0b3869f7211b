import Verif.Lemmas.Reader
import Verif.Spec.Text

/-!
# Lines: what the reader operations do inside one line, and what they do to a list of lines
-/

namespace Pigo

theorem isDigit_spec (b : Byte) : Spec.isDigit b = isDigit b := by
  simp only [Spec.isDigit, isDigit, UInt8.le_iff_toNat_le, Bool.decide_and]
  rfl

theorem isCom_spec (b : Byte) : Spec.isComment b = isCom b := by
  have : ∀ a : Byte, (b == a) = decide (b.toNat = a.toNat) := by
    intro a
    rw [Bool.eq_iff_iff]
    simp [← UInt8.toNat_inj]
  simp only [Spec.isComment, isCom, Bool.decide_or, this]
  rfl

theorem decimal_eq (ds : List Byte) : Spec.decimal ds = decVal ds := by
  unfold Spec.decimal decVal
  congr 1
  funext a b
  rw [Nat.mul_comm]; rfl

theorem isCom_not_digit {b : Byte} (h : isCom b = true) : isDigit b = false := by
  simp [isCom] at h
  rcases h with rfl | rfl <;> decide

theorem isDigit_not_com {b : Byte} (h : isDigit b = true) : isCom b = false := by
  cases hc : isCom b with
  | false => rfl
  | true => rw [isCom_not_digit hc] at h; cases h

theorem isDigit_ne_nl {b : Byte} (h : isDigit b = true) : b ≠ nl := by
  rintro rfl; revert h; decide

theorem isCom_nl : isCom nl = false := by decide
theorem isDigit_nl : isDigit nl = false := by decide

/-! ## one line -/

/-- In comment mode a line is skipped entirely. -/
theorem toStop_line_true (stop) : ∀ (l rest : List Byte), nl ∉ l →
    toStop stop true (l ++ nl :: rest) = toStop stop false rest
  | [], rest, _ => by simp [toStop]
  | c :: l, rest, h => by
    simp only [List.mem_cons, not_or] at h
    rw [List.cons_append, toStop.eq_2]
    have : c ≠ nl := fun e => h.1 e.symm
    simp only [beq_iff_eq, this, if_false]
    exact toStop_line_true stop l rest h.2

theorem toStop_line_true' (stop) : ∀ (l : List Byte), nl ∉ l → toStop stop true l = []
  | [], _ => by simp [toStop]
  | c :: l, h => by
    simp only [List.mem_cons, not_or] at h
    rw [toStop.eq_2]
    have : c ≠ nl := fun e => h.1 e.symm
    simp only [beq_iff_eq, this, if_false]
    exact toStop_line_true' stop l h.2

theorem toStop_line (stop) (hs : stop nl = false) : ∀ (l rest : List Byte), nl ∉ l →
    toStop stop false (l ++ nl :: rest) =
      if toStop stop false l = [] then toStop stop false rest else toStop stop false l ++ nl :: rest
  | [], rest, _ => by simp [toStop, isCom_nl, hs]
  | c :: l, rest, h => by
    simp only [List.mem_cons, not_or] at h
    rw [List.cons_append, toStop.eq_3, toStop.eq_3]
    split
    · rw [toStop_line_true stop l rest h.2, toStop_line_true' stop l h.2, if_pos rfl]
    · split
      · simp
      · exact toStop_line stop hs l rest h.2

theorem dropWhile_append_nl (P : Byte → Bool) (hP : P nl = false) : ∀ (l rest : List Byte),
    (l ++ nl :: rest).dropWhile P = l.dropWhile P ++ nl :: rest
  | [], rest => by simp [hP]
  | c :: l, rest => by
    rw [List.cons_append, List.dropWhile_cons, List.dropWhile_cons]
    split
    · exact dropWhile_append_nl P hP l rest
    · rfl

theorem takeWhile_append_nl (P : Byte → Bool) (hP : P nl = false) : ∀ (l rest : List Byte),
    (l ++ nl :: rest).takeWhile P = l.takeWhile P
  | [], rest => by simp [hP]
  | c :: l, rest => by
    rw [List.cons_append, List.takeWhile_cons, List.takeWhile_cons]
    split
    · rw [takeWhile_append_nl P hP l rest]
    · rfl

theorem dropWhile_nil (P : Byte → Bool) : ∀ (l : List Byte), (∀ x ∈ l, P x = true) → l.dropWhile P = []
  | [], _ => rfl
  | a :: l, h => by
    rw [List.dropWhile_cons, if_pos (h a (List.mem_cons_self ..))]
    exact dropWhile_nil P l (fun x hx => h x (List.mem_cons_of_mem _ hx))

theorem eolL_line (l rest : List Byte) (h : nl ∉ l) : eolL (l ++ nl :: rest) = nl :: rest := by
  unfold eolL
  rw [dropWhile_append_nl _ (by simp)]
  have : l.dropWhile (fun b => b != nl) = [] := by
    apply dropWhile_nil
    intro x hx
    simp only [bne_iff_ne, ne_eq]
    rintro rfl; exact h hx
  rw [this]; rfl

theorem nextIntL_nl (rest : List Byte) : nextIntL (nl :: rest) = firstIntL rest := by
  unfold nextIntL
  rw [List.dropWhile_cons, isDigit_nl]
  simp [firstIntL, toStop, isCom_nl, isDigit_nl]

theorem nextIntL_line (u rest : List Byte) (hu : nl ∉ u) (h : nextIntL u ≠ []) :
    nextIntL (u ++ nl :: rest) = nextIntL u ++ nl :: rest := by
  unfold nextIntL firstIntL at *
  rw [dropWhile_append_nl _ isDigit_nl, toStop_line _ isDigit_nl _ _
    (fun hm => hu ((dropWhile_suffix' _ _).subset hm)), if_neg h]

theorem toStop_head (stop) (b) : ∀ s, (∀ c t, toStop stop b s = c :: t → stop c = true ∧ isCom c = false) := by
  intro s
  induction s generalizing b with
  | nil => intro c t h; cases b <;> simp [toStop] at h
  | cons a s ih =>
    intro c t h
    cases b with
    | true =>
      rw [toStop.eq_2] at h
      split at h <;> exact ih _ c t h
    | false =>
      rw [toStop.eq_3] at h
      split at h
      · exact ih _ c t h
      · split at h
        · injection h with h1 h2; subst h1
          exact ⟨by assumption, Bool.eq_false_iff.mpr (by assumption)⟩
        · exact ih _ c t h

/-- After `toStop isDigit` skipping to a digit again does nothing. -/
theorem toDigitL_firstInt (b s) : toDigitL (toStop isDigit b s) = toStop isDigit b s := by
  cases h : toStop isDigit b s with
  | nil => rfl
  | cons c t =>
    have := (toStop_head isDigit b s c t h).1
    simp [toDigitL, this]

/-! ## digit runs of a line -/

theorem stripComment_cons (c : Byte) (l) : Spec.stripComment (c :: l) =
    if isCom c then [] else c :: Spec.stripComment l := by
  unfold Spec.stripComment
  rw [List.takeWhile_cons, isCom_spec]
  cases isCom c <;> simp

theorem digitRuns_nil : Spec.digitRuns [] = [] := by simp [Spec.digitRuns]

theorem digitRuns_cons_nondigit (c : Byte) (l) (h : isDigit c = false) :
    Spec.digitRuns (c :: l) = Spec.digitRuns l := by
  unfold Spec.digitRuns
  rw [List.splitOnP_cons_eq_if_modifyHead, isDigit_spec]
  simp [h]

theorem digitRuns_run (r t : List Byte) (hr : ∀ c ∈ r, isDigit c = true) (hne : r ≠ [])
    (ht : ∀ c t', t = c :: t' → isDigit c = false) :
    Spec.digitRuns (r ++ t) = r :: Spec.digitRuns t := by
  have hr' : ∀ x ∈ r, (fun b => !Spec.isDigit b) x = false := by
    intro x hx; simp [isDigit_spec, hr x hx]
  have hf : (r :: (t.tail).splitOnP (fun b => !Spec.isDigit b)).filter (fun r => !r.isEmpty) =
      r :: ((t.tail).splitOnP (fun b => !Spec.isDigit b)).filter (fun r => !r.isEmpty) := by
    rw [List.filter_cons, if_pos]; simp [hne]
  cases t with
  | nil =>
    unfold Spec.digitRuns
    rw [List.append_nil, List.splitOnP_eq_singleton hr']
    simp [hne]
  | cons c t =>
    have hc := ht c t rfl
    rw [digitRuns_cons_nondigit c t hc]
    unfold Spec.digitRuns
    rw [List.splitOnP_append_cons_of_forall_mem hr' c (by simp [isDigit_spec, hc])]
    exact hf

theorem digitRuns_line : ∀ (l : List Byte), nl ∉ l →
    Spec.digitRuns (Spec.stripComment l) =
      if firstIntL l = [] then [] else
        (firstIntL l).takeWhile isDigit ::
          Spec.digitRuns (Spec.stripComment ((firstIntL l).dropWhile isDigit))
  | [], _ => by simp [toStop, Spec.stripComment, digitRuns_nil]
  | c :: l, h => by
    simp only [List.mem_cons, not_or] at h
    rw [stripComment_cons]
    unfold firstIntL
    rw [toStop.eq_3]
    by_cases hc : isCom c
    · simp only [hc, if_true]
      rw [toStop_line_true' _ l h.2, digitRuns_nil, if_pos rfl]
    · have hcf : isCom c = false := Bool.eq_false_iff.mpr hc
      simp only [hcf, Bool.false_eq_true, if_false]
      by_cases hd : isDigit c
      · simp only [hd, if_true]
        rw [if_neg (by simp)]
        have hsplit : ∀ l : List Byte, Spec.stripComment l =
            l.takeWhile isDigit ++ Spec.stripComment (l.dropWhile isDigit) := by
          intro l
          induction l with
          | nil => simp [Spec.stripComment]
          | cons a l ih =>
            rw [List.takeWhile_cons, List.dropWhile_cons]
            by_cases ha : isDigit a
            · simp only [ha, if_true]
              rw [stripComment_cons, isDigit_not_com ha]
              simp only [Bool.false_eq_true, if_false, List.cons_append]
              rw [ih]
            · simp [ha]
        have h1 : c :: Spec.stripComment l = Spec.stripComment (c :: l) := by
          rw [stripComment_cons, hcf]; simp
        rw [h1, hsplit (c :: l)]
        apply digitRuns_run
        · intro x hx; exact List.all_eq_true.mp (List.all_takeWhile (p := isDigit)) x hx
        · simp [hd]
        · intro a t' hat
          have : ∀ (L : List Byte), (∀ a t', Spec.stripComment (L.dropWhile isDigit) = a :: t' → isDigit a = false) := by
            intro L
            induction L with
            | nil => intro a t' h; simp [Spec.stripComment] at h
            | cons b L ih =>
              intro a t' h
              rw [List.dropWhile_cons] at h
              split at h
              · exact ih a t' h
              · rw [stripComment_cons] at h
                split at h
                · cases h
                · injection h with h1 h2; subst h1; exact Bool.eq_false_iff.mpr (by assumption)
          exact this _ a t' hat
      · have hdf : isDigit c = false := Bool.eq_false_iff.mpr hd
        simp only [hdf, Bool.false_eq_true, if_false]
        rw [digitRuns_cons_nondigit c _ hdf]
        exact digitRuns_line l h.2

theorem firstIntL_nil_iff (l : List Byte) (h : nl ∉ l) : firstIntL l = [] ↔ Spec.ints l = [] := by
  unfold Spec.ints
  rw [List.map_eq_nil_iff, digitRuns_line l h]
  split <;> simp_all

theorem not_mem_firstInt {l : List Byte} (h : nl ∉ l) : nl ∉ firstIntL l :=
  fun hm => h ((toStop_suffix _ _ _).subset hm)

theorem not_mem_dropWhile {l : List Byte} (P) (h : nl ∉ l) : nl ∉ l.dropWhile P :=
  fun hm => h ((dropWhile_suffix' _ _).subset hm)

/-- Unpacking of the integers of a line along the code's scan. -/
theorem ints_cons (l : List Byte) (h : nl ∉ l) (x : Nat) (t : List Nat) (hx : Spec.ints l = x :: t) :
    firstIntL l ≠ [] ∧ x = decVal ((firstIntL l).takeWhile isDigit) ∧
      Spec.ints ((firstIntL l).dropWhile isDigit) = t := by
  unfold Spec.ints at hx
  rw [digitRuns_line l h] at hx
  split at hx
  · simp at hx
  · rename_i hne
    simp only [List.map_cons, List.cons.injEq] at hx
    exact ⟨hne, by rw [← hx.1, decimal_eq], hx.2⟩

/-! ## lists of lines -/

/-- The text consisting of the given lines, each followed by a newline. -/
def text (ls : List (List Byte)) : List Byte := (ls.map (· ++ [nl])).flatten

@[simp] theorem text_nil : text [] = [] := rfl
theorem text_cons (l ls) : text (l :: ls) = l ++ nl :: text ls := by simp [text]
theorem text_append (a b) : text (a ++ b) = text a ++ text b := by simp [text]

/-- Lines without newlines in them. -/
abbrev NoNl (ls : List (List Byte)) : Prop := ∀ l ∈ ls, nl ∉ l

theorem firstInt_text (ls : List (List Byte)) (h : NoNl ls) :
    (∃ u, u ≠ [] ∧ ∀ X, firstIntL (text ls ++ X) = u ++ X) ∨
    (∀ X, firstIntL (text ls ++ X) = firstIntL X) := by
  induction ls with
  | nil => exact .inr (fun X => rfl)
  | cons l ls ih =>
    have hl : nl ∉ l := h l (List.mem_cons_self ..)
    have ih := ih (fun l hl => h l (List.mem_cons_of_mem _ hl))
    have e : ∀ X, firstIntL (text (l :: ls) ++ X) =
        if firstIntL l = [] then firstIntL (text ls ++ X) else firstIntL l ++ nl :: (text ls ++ X) := by
      intro X
      rw [text_cons, List.append_assoc, List.cons_append]
      exact toStop_line _ isDigit_nl l _ hl
    by_cases hn : firstIntL l = []
    · simp only [e, hn, if_true]; exact ih
    · left
      refine ⟨firstIntL l ++ nl :: text ls, by simp [hn], fun X => ?_⟩
      rw [e, if_neg hn]; simp

/-- What lies before the first stop contains no stop. -/
theorem toStop_split (stop) : ∀ (b : Bool) (s : List Byte),
    ∃ g, s = g ++ toStop stop b s ∧ toStop stop b g = []
  | b, [] => ⟨[], by cases b <;> simp [toStop], by cases b <;> simp [toStop]⟩
  | true, c :: s => by
    obtain ⟨g, h1, h2⟩ := toStop_split stop (!(c == nl)) s
    refine ⟨c :: g, ?_, ?_⟩
    · rw [toStop.eq_2]
      by_cases hc : c = nl
      · simp only [hc, beq_self_eq_true, Bool.not_true] at h1 ⊢; simpa using h1
      · have : (c == nl) = false := by simpa using hc
        simp only [this, Bool.not_false] at h1 ⊢; simpa using h1
    · rw [toStop.eq_2]
      by_cases hc : c = nl
      · simp only [hc, beq_self_eq_true, Bool.not_true] at h2 ⊢; simpa using h2
      · have : (c == nl) = false := by simpa using hc
        simp only [this, Bool.not_false] at h2 ⊢; simpa using h2
  | false, c :: s => by
    by_cases hc : isCom c
    · obtain ⟨g, h1, h2⟩ := toStop_split stop true s
      exact ⟨c :: g, by rw [toStop.eq_3, if_pos hc]; simpa using h1, by rw [toStop.eq_3, if_pos hc]; exact h2⟩
    · by_cases hs : stop c
      · exact ⟨[], by rw [toStop.eq_3, if_neg hc, if_pos hs]; rfl, by simp [toStop]⟩
      · obtain ⟨g, h1, h2⟩ := toStop_split stop false s
        exact ⟨c :: g, by rw [toStop.eq_3, if_neg hc, if_neg hs]; simpa using h1,
          by rw [toStop.eq_3, if_neg hc, if_neg hs]; exact h2⟩

/-- The region between the first integer of `A ++ B` and the first integer of `B`: it is the text of the
lines `A` from its first integer on, followed by something without integers. -/
theorem region_split (A : List (List Byte)) (X : List Byte) (hA : NoNl A) :
    ∃ g, X = g ++ firstIntL X ∧ firstIntL g = [] ∧
      firstIntL (text A ++ X) = firstIntL (text A ++ g) ++ firstIntL X := by
  obtain ⟨g, h1, h2⟩ := toStop_split isDigit false X
  refine ⟨g, h1, h2, ?_⟩
  rcases firstInt_text A hA with ⟨u, _, hu⟩ | hu
  · rw [hu, hu, List.append_assoc, ← h1]
  · rw [hu, hu, show firstIntL g = [] from h2]; rfl

/-- Splitting at an arbitrary byte position and moving to the next line. -/
theorem split_point (ls : List (List Byte)) (tail : List Byte) (hls : NoNl ls) (htail : nl ∉ tail)
    (p : Nat) :
    let s := text ls ++ tail
    let j := (s.take p).count nl
    eolL (s.drop p) = if j < ls.length then nl :: (text (ls.drop (j+1)) ++ tail) else [] := by
  induction ls generalizing p with
  | nil =>
    simp only [text_nil, List.nil_append, List.length_nil, Nat.not_lt_zero, if_false]
    apply dropWhile_nil
    intro x hx
    simp only [bne_iff_ne, ne_eq]
    rintro rfl; exact htail (List.mem_of_mem_drop hx)
  | cons l ls ih =>
    have hl : nl ∉ l := hls l (List.mem_cons_self ..)
    simp only [text_cons, List.append_assoc, List.cons_append, List.length_cons]
    by_cases hp : p ≤ l.length
    · have hcnt : ((l ++ nl :: (text ls ++ tail)).take p).count nl = 0 := by
        rw [List.take_append_of_le_length hp, List.count_eq_zero]
        exact fun hm => hl (List.mem_of_mem_take hm)
      rw [hcnt, if_pos (by omega), List.drop_append_of_le_length hp,
        eolL_line _ _ (fun hm => hl (List.mem_of_mem_drop hm))]
      simp
    · obtain ⟨q, rfl⟩ : ∃ q, p = l.length + 1 + q := ⟨p - (l.length + 1), by omega⟩
      have e1 : (l ++ nl :: (text ls ++ tail)) = (l ++ [nl]) ++ (text ls ++ tail) := by simp
      have e2 : l.length + 1 + q = (l ++ [nl]).length + q := by simp
      have hd : (l ++ nl :: (text ls ++ tail)).drop (l.length + 1 + q) = (text ls ++ tail).drop q := by
        rw [e1, e2, List.drop_append]; simp
      have ht : ((l ++ nl :: (text ls ++ tail)).take (l.length + 1 + q)).count nl =
          1 + ((text ls ++ tail).take q).count nl := by
        rw [e1, e2, List.take_append]
        rw [List.take_of_length_le (by omega), List.count_append, List.count_append,
          List.count_eq_zero.mpr hl]
        simp
      have ih := ih (fun l hl => hls l (List.mem_cons_of_mem _ hl)) q
      simp only at ih
      rw [hd, ht, ih]
      by_cases hj : ((text ls ++ tail).take q).count nl < ls.length
      · rw [if_pos hj, if_pos (by omega)]
        rw [show 1 + ((text ls ++ tail).take q).count nl + 1 =
          (((text ls ++ tail).take q).count nl + 1) + 1 by omega, List.drop_succ_cons]
      · rw [if_neg hj, if_neg (by omega)]

/-- `eol` then `next_int` from any position lands on the first integer of the following line. -/
theorem split_next (ls : List (List Byte)) (tail : List Byte) (hls : NoNl ls) (htail : nl ∉ tail)
    (ht : firstIntL tail = []) (p : Nat) :
    nextIntL (eolL ((text ls ++ tail).drop p)) =
      firstIntL (text (ls.drop (((text ls ++ tail).take p).count nl + 1)) ++ tail) := by
  have h := split_point ls tail hls htail p
  simp only at h
  rw [h]
  split
  · rw [nextIntL_nl]
  · rw [List.drop_of_length_le (by omega)]
    simp [nextIntL, toStop, ht]

/-- A file is its lines. -/
theorem text_lines (s : List Byte) :
    s = text (Spec.lines s).dropLast ++ (Spec.lines s).getLast (Spec.lines_ne_nil s) := by
  have h : ∀ (L : List (List Byte)) (hne : L ≠ []), [nl].intercalate L = text L.dropLast ++ L.getLast hne := by
    intro L hne
    induction L with
    | nil => exact absurd rfl hne
    | cons a L ih =>
      cases L with
      | nil => simp [List.intercalate]
      | cons b L =>
        have := ih (by simp)
        rw [List.dropLast_cons_of_ne_nil (by simp), text_cons, List.getLast_cons (by simp)]
        rw [List.append_assoc, List.cons_append, ← this]
        simp [List.intercalate]
  rw [← h]
  exact (List.intercalate_splitOn nl).symm

theorem lines_noNl (s : List Byte) : NoNl (Spec.lines s) := by
  intro l hl hm
  unfold Spec.lines at hl
  have : ∀ (s : List Byte), ∀ l ∈ s.splitOnP (· == nl), ∀ x ∈ l, (x == nl) = false := by
    intro s
    induction s with
    | nil => intro l hl x hx; simp at hl; subst hl; simp at hx
    | cons a s ih =>
      intro l hl x hx
      rw [List.splitOnP_cons_eq_if_modifyHead] at hl
      split at hl
      · simp at hl
        rcases hl with rfl | hl
        · simp at hx
        · exact ih l hl x hx
      · rename_i ha
        cases hsp : s.splitOnP (· == nl) with
        | nil => exact absurd hsp (List.splitOnP_ne_nil _ _)
        | cons b bs =>
          rw [hsp, List.modifyHead_cons] at hl
          simp at hl
          rcases hl with rfl | hl
          · simp at hx
            rcases hx with rfl | hx
            · simpa using ha
            · exact ih b (by rw [hsp]; simp) x hx
          · exact ih l (by rw [hsp]; simp [hl]) x hx
  have := this s l hl nl hm
  simp at this

end Pigo
