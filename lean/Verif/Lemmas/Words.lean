import Verif.Lemmas.WriteTensor
import Verif.Lemmas.MatrixMarket
import Verif.Props.EdgeList2

/-!
# Lines made of words separated by blanks
-/

namespace Pigo

variable {W : Type}

/-- A word: not empty, no blank, comment character or newline. -/
structure Word (w : List Byte) : Prop where
  ne : w ≠ []
  chars : ∀ b ∈ w, Spec.isBlank b = false ∧ Spec.isComment b = false ∧ b ≠ nl

/-- The words with single blanks in between. -/
def unwords (ws : List (List Byte)) : List Byte := List.intercalate (str " ") ws

theorem unwords_cons (a b : List Byte) (l : List (List Byte)) : unwords (a :: b :: l) = a ++ 32 :: unwords (b :: l) := by
  rw [unwords, inter_cons, List.append_assoc]; rfl

theorem unwords_one (a : List Byte) : unwords [a] = a := inter_one a

theorem digit_word {b : Byte} (h : isDigit b = true) : Spec.isBlank b = false ∧ Spec.isComment b = false ∧ b ≠ nl := by
  refine ⟨?_, ?_, ?_⟩
  · cases hb : Spec.isBlank b with
    | false => rfl
    | true => rw [(blank_not hb).1] at h; cases h
  · rw [isCom_spec]
    cases hb : isCom b with
    | false => rfl
    | true =>
      unfold isCom at hb
      rw [Bool.or_eq_true, beq_iff_eq, beq_iff_eq] at hb
      rcases hb with rfl | rfl <;> revert h <;> decide
  · rintro rfl; revert h; decide

theorem showNat_word (n : Nat) : Word (Spec.showNat n) := ⟨showNat_ne_nil n, fun b hb => digit_word (showNat_digits n b hb)⟩

theorem showInt_word (z : Int) : Word (Spec.showInt z) := by
  unfold Spec.showInt
  split
  · refine ⟨by simp [str], fun b hb => ?_⟩
    rcases List.mem_append.mp hb with hb | hb
    · rw [show str "-" = [45] by decide, List.mem_singleton] at hb
      subst hb; decide
    · exact (showNat_word _).chars b hb
  · exact showNat_word _

theorem unwords_chars : ∀ {ws : List (List Byte)}, (∀ w ∈ ws, Word w) → ∀ b ∈ unwords ws, Spec.isComment b = false ∧ b ≠ nl
  | [], _, b, hb => by simp [unwords, List.intercalate] at hb
  | [a], h, b, hb => by rw [unwords_one] at hb; exact ((h a (by simp)).chars b hb).2
  | a :: c :: ws, h, b, hb => by
    rw [unwords_cons] at hb
    rcases List.mem_append.mp hb with hb | hb
    · exact ((h a (by simp)).chars b hb).2
    · rcases List.mem_cons.mp hb with rfl | hb
      · decide
      · exact unwords_chars (fun w hw => h w (List.mem_cons_of_mem _ hw)) b hb

theorem unwords_noNl {ws : List (List Byte)} (h : ∀ w ∈ ws, Word w) : nl ∉ unwords ws := fun hm => (unwords_chars h nl hm).2 rfl

theorem unwords_strip {ws : List (List Byte)} (h : ∀ w ∈ ws, Word w) : Spec.stripComment (unwords ws) = unwords ws := by
  have := strip_no_comment (unwords ws) (fun b hb => (unwords_chars h b hb).1) []
  rwa [List.append_nil, show Spec.stripComment [] = [] from rfl, List.append_nil] at this

theorem tokens_append (a t : List Byte) (c : Byte) (h : Spec.isBlank c = true) :
    Spec.tokens (a ++ c :: t) = Spec.tokens a ++ Spec.tokens t := by
  unfold Spec.tokens
  rw [List.splitOnP_append_cons a t h, List.filter_append]

theorem tokens_word {w : List Byte} (h : Word w) : Spec.tokens w = [w] := by
  unfold Spec.tokens
  rw [List.splitOnP_eq_singleton (fun b hb => (h.chars b hb).1)]
  simp [h.ne]

theorem tokens_unwords : ∀ {ws : List (List Byte)}, (∀ w ∈ ws, Word w) → Spec.tokens (unwords ws) = ws
  | [], _ => by simp [unwords, List.intercalate, Spec.tokens]
  | [a], h => by rw [unwords_one]; exact tokens_word (h a (by simp))
  | a :: c :: ws, h => by
    rw [unwords_cons, tokens_append _ _ _ (by decide), tokens_word (h a (by simp)), tokens_unwords (fun w hw => h w (List.mem_cons_of_mem _ hw))]
    rfl

theorem digitRuns_digits {w : List Byte} (hn : w ≠ []) (h : ∀ b ∈ w, isDigit b = true) : Spec.digitRuns w = [w] := by
  have := digitRuns_run w [] h hn (by simp)
  rwa [List.append_nil, digitRuns_nil] at this

theorem digitRuns_unwords : ∀ {ws : List (List Byte)}, (∀ w ∈ ws, w ≠ [] ∧ ∀ b ∈ w, isDigit b = true) → Spec.digitRuns (unwords ws) = ws
  | [], _ => by simp [unwords, List.intercalate, Spec.digitRuns]
  | [a], h => by rw [unwords_one]; exact digitRuns_digits (h a (by simp)).1 (h a (by simp)).2
  | a :: c :: ws, h => by
    rw [unwords_cons, digitRuns_append _ _ _ (by decide), digitRuns_digits (h a (by simp)).1 (h a (by simp)).2,
      digitRuns_unwords (fun w hw => h w (List.mem_cons_of_mem _ hw))]
    rfl

theorem decimal_showNat (n : Nat) : Spec.decimal (Spec.showNat n) = n := by rw [decimal_eq, showNat_value]

theorem ints_nats (l : List Nat) : Spec.ints (unwords (l.map Spec.showNat)) = l := by
  unfold Spec.ints
  rw [unwords_strip (by intro w hw; obtain ⟨n, _, rfl⟩ := List.mem_map.mp hw; exact showNat_word n),
    digitRuns_unwords (by intro w hw; obtain ⟨n, _, rfl⟩ := List.mem_map.mp hw; exact ⟨showNat_ne_nil n, showNat_digits n⟩), List.map_map]
  have : Spec.decimal ∘ Spec.showNat = id := by funext n; exact decimal_showNat n
  rw [this, List.map_id]

/-- A line starting with a number has an integer. -/
theorem ints_first (n : Nat) (ws : List (List Byte)) (h : ∀ w ∈ ws, Word w) : Spec.ints (unwords (Spec.showNat n :: ws)) ≠ [] := by
  unfold Spec.ints
  rw [unwords_strip (by
    intro w hw
    rcases List.mem_cons.mp hw with rfl | hw
    · exact showNat_word n
    · exact h w hw)]
  intro hm
  rw [List.map_eq_nil_iff] at hm
  cases ws with
  | nil =>
    rw [unwords_one, digitRuns_digits (showNat_ne_nil n) (showNat_digits n)] at hm
    cases hm
  | cons a ws =>
    rw [unwords_cons, digitRuns_append _ _ _ (by decide), digitRuns_digits (showNat_ne_nil n) (showNat_digits n)] at hm
    cases hm

theorem showNat_allDigit (n : Nat) : (Spec.showNat n).all Spec.isDigit = true := by
  rw [List.all_eq_true]
  intro b hb
  rw [isDigit_spec]; exact showNat_digits n b hb

theorem parseSigned_showInt (z : Int) : Spec.parseSigned (Spec.showInt z) = some z := by
  unfold Spec.showInt
  split
  · rename_i hz
    rw [show str "-" = [45] by decide, List.singleton_append, Spec.parseSigned, if_pos (by decide),
      if_pos ⟨showNat_ne_nil _, showNat_allDigit _⟩, decimal_showNat]
    congr 1; omega
  · rename_i hz
    have hd := showNat_digits z.natAbs
    have ha := showNat_allDigit z.natAbs
    have hv := decimal_showNat z.natAbs
    have hz' : (z.natAbs : Int) = z := by omega
    cases hs : Spec.showNat z.natAbs with
    | nil => exact absurd hs (showNat_ne_nil _)
    | cons c ds =>
      rw [hs] at hd ha hv
      have hc := hd c (List.mem_cons_self ..)
      rw [Spec.parseSigned, if_neg, if_neg, if_pos ha, hv, hz']
      · intro h
        rw [← isDigit_spec, Spec.isDigit, decide_eq_true_eq] at hc
        rw [h] at hc; revert hc; decide
      · intro h
        rw [← isDigit_spec, Spec.isDigit, decide_eq_true_eq] at hc
        rw [h] at hc; revert hc; decide

/-! ## COO text -/

/-- The words of the line of an entry. -/
def cooWords (wgt : Bool) (txt : W → List Byte) (e : Nat × Nat × W) : List (List Byte) :=
  [Spec.showNat e.1, Spec.showNat e.2.1] ++ if wgt then [txt e.2.2] else []

theorem cooLine_unwords (wgt : Bool) (txt : W → List Byte) (e : Nat × Nat × W) :
    Spec.cooLine wgt txt e = unwords (cooWords wgt txt e) ++ [nl] := by
  unfold Spec.cooLine cooWords
  cases wgt with
  | false => simp only [Bool.false_eq_true, if_false, List.append_nil, unwords_cons, unwords_one, str_sp, str_nl, List.append_assoc, List.singleton_append]
  | true => simp only [if_true, List.cons_append, List.nil_append, unwords_cons, unwords_one, str_sp, str_nl, List.append_assoc]

theorem cooText_text (wgt : Bool) (txt : W → List Byte) (es : List (Nat × Nat × W)) :
    Spec.cooText wgt txt es = text (es.map (fun e => unwords (cooWords wgt txt e))) := by
  unfold Spec.cooText text
  rw [List.flatMap_def, List.map_map]
  congr 1
  apply List.map_congr_left
  intro e _
  rw [cooLine_unwords]; rfl

theorem filterMap_congr'' {α β : Type} {f g : α → Option β} {l : List α} (h : ∀ a ∈ l, f a = g a) : l.filterMap f = l.filterMap g := by
  induction l with
  | nil => rfl
  | cons a l ih => rw [List.filterMap_cons, List.filterMap_cons, h a (List.mem_cons_self ..), ih (fun b hb => h b (List.mem_cons_of_mem _ hb))]

/-- The text of a list of entries is a well-formed file with these entries, the weights standing for what the format makes of their text. -/
theorem cooText_entries_map {X : Type} {wgt : Bool} {txt : W → List Byte} {es : List (Nat × Nat × W)} (hw : ∀ e ∈ es, wgt = true → Word (txt e.2.2))
    {entry : List Byte → Option (Nat × Nat × X)} {g : Nat × Nat × W → Nat × Nat × X} (he : ∀ e ∈ es, entry (unwords (cooWords wgt txt e)) = some (g e)) :
    Spec.FileOk entry (Spec.cooText wgt txt es) ∧ Spec.entries entry (Spec.cooText wgt txt es) = es.map g := by
  have hwords : ∀ e ∈ es, ∀ w ∈ cooWords wgt txt e, Word w := by
    intro e he' w hw'
    unfold cooWords at hw'
    rcases List.mem_append.mp hw' with h | h
    · simp only [List.mem_cons, List.not_mem_nil, or_false] at h
      rcases h with rfl | rfl <;> exact showNat_word _
    · split at h
      · rename_i hg
        rw [List.mem_singleton] at h; subst h
        exact hw e he' hg
      · simp at h
  have hl : Spec.lines (Spec.cooText wgt txt es) = es.map (fun e => unwords (cooWords wgt txt e)) ++ [[]] := by
    rw [cooText_text]
    have := lines_text (ls := es.map (fun e => unwords (cooWords wgt txt e))) (tail := []) (by
      intro l hl
      obtain ⟨e, he', rfl⟩ := List.mem_map.mp hl
      exact unwords_noNl (hwords e he')) (by simp)
    rwa [List.append_nil] at this
  have hint : ∀ e ∈ es, Spec.ints (unwords (cooWords wgt txt e)) ≠ [] := fun e he' =>
    ints_first e.1 (Spec.showNat e.2.1 :: if wgt then [txt e.2.2] else []) (fun w hw' => hwords e he' w (List.mem_cons_of_mem _ hw'))
  have hlast : Spec.ints [] = [] := by simp [Spec.ints, Spec.stripComment, Spec.digitRuns]
  refine ⟨⟨?_, ?_⟩, ?_⟩
  · intro l hl'
    rw [hl] at hl'
    rcases List.mem_append.mp hl' with h | h
    · obtain ⟨e, he', rfl⟩ := List.mem_map.mp h
      exact .inr (by rw [he e he']; rfl)
    · rw [List.mem_singleton] at h; subst h; exact .inl hlast
  · have : ∀ (L : List (List Byte)) (h : L ≠ []), L = es.map (fun e => unwords (cooWords wgt txt e)) ++ [[]] → Spec.ints (L.getLast h) = [] := by
      rintro L h rfl
      rw [List.getLast_append_right (by simp)]
      simpa using hlast
    exact this _ _ hl
  · unfold Spec.entries
    rw [hl, List.filterMap_append, List.filterMap_map]
    have e1 : es.filterMap ((fun l => if Spec.ints l = [] then none else entry l) ∘ fun e => unwords (cooWords wgt txt e)) = es.filterMap (fun e => some (g e)) := by
      apply filterMap_congr''
      intro e he'
      simp only [Function.comp_apply]
      rw [if_neg (hint e he'), he e he']
    rw [e1, List.filterMap_eq_map']
    simp [hlast]

/-- The same when the texts stand for the weights themselves. -/
theorem cooText_entries {wgt : Bool} {txt : W → List Byte} {es : List (Nat × Nat × W)} (hw : ∀ e ∈ es, wgt = true → Word (txt e.2.2))
    {entry : List Byte → Option (Nat × Nat × W)} (he : ∀ e ∈ es, entry (unwords (cooWords wgt txt e)) = some e) :
    Spec.FileOk entry (Spec.cooText wgt txt es) ∧ Spec.entries entry (Spec.cooText wgt txt es) = es := by
  have := cooText_entries_map (g := id) hw he
  rwa [List.map_id] at this

theorem entry0_words (e : Nat × Nat × Unit) (txt : Unit → List Byte) : Spec.entry0 (unwords (cooWords false txt e)) = some e := by
  have : unwords (cooWords false txt e) = unwords ([e.1, e.2.1].map Spec.showNat) := rfl
  rw [this, Spec.entry0, Spec.edge, ints_nats]
  rfl

theorem entryU_words (e : Nat × Nat × Nat) : Spec.entryU (unwords (cooWords true Spec.showNat e)) = some e := by
  have : unwords (cooWords true Spec.showNat e) = unwords ([e.1, e.2.1, e.2.2].map Spec.showNat) := rfl
  rw [this, Spec.entryU, ints_nats]

theorem entryW_words' {X : Type} {parse : List Byte → Option X} {txt : W → List Byte} (e : Nat × Nat × W) (x : X) (hw : Word (txt e.2.2)) (hp : parse (txt e.2.2) = some x) :
    Spec.entryW parse (unwords (cooWords true txt e)) = some (e.1, e.2.1, x) := by
  have hws : ∀ w ∈ cooWords true txt e, Word w := by
    intro w h
    simp only [cooWords, if_true, List.cons_append, List.nil_append, List.mem_cons, List.not_mem_nil, or_false] at h
    rcases h with rfl | rfl | rfl
    · exact showNat_word _
    · exact showNat_word _
    · exact hw
  rw [Spec.entryW, unwords_strip hws, tokens_unwords hws]
  simp only [cooWords, if_true, List.cons_append, List.nil_append, showNat_allDigit, and_self, hp, Option.map_some, decimal_showNat]

theorem entryW_words {parse : List Byte → Option W} {txt : W → List Byte} (e : Nat × Nat × W) (hw : Word (txt e.2.2)) (hp : parse (txt e.2.2) = some e.2.2) :
    Spec.entryW parse (unwords (cooWords true txt e)) = some e := entryW_words' e e.2.2 hw hp

end Pigo
