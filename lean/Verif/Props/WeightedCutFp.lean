import Verif.Lemmas.WeightedCutAny
import Verif.Props.WeightedText
import Verif.Props.Fp
import Verif.Props.Total
import Verif.Spec.WeightedCut

/-!
# Properties: edge lists with floating point weights that are cut

C88, continued: what is stored.  The arithmetic `ops` of the floating point type is arbitrary.
-/

namespace Pigo

variable {V : Type}

/-- Where the weight of a cut line is looked for. -/
theorem cutLine_pre {a x b y c w : List Byte} (hbl : ∀ z ∈ a ++ b ++ c, Spec.isBlank z = true) (hx' : x ≠ [] ∧ ∀ z ∈ x, Spec.isDigit z = true)
    (hy' : y ≠ [] ∧ ∀ z ∈ y, Spec.isDigit z = true) (hb : b ≠ []) (hwc : w = [] ∨ c ≠ []) (hn : nl ∉ a ++ x ++ b ++ y ++ c ++ w) :
    2 ≤ (Spec.ints (a ++ x ++ b ++ y ++ c ++ w)).length ∧ preW (firstIntL (a ++ x ++ b ++ y ++ c ++ w)) = c ++ w := by
  obtain ⟨hx, hxd⟩ := hx'
  obtain ⟨hy, hyd⟩ := hy'
  have hbla : ∀ z ∈ a, Spec.isBlank z = true := fun z hz => hbl z (by simp [hz])
  have hblb : ∀ z ∈ b, Spec.isBlank z = true := fun z hz => hbl z (by simp [hz])
  have hblc : ∀ z ∈ c, Spec.isBlank z = true := fun z hz => hbl z (by simp [hz])
  have hdx : ∀ z ∈ x, isDigit z = true := fun z hz => by rw [← isDigit_spec]; exact hxd z hz
  have hdy : ∀ z ∈ y, isDigit z = true := fun z hz => by rw [← isDigit_spec]; exact hyd z hz
  have hstop : ∀ b, Spec.isBlank b = true → isDigit b = false := fun b h => (blank_not h).1
  have word : ∀ (p s : List Byte), p ≠ [] → (∀ z ∈ p, isDigit z = true) → firstIntL (p ++ s) = p ++ s := by
    intro p s hp hd
    cases p with
    | nil => exact absurd rfl hp
    | cons z p =>
      have hz := hd z (by simp)
      have : isCom z = false := by
        cases hc : isCom z with
        | false => rfl
        | true =>
          exfalso
          simp only [isCom, Bool.or_eq_true, beq_iff_eq] at hc
          rcases hc with rfl | rfl <;> revert hz <;> decide
      simp [firstIntL, toStop, hz, this]
  have e1 : firstIntL (a ++ x ++ b ++ y ++ c ++ w) = x ++ (b ++ (y ++ (c ++ w))) := by
    simp only [List.append_assoc]
    rw [show firstIntL (a ++ (x ++ (b ++ (y ++ (c ++ w))))) = firstIntL (x ++ (b ++ (y ++ (c ++ w)))) from toStop_blanks isDigit hstop a _ hbla, word x _ hx hdx]
  have d1 : (x ++ (b ++ (y ++ (c ++ w)))).dropWhile isDigit = b ++ (y ++ (c ++ w)) := by
    refine (takeWhile_word isDigit x _ hdx ?_).2
    intro z s hz
    cases b with
    | nil => exact absurd rfl hb
    | cons z' b => injection hz with hz _; rw [← hz]; exact hstop _ (hblb _ (by simp))
  have e2 : nextIntL (firstIntL (a ++ x ++ b ++ y ++ c ++ w)) = y ++ (c ++ w) := by
    rw [e1]
    unfold nextIntL
    rw [d1, show firstIntL (b ++ (y ++ (c ++ w))) = firstIntL (y ++ (c ++ w)) from toStop_blanks isDigit hstop b _ hblb, word y _ hy hdy]
  have d2 : (y ++ (c ++ w)).dropWhile isDigit = c ++ w := by
    refine (takeWhile_word isDigit y _ hdy ?_).2
    intro z s hz
    rcases hwc with rfl | hc
    · rw [List.append_nil] at hz
      subst hz; exact hstop _ (hblc _ (by simp))
    · cases c with
      | nil => exact absurd rfl hc
      | cons z' c => injection hz with hz _; rw [← hz]; exact hstop _ (hblc _ (by simp))
  refine ⟨two_ints hn (by rw [e1]; simp [hx]) (by rw [e2]; simp [hy]), ?_⟩
  unfold preW
  rw [nextInt_afterNum (atNum_firstInt _ _), e2]
  unfold afterNum
  have hat : AtNum (y ++ (c ++ w)) := by rw [← e2]; exact atNum_nextInt _
  rw [hat.toDigit, d2]

/-- A cut line holds no weight that ends before the line does. -/
theorem cutLine_fp (ops : FpOps V) {τ : List Byte} (hn : nl ∉ τ) (h : Spec.CutLine τ) : GCut (fpR ops) τ := by
  obtain ⟨a, x, b, y, c, w, rfl, hbl, hx, hy, hb, hw, hwc⟩ := h
  obtain ⟨p1, p2⟩ := cutLine_pre hbl hx hy hb hwc hn
  have hblc : ∀ z ∈ c, Spec.isBlank z = true := fun z hz => hbl z (by simp [hz])
  refine ⟨p1, ?_⟩
  rw [p2]
  have d3 : (c ++ w).dropWhile (fun b => !isFp b) = w := by
    refine (takeWhile_word (fun b => !isFp b) c w (fun z hz => by simp [(blank_not (hblc z hz)).2.2.2.1]) ?_).2
    intro z s hz
    have := hw z (by rw [hz]; simp)
    rw [isNumChar_spec] at this; simp [this]
  unfold fpR
  rw [d3]
  apply dropWhile_nil
  intro z hz
  rw [← isNumChar_spec]
  exact hw z ((fpL_suffix ops _ _).subset hz)

/-- The labels as they are stored. -/
noncomputable def fpEnt (lw : Nat) (ops : FpOps V) (l : List Byte) : Option (Nat × Nat × V) :=
  (if Spec.ints l = [] then none else Spec.entryF (evalLit ops) l).map (modL lw)

theorem fpLines (lw : Nat) (ops : FpOps V) {L : List (List Byte)} (hn : NoNl L)
    (hL : ∀ l ∈ L, Spec.ints l = [] ∨ (Spec.entryF (evalLit ops) l).isSome) : GLines lw (fpV ops) (fpR ops) (fpEnt lw ops) L := by
  intro l hl
  by_cases h0 : Spec.ints l = []
  · exact .inl ⟨h0, by unfold fpEnt; rw [if_pos h0]; rfl⟩
  · right
    rcases hL l hl with h | h
    · exact absurd h h0
    · obtain ⟨en, he⟩ := Option.isSome_iff_exists.mp h
      exact ⟨modL lw en, by unfold fpEnt; rw [if_neg h0, he]; rfl, glaw_of_line (AnyW.toVal (wFp_any ops)) (format_fp lw ops l (hn l hl) en he trivial)⟩

theorem fpEnt_map (lw : Nat) (ops : FpOps V) (L : List (List Byte)) :
    L.filterMap (fpEnt lw ops) = (Spec.entriesOf (Spec.entryF (evalLit ops)) L).map (modL lw) := by
  unfold Spec.entriesOf
  rw [List.map_filterMap]
  rfl

/-- **C88**: lines with an entry (or without numbers), then the text after the last newline with two labels and no weight, the beginning
of a weight, or a weight up to the end of the file: in every execution, with any number of threads, the entries of the complete
lines are in the first positions, in the order of the file, with their weights, and the sizes are those of these entries. -/
theorem C88_float_cut_entry_rest (μ : Mapping) (hpad : 0 < μ.pad) (lw ow T : Nat) (hT : 0 < T) (hm : μ.bytes.length < 2 ^ ow) (ops : FpOps V)
    (L : List (List Byte)) (τ : List Byte) (hlines : Spec.lines μ.bytes = L ++ [τ])
    (hL : ∀ l ∈ L, Spec.ints l = [] ∨ (Spec.entryF (evalLit ops) l).isSome) (hτ : Spec.CutLine τ) :
    ∀ out, LoadEdgeList μ lw ow {} (wFp ops) T out → ∃ c, out = .ok c ∧
      c.m = (Spec.entriesOf (Spec.entryF (evalLit ops)) L).length + 1 ∧ c.x.length = c.m ∧ c.y.length = c.m ∧ c.w.length = c.m ∧
      c.nrows = (Spec.maxOf ((Spec.entriesOf (Spec.entryF (evalLit ops)) L).map (fun e => e.1 % 2 ^ lw)) + 1) % 2 ^ lw ∧
      c.ncols = (Spec.maxOf ((Spec.entriesOf (Spec.entryF (evalLit ops)) L).map (fun e => e.2.1 % 2 ^ lw)) + 1) % 2 ^ lw ∧ c.n = max c.nrows c.ncols ∧
      ∀ (i x y : Nat) (w : V), (Spec.entriesOf (Spec.entryF (evalLit ops)) L)[i]? = some (x, y, w) →
        c.x[i]? = some (x % 2 ^ lw) ∧ c.y[i]? = some (y % 2 ^ lw) ∧ c.w[i]? = some w := by
  intro out ho
  obtain ⟨hnL, hnτ, _⟩ := cutG_file hlines
  obtain ⟨c, h1, h2, h3, h4, h5, h6, h7, h8, h9⟩ := loadG_rest μ (wFp_any ops μ) hpad hT hm L τ hlines (fpLines lw ops hnL hL) (cutLine_fp ops hnτ hτ) out ho
  rw [fpEnt_map] at h2 h6 h7 h9
  rw [List.length_map] at h2
  rw [List.map_map] at h6 h7
  exact ⟨c, h1, h2, h3, h4, h5, h6, h7, h8, fun i x y w hi => h9 i _ _ w (by rw [List.getElem?_map, hi]; rfl)⟩

/-- **C88 fails**: of such a file one entry more is made than there are complete lines, and its labels are whatever the memory held
before: any two labels are possible. -/
theorem C88_float_cut_entry_violated (μ : Mapping) (hpad : 0 < μ.pad) (lw ow T : Nat) (hT : 0 < T) (hm : μ.bytes.length < 2 ^ ow) (ops : FpOps V)
    (L : List (List Byte)) (τ : List Byte) (hlines : Spec.lines μ.bytes = L ++ [τ])
    (hL : ∀ l ∈ L, Spec.ints l = [] ∨ (Spec.entryF (evalLit ops) l).isSome) (hτ : Spec.CutLine τ) (a b : Nat) :
    ∃ c, LoadEdgeList μ lw ow {} (wFp ops) T (.ok c) ∧ c.m = (Spec.entriesOf (Spec.entryF (evalLit ops)) L).length + 1 ∧
      c.x[(Spec.entriesOf (Spec.entryF (evalLit ops)) L).length]? = some a ∧ c.y[(Spec.entriesOf (Spec.entryF (evalLit ops)) L).length]? = some b := by
  obtain ⟨hnL, hnτ, _⟩ := cutG_file hlines
  haveI : Nonempty V := ⟨ops.zero⟩
  obtain ⟨c, h1, h2⟩ := loadG_junk μ (wFp_any ops μ) hpad hT hm L τ hlines (fpLines lw ops hnL hL) (cutLine_fp ops hnτ hτ) a b
  rw [fpEnt_map, List.length_map] at h2
  obtain ⟨c', e, h3, _⟩ := C88_float_cut_entry_rest μ hpad lw ow T hT hm ops L τ hlines hL hτ _ h1
  cases e
  exact ⟨c, h1, h3, h2⟩

/-- **C88 fails**: lines with an entry (or without numbers), then a line with one number and no number after it: every execution, with
any number of threads, stores outside of the array of weights. -/
theorem C88_float_lone_number_violated (μ : Mapping) (hpad : 0 < μ.pad) (lw ow T : Nat) (hT : 0 < T) (hm : μ.bytes.length < 2 ^ ow) (ops : FpOps V)
    (L B : List (List Byte)) (l : List Byte) (hlines : Spec.lines μ.bytes = L ++ l :: B)
    (hL : ∀ l ∈ L, Spec.ints l = [] ∨ (Spec.entryF (evalLit ops) l).isSome) (hl : (Spec.ints l).length = 1) (hB : ∀ l ∈ B, Spec.ints l = []) :
    (∃ out, LoadEdgeList μ lw ow {} (wFp ops) T out) ∧ ∀ out, LoadEdgeList μ lw ow {} (wFp ops) T out → out = .error .oob := by
  haveI : Nonempty V := ⟨ops.zero⟩
  have hnL : NoNl L := fun l' h' => lines_noNl μ.bytes l' (by rw [hlines]; simp [h'])
  exact ⟨readEl_any μ lw ow {} (wFp ops) T _, loadG_lone μ (wFp_any ops μ) hpad hT hm L B l hlines (fpLines lw ops hnL hL) hl hB⟩

/-! ## Instances -/

/-- A file cut within the weight of its last line: `1.` of a longer number. -/
def exCut : List Byte := str "1 2 -0.5\n# c\n9 8 2.5e1\n4 5 1."

theorem exCut_lines : Spec.lines exCut = [str "1 2 -0.5", str "# c", str "9 8 2.5e1"] ++ [str "4 5 1."] := by decide

theorem exCut_entries : Spec.entriesOf (Spec.entryF (evalLit exactOps)) [str "1 2 -0.5", str "# c", str "9 8 2.5e1"] = [(1, 2, -(1/2)), (9, 8, 25)] := by
  decide +kernel

theorem exCut_cut : Spec.CutLine (str "4 5 1.") :=
  ⟨[], str "4", str " ", str "5", str " ", str "1.", by decide, by decide, by decide, by decide, by decide, by decide, .inr (by decide)⟩

/-- `1 2 -0.5`, a comment, `9 8 2.5e1` and the cut `4 5 1.`: two entries as they are; the labels of the third one are anything. -/
example (T : Nat) (hT : 0 < T) (a b : Nat) :
    (∀ out, LoadEdgeList ⟨exCut, 9⟩ 32 64 {} (wFp exactOps) T out → ∃ c, out = .ok c ∧ c.m = 3 ∧ c.nrows = 10 ∧ c.ncols = 9 ∧
      c.x[1]? = some 9 ∧ c.y[1]? = some 8 ∧ c.w[1]? = some 25 ∧ c.w[0]? = some (-(1/2) : ℚ)) ∧
    ∃ c, LoadEdgeList ⟨exCut, 9⟩ 32 64 {} (wFp exactOps) T (.ok c) ∧ c.m = 3 ∧ c.x[2]? = some a ∧ c.y[2]? = some b := by
  constructor
  · intro out ho
    obtain ⟨c, h1, h2, h3, h4, h5, h6, h7, h8, h9⟩ := C88_float_cut_entry_rest ⟨exCut, 9⟩ (by decide) 32 64 T hT (by decide) exactOps _ _ exCut_lines
      (by decide) exCut_cut out ho
    rw [exCut_entries] at h2 h6 h7 h9
    exact ⟨c, h1, h2, h6, h7, (h9 1 9 8 25 rfl).1, (h9 1 9 8 25 rfl).2.1, (h9 1 9 8 25 rfl).2.2, (h9 0 1 2 _ rfl).2.2⟩
  · have := C88_float_cut_entry_violated ⟨exCut, 9⟩ (by decide) 32 64 T hT (by decide) exactOps _ _ exCut_lines (by decide) exCut_cut a b
    rw [exCut_entries] at this
    exact this

/-- The same file cut in its last line, within the first label. -/
example (T : Nat) (hT : 0 < T) : ∀ out, LoadEdgeList ⟨str "1 2 -0.5\n9 8 2.5e1\n4", 9⟩ 32 64 {} (wFp exactOps) T out → out = .error .oob :=
  (C88_float_lone_number_violated ⟨str "1 2 -0.5\n9 8 2.5e1\n4", 9⟩ (by decide) 32 64 T hT (by decide) exactOps [str "1 2 -0.5", str "9 8 2.5e1"] [] (str "4")
    (by decide) (by decide) (by decide) (by decide)).2

end Pigo
