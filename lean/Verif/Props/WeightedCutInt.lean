import Verif.Lemmas.SintAny
import Verif.Props.WeightedCutFp

/-!
# Properties: edge lists with signed weights that are cut

C88, continued: what is stored if the weights are of a signed integer type and the numbers of the file fit that type.
-/

namespace Pigo

/-- A cut line holds no weight that ends before the line does. -/
theorem cutLine_sint {τ : List Byte} (hn : nl ∉ τ) (h : Spec.CutLineS τ) : GCut sintR τ := by
  obtain ⟨a, x, b, y, c, sg, ds, rfl, hbl, hx, hy, hb, hsg, hds, hwc⟩ := h
  obtain ⟨p1, p2⟩ := cutLine_pre hbl hx hy hb hwc hn
  refine ⟨p1, ?_⟩
  rw [p2]
  have hblc : ∀ z ∈ c, Spec.isBlank z = true := fun z hz => hbl z (by simp [hz])
  have hdd : ∀ z ∈ ds, isDigit z = true := fun z hz => by rw [← isDigit_spec]; exact hds z hz
  have s45 : isSign 45 = true := by decide
  have s43 : isSign 43 = true := by decide
  have c45 : isCom 45 = false := by decide
  have c43 : isCom 43 = false := by decide
  have word : nextSL (c ++ (sg ++ ds)) = sg ++ ds := by
    have h0 : (signL (c ++ (sg ++ ds))).dropWhile isDigit = c ++ (sg ++ ds) := by
      cases c with
      | nil =>
        rcases hwc with h | h
        · rw [h]; rfl
        · exact absurd rfl h
      | cons z c =>
        have hz := blank_not (hblc z (by simp))
        simp [signL, hz.2.2.1, hz.1]
    unfold nextSL
    rw [h0, toStop_blanks (fun b => isDigit b || isSign b) (fun b hb => by simp [(blank_not hb).1, (blank_not hb).2.2.1]) c _ hblc]
    rcases hsg with rfl | rfl | rfl
    · cases ds with
      | nil => simp [toStop]
      | cons d ds =>
        have hd := hdd d (by simp)
        simp [toStop, isDigit_not_com hd, hd]
    · simp [str, toStop, c45, s45]
    · simp [str, toStop, c43, s43]
  unfold sintR afterNum
  rw [word]
  apply dropWhile_nil
  intro z hz
  have h45 : isDigit 45 = false := by decide
  have h43 : isDigit 43 = false := by decide
  have : toDigitL (sg ++ ds) = ds := by
    have hdl : ds.dropWhile (fun b => !isDigit b) = ds := by
      cases ds with
      | nil => rfl
      | cons d ds => simp [hdd d (by simp)]
    rcases hsg with rfl | rfl | rfl
    · exact hdl
    · simpa [toDigitL, str, h45] using hdl
    · simpa [toDigitL, str, h43] using hdl
  rw [this] at hz
  exact hdd z hz

/-- The labels as they are stored. -/
noncomputable def sintEnt (lw : Nat) (l : List Byte) : Option (Nat × Nat × Int) :=
  (if Spec.ints l = [] then none else Spec.entryS l).map (modL lw)

theorem sintLines (lw ww : Nat) {L : List (List Byte)} (hn : NoNl L)
    (hL : ∀ l ∈ L, Spec.ints l = [] ∨ (Spec.entryS l).isSome) (hw : ∀ e ∈ Spec.entriesOf Spec.entryS L, e.2.2.natAbs < 2 ^ (ww - 1)) :
    GLines lw sintV sintR (sintEnt lw) L := by
  intro l hl
  by_cases h0 : Spec.ints l = []
  · exact .inl ⟨h0, by unfold sintEnt; rw [if_pos h0]; rfl⟩
  · right
    rcases hL l hl with h | h
    · exact absurd h h0
    · obtain ⟨en, he⟩ := Option.isSome_iff_exists.mp h
      refine ⟨modL lw en, by unfold sintEnt; rw [if_neg h0, he]; rfl, glaw_of_line (wSint_val ww) (format_sint lw ww l (hn l hl) en he ?_)⟩
      refine hw en ?_
      unfold Spec.entriesOf
      rw [List.mem_filterMap]
      exact ⟨l, hl, by rw [if_neg h0, he]⟩

theorem sintEnt_map (lw : Nat) (L : List (List Byte)) :
    L.filterMap (sintEnt lw) = (Spec.entriesOf Spec.entryS L).map (modL lw) := by
  unfold Spec.entriesOf
  rw [List.map_filterMap]
  rfl

/-- **C88**: signed weights; lines with an entry (or without numbers), then the text after the last newline with two labels and no weight, a
sign, or a weight up to the end of the file; the numbers of the file fit the type of the weights.  In every execution, with any number
of threads, the entries of the complete lines are in the first positions, in the order of the file, with their weights, and the sizes
are those of these entries. -/
theorem C88_signed_cut_entry_rest (μ : Mapping) (hpad : 0 < μ.pad) (lw ow ww T : Nat) (hT : 0 < T) (hm : μ.bytes.length < 2 ^ ow)
    (L : List (List Byte)) (τ : List Byte) (hlines : Spec.lines μ.bytes = L ++ [τ])
    (hL : ∀ l ∈ L, Spec.ints l = [] ∨ (Spec.entryS l).isSome) (hτ : Spec.CutLineS τ)
    (hfit : Spec.DigitsBelow (2 ^ (ww - 1)) μ.bytes) (hw : ∀ e ∈ Spec.entriesOf Spec.entryS L, e.2.2.natAbs < 2 ^ (ww - 1)) :
    ∀ out, LoadEdgeList μ lw ow {} (wSint ww) T out → ∃ c, out = .ok c ∧
      c.m = (Spec.entriesOf Spec.entryS L).length + 1 ∧ c.x.length = c.m ∧ c.y.length = c.m ∧ c.w.length = c.m ∧
      c.nrows = (Spec.maxOf ((Spec.entriesOf Spec.entryS L).map (fun e => e.1 % 2 ^ lw)) + 1) % 2 ^ lw ∧
      c.ncols = (Spec.maxOf ((Spec.entriesOf Spec.entryS L).map (fun e => e.2.1 % 2 ^ lw)) + 1) % 2 ^ lw ∧ c.n = max c.nrows c.ncols ∧
      ∀ (i x y : Nat) (w : Int), (Spec.entriesOf Spec.entryS L)[i]? = some (x, y, w) →
        c.x[i]? = some (x % 2 ^ lw) ∧ c.y[i]? = some (y % 2 ^ lw) ∧ c.w[i]? = some w := by
  intro out ho
  obtain ⟨hnL, hnτ, _⟩ := cutG_file hlines
  obtain ⟨c, h1, h2, h3, h4, h5, h6, h7, h8, h9⟩ := loadG_rest μ (wSint_any μ ww hfit) hpad hT hm L τ hlines (sintLines lw ww hnL hL hw) (cutLine_sint hnτ hτ) out ho
  rw [sintEnt_map] at h2 h6 h7 h9
  rw [List.length_map] at h2
  rw [List.map_map] at h6 h7
  exact ⟨c, h1, h2, h3, h4, h5, h6, h7, h8, fun i x y w hi => h9 i _ _ w (by rw [List.getElem?_map, hi]; rfl)⟩

/-- **C88 fails**: of such a file one entry more is made than there are complete lines, and its labels are whatever the memory held
before: any two labels are possible. -/
theorem C88_signed_cut_entry_violated (μ : Mapping) (hpad : 0 < μ.pad) (lw ow ww T : Nat) (hT : 0 < T) (hm : μ.bytes.length < 2 ^ ow)
    (L : List (List Byte)) (τ : List Byte) (hlines : Spec.lines μ.bytes = L ++ [τ])
    (hL : ∀ l ∈ L, Spec.ints l = [] ∨ (Spec.entryS l).isSome) (hτ : Spec.CutLineS τ)
    (hfit : Spec.DigitsBelow (2 ^ (ww - 1)) μ.bytes) (hw : ∀ e ∈ Spec.entriesOf Spec.entryS L, e.2.2.natAbs < 2 ^ (ww - 1)) (a b : Nat) :
    ∃ c, LoadEdgeList μ lw ow {} (wSint ww) T (.ok c) ∧ c.m = (Spec.entriesOf Spec.entryS L).length + 1 ∧
      c.x[(Spec.entriesOf Spec.entryS L).length]? = some a ∧ c.y[(Spec.entriesOf Spec.entryS L).length]? = some b := by
  obtain ⟨hnL, hnτ, _⟩ := cutG_file hlines
  obtain ⟨c, h1, h2⟩ := loadG_junk μ (wSint_any μ ww hfit) hpad hT hm L τ hlines (sintLines lw ww hnL hL hw) (cutLine_sint hnτ hτ) a b
  rw [sintEnt_map, List.length_map] at h2
  obtain ⟨c', e, h3, _⟩ := C88_signed_cut_entry_rest μ hpad lw ow ww T hT hm L τ hlines hL hτ hfit hw _ h1
  cases e
  exact ⟨c, h1, h3, h2⟩

/-- **C88 fails**: signed weights; lines with an entry (or without numbers), then a line with one number and no number after it: every
execution, with any number of threads, stores outside of the array of weights. -/
theorem C88_signed_lone_number_violated (μ : Mapping) (hpad : 0 < μ.pad) (lw ow ww T : Nat) (hT : 0 < T) (hm : μ.bytes.length < 2 ^ ow)
    (L B : List (List Byte)) (l : List Byte) (hlines : Spec.lines μ.bytes = L ++ l :: B)
    (hL : ∀ l ∈ L, Spec.ints l = [] ∨ (Spec.entryS l).isSome) (hl : (Spec.ints l).length = 1) (hB : ∀ l ∈ B, Spec.ints l = [])
    (hfit : Spec.DigitsBelow (2 ^ (ww - 1)) μ.bytes) (hw : ∀ e ∈ Spec.entriesOf Spec.entryS L, e.2.2.natAbs < 2 ^ (ww - 1)) :
    (∃ out, LoadEdgeList μ lw ow {} (wSint ww) T out) ∧ ∀ out, LoadEdgeList μ lw ow {} (wSint ww) T out → out = .error .oob := by
  have hnL : NoNl L := fun l' h' => lines_noNl μ.bytes l' (by rw [hlines]; simp [h'])
  exact ⟨readEl_any μ lw ow {} (wSint ww) T _, loadG_lone μ (wSint_any μ ww hfit) hpad hT hm L B l hlines (sintLines lw ww hnL hL hw) hl hB⟩

/-! ## Instances -/

/-- If the file has `k` bytes and `10 ^ k` fits, then its numbers fit. -/
theorem decimal_lt_pow (ds : List Byte) (h : ∀ z ∈ ds, isDigit z = true) : decVal ds < 10 ^ ds.length := by
  have key : ∀ (ds : List Byte) (a : Nat), (∀ z ∈ ds, isDigit z = true) → ds.foldl (fun a b => a * 10 + digitVal b) a < (a + 1) * 10 ^ ds.length := by
    intro ds
    induction ds with
    | nil => intro a _; simp
    | cons d ds ih =>
      intro a h
      have hd := h d (by simp)
      have hv : digitVal d ≤ 9 := by
        revert hd
        unfold isDigit digitVal
        simp only [Bool.and_eq_true, decide_eq_true_eq, UInt8.le_iff_toNat_le]
        intro hd
        have : (57 : UInt8).toNat = 57 := by decide
        omega
      have h1 := ih (a * 10 + digitVal d) (fun z hz => h z (by simp [hz]))
      rw [List.foldl_cons, List.length_cons, Nat.pow_succ]
      refine Nat.lt_of_lt_of_le h1 ?_
      calc (a * 10 + digitVal d + 1) * 10 ^ ds.length ≤ ((a + 1) * 10) * 10 ^ ds.length := Nat.mul_le_mul_right _ (by omega)
        _ = (a + 1) * (10 ^ ds.length * 10) := by rw [Nat.mul_assoc, Nat.mul_comm 10]
  have := key ds 0 h
  simpa [decVal] using this

theorem digitsBelow_of_length (k : Nat) (file : List Byte) (h : 10 ^ file.length ≤ k) : Spec.DigitsBelow k file := by
  intro ds hi hd
  rw [decimal_eq]
  refine Nat.lt_of_lt_of_le (decimal_lt_pow ds (fun z hz => by rw [← isDigit_spec]; exact hd z hz)) (Nat.le_trans ?_ h)
  exact Nat.pow_le_pow_right (by omega) hi.length_le

/-- A file cut within the weight of its last line. -/
def exCutS : List Byte := str "1 2 -5\n9 8 3\n4 5 -"

theorem exCutS_lines : Spec.lines exCutS = [str "1 2 -5", str "9 8 3"] ++ [str "4 5 -"] := by decide

theorem exCutS_entries : Spec.entriesOf Spec.entryS [str "1 2 -5", str "9 8 3"] = [(1, 2, -5), (9, 8, 3)] := by
  decide +kernel

theorem exCutS_cut : Spec.CutLineS (str "4 5 -") :=
  ⟨[], str "4", str " ", str "5", str " ", str "-", [], by decide, by decide, by decide, by decide, by decide, by decide, by decide, .inr (by decide)⟩

theorem exCutS_fit : Spec.DigitsBelow (2 ^ (64 - 1)) exCutS := digitsBelow_of_length _ _ (by decide)

/-- `1 2 -5`, `9 8 3` and the cut `4 5 -`: two entries as they are; the labels of the third one are anything. -/
example (T : Nat) (hT : 0 < T) (a b : Nat) :
    (∀ out, LoadEdgeList ⟨exCutS, 9⟩ 32 64 {} (wSint 64) T out → ∃ c, out = .ok c ∧ c.m = 3 ∧ c.nrows = 10 ∧ c.ncols = 9 ∧
      c.x[1]? = some 9 ∧ c.y[1]? = some 8 ∧ c.w[1]? = some 3 ∧ c.w[0]? = some (-5)) ∧
    ∃ c, LoadEdgeList ⟨exCutS, 9⟩ 32 64 {} (wSint 64) T (.ok c) ∧ c.m = 3 ∧ c.x[2]? = some a ∧ c.y[2]? = some b := by
  have hw : ∀ e ∈ Spec.entriesOf Spec.entryS [str "1 2 -5", str "9 8 3"], e.2.2.natAbs < 2 ^ (64 - 1) := by
    rw [exCutS_entries]; decide
  constructor
  · intro out ho
    obtain ⟨c, h1, h2, h3, h4, h5, h6, h7, h8, h9⟩ := C88_signed_cut_entry_rest ⟨exCutS, 9⟩ (by decide) 32 64 64 T hT (by decide) _ _ exCutS_lines
      (by decide) exCutS_cut exCutS_fit hw out ho
    rw [exCutS_entries] at h2 h6 h7 h9
    exact ⟨c, h1, h2, h6, h7, (h9 1 9 8 3 rfl).1, (h9 1 9 8 3 rfl).2.1, (h9 1 9 8 3 rfl).2.2, (h9 0 1 2 _ rfl).2.2⟩
  · have := C88_signed_cut_entry_violated ⟨exCutS, 9⟩ (by decide) 32 64 64 T hT (by decide) _ _ exCutS_lines (by decide) exCutS_cut exCutS_fit hw a b
    rw [exCutS_entries] at this
    exact this

/-- The same file cut in its last line, within the first label. -/
example (T : Nat) (hT : 0 < T) : ∀ out, LoadEdgeList ⟨str "1 2 -5\n9 8 3\n4", 9⟩ 32 64 {} (wSint 64) T out → out = .error .oob :=
  (C88_signed_lone_number_violated ⟨str "1 2 -5\n9 8 3\n4", 9⟩ (by decide) 32 64 64 T hT (by decide) [str "1 2 -5", str "9 8 3"] [] (str "4")
    (by decide) (by decide) (by decide) (by decide) (digitsBelow_of_length _ _ (by decide)) (by rw [exCutS_entries]; decide)).2

end Pigo
