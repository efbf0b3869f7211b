import Verif.Lemmas.FreeText

/-!
# Loading a whole text file
-/

namespace Pigo

variable {W : Type}

/-- The entry formats of the four weight kinds (signed and floating point weights as words after the labels, or among other text): how a line is written, and when its weight fits the weight type. -/
inductive Format : {W : Type} → WKind W → (List Byte → Option (Nat × Nat × W)) → (Nat × Nat × W → Prop) → Prop
  | none : Format wNone Spec.entry0 (fun _ => True)
  | uint (ww : Nat) : Format (wUint ww) Spec.entryU (fun e => e.2.2 < 2 ^ ww)
  | sint (ww : Nat) : Format (wSint ww) Spec.entryS (fun e => e.2.2.natAbs < 2 ^ (ww - 1))
  | float {V : Type} (ops : FpOps V) : Format (wFp ops) (Spec.entryF (evalLit ops)) (fun _ => True)
  | sintIn (ww : Nat) : Format (wSint ww) Spec.entryInS (fun e => e.2.2.natAbs < 2 ^ (ww - 1))
  | floatIn {V : Type} (ops : FpOps V) : Format (wFp ops) (Spec.entryInF (evalLit ops)) (fun _ => True)

theorem Format.ok {wk : WKind W} {entry : List Byte → Option (Nat × Nat × W)} {wp : Nat × Nat × W → Prop}
    (h : Format wk entry wp) (lw : Nat) : FormatOk lw wk entry wp := by
  cases h with
  | none => exact format_none lw
  | uint ww => exact format_uint lw ww
  | sint ww => exact format_sint lw ww
  | float ops => exact format_fp lw ops
  | sintIn ww => exact format_sint_in lw ww
  | floatIn ops => exact format_fp_in lw ops

/-- The entry of a line with labels reduced to the label type; lines without integers have none. -/
noncomputable def entOf (lw : Nat) (entry : List Byte → Option (Nat × Nat × W)) (l : List Byte) :
    Option (Nat × Nat × W) := if Spec.ints l = [] then none else (entry l).map (modL lw)

theorem filterMap_entOf (lw : Nat) (entry : List Byte → Option (Nat × Nat × W)) (ls : List (List Byte)) :
    ls.filterMap (entOf lw entry) =
      (ls.filterMap (fun l => if Spec.ints l = [] then none else entry l)).map (modL lw) := by
  rw [List.map_filterMap]
  congr 1
  funext l
  unfold entOf
  split <;> rfl

theorem entries_dropLast {E : Type} {entry : List Byte → Option E} {file : List Byte}
    (h : Spec.ints ((Spec.lines file).getLast (Spec.lines_ne_nil file)) = []) :
    (Spec.lines file).dropLast.filterMap (fun l => if Spec.ints l = [] then none else entry l) =
      Spec.entries entry file := by
  unfold Spec.entries
  conv => rhs; rw [← List.dropLast_concat_getLast (Spec.lines_ne_nil file)]
  rw [List.filterMap_append]
  simp [h]

theorem elState_file {μ : Mapping} (hpad : 0 < μ.pad)
    (h : Spec.ints ((Spec.lines μ.bytes).getLast (Spec.lines_ne_nil μ.bytes)) = []) :
    ElState μ μ.bytes.length (Spec.lines μ.bytes).dropLast ((Spec.lines μ.bytes).getLast (Spec.lines_ne_nil μ.bytes)) := by
  refine ⟨?_, ?_, ?_, ?_, ?_⟩
  · rw [← text_lines]; exact View.full μ
  · unfold Readable; omega
  · intro l hl; exact lines_noNl _ l (List.dropLast_subset _ hl)
  · exact lines_noNl _ _ (List.getLast_mem _)
  · rw [firstIntL_nil_iff _ (lines_noNl _ _ (List.getLast_mem _))]; exact h

theorem fileReader_rd (μ : Mapping) :
    fileReader μ = rd μ.bytes.length (text (Spec.lines μ.bytes).dropLast ++
      (Spec.lines μ.bytes).getLast (Spec.lines_ne_nil μ.bytes)) := by
  rw [← text_lines]; simp [fileReader, rd]

/-- Every line is classified. -/
theorem entOk_lines {lw : Nat} {wk : WKind W} {entry : List Byte → Option (Nat × Nat × W)}
    {wp : Nat × Nat × W → Prop} (hf : FormatOk lw wk entry wp) {file : List Byte}
    (hline : ∀ l ∈ Spec.lines file, Spec.ints l = [] ∨ (entry l).isSome)
    (hwp : ∀ en ∈ Spec.entries entry file, wp en) :
    ∀ l ∈ Spec.lines file, EntOk lw wk (entOf lw entry) l := by
  intro l hl
  have hn := lines_noNl file l hl
  refine ⟨hn, ?_⟩
  unfold entOf
  by_cases hi : Spec.ints l = []
  · rw [if_pos hi]; exact (firstIntL_nil_iff l hn).mpr hi
  · rw [if_neg hi]
    rcases hline l hl with h | h
    · exact absurd h hi
    · obtain ⟨en, hen⟩ := Option.isSome_iff_exists.mp h
      rw [hen]
      refine hf l hn en hen (hwp en ?_)
      unfold Spec.entries
      rw [List.mem_filterMap]
      exact ⟨l, hl, by rw [if_neg hi, hen]⟩

/-- Loading a well-formed file: every execution ends with the COO of its entries. -/
theorem readEl_file {μ : Mapping} (hpad : 0 < μ.pad) {lw ow : Nat} {wk : WKind W}
    {entry : List Byte → Option (Nat × Nat × W)} {wp : Nat × Nat × W → Prop} (hf : FormatOk lw wk entry wp)
    (hok : Spec.FileOk entry μ.bytes) (hwp : ∀ en ∈ Spec.entries entry μ.bytes, wp en)
    (cfg : Cfg) {T : Nat} (hT : 0 < T)
    (hd : WTrivial wk ∨ ∀ en ∈ (Spec.entries entry μ.bytes).map (modL lw), storedC cfg en ≠ [])
    (hm : total cfg ((Spec.entries entry μ.bytes).map (modL lw)) < 2 ^ ow) {out : M (Coo W)}
    (hrun : ReadEl μ lw ow cfg wk T (fileReader μ) out) :
    out = .ok (cooOf lw cfg wk.wgt ((Spec.entries entry μ.bytes).map (modL lw))) := by
  have he : (Spec.lines μ.bytes).dropLast.filterMap (entOf lw entry) =
      (Spec.entries entry μ.bytes).map (modL lw) := by
    rw [filterMap_entOf, entries_dropLast hok.last]
  rw [fileReader_rd] at hrun
  rw [← he] at hd hm ⊢
  exact readEl_det cfg hT (elState_file hpad hok.last)
    (fun l hl => entOk_lines hf hok.line hwp l (List.dropLast_subset _ hl)) hd hm out hrun

theorem map_modL_id {lw : Nat} {es : List (Nat × Nat × W)} (h : ∀ e ∈ es, e.1 < 2 ^ lw ∧ e.2.1 < 2 ^ lw) :
    es.map (modL lw) = es := by
  conv => rhs; rw [← List.map_id es]
  apply List.map_congr_left
  intro e he
  obtain ⟨h1, h2⟩ := h e he
  simp [modL, Nat.mod_eq_of_lt h1, Nat.mod_eq_of_lt h2]

end Pigo
