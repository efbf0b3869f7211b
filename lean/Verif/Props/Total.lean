import Verif.Props.TensorText
import Verif.Props.Examples
import Verif.Props.CrossFile
import Verif.Props.FindOffsets
import Verif.Props.Write

/-!
# Properties: every operation has an execution

C87: for every input, every object and every number of threads at least one, each operation has an outcome: a result, an
exception, or one of the faults of the model (a hang is the fault `fuel`).  So none of the statements "every execution of … " in
the other files is empty.
-/

namespace Pigo

variable {W : Type}

theorem ompFor_any (k : Nat) {T : Nat} (hT : 0 < T) : (R.choose (OmpFor k T)).Any := R.Any.choose (OmpFor.one _ _ hT)

theorem ompStatic_any (k : Nat) {T : Nat} (hT : 0 < T) : (R.choose (OmpStatic k T)).Any := R.Any.choose (OmpStatic.one k _ hT)

theorem readEl_any [Nonempty W] (μ : Mapping) (lw ow : Nat) (cfg : Cfg) (wk : WKind W) (T : Nat) (r : Reader) :
    R.Any (fun o => ReadEl μ lw ow cfg wk T r o : R (Coo W)) := by
  obtain ⟨w0⟩ := ‹Nonempty W›
  unfold R.Any R.Out ReadEl
  cases h : readElPlan μ lw ow cfg wk T r with
  | error f => exact ⟨_, rfl⟩
  | ok p => exact ⟨_, ⟨fun _ => 0, fun _ => 0, fun _ => w0⟩, _, interleave_flatten _, rfl⟩

theorem readMm_any [Nonempty W] (μ : Mapping) (lw ow : Nat) (cfg : Cfg) (wk : WKind W) (T : Nat) (r : Reader) :
    R.Any (fun o => ReadMm μ lw ow cfg wk T r o : R (Coo W)) := by
  unfold R.Any R.Out ReadMm
  split
  · exact ⟨_, rfl⟩
  · rename_i nrows ncols nnz r' h
    obtain ⟨o, ho⟩ := readEl_any μ lw ow cfg wk T r'
    exact ⟨_, o, ho, rfl⟩

theorem readBinCoo_any (T lb ob : Nat) (wgt : Bool) (cw : Codec W) (μ : Mapping) (p : Nat) : (readBinCoo T lb ob wgt cw μ p).Any := by
  unfold readBinCoo
  repeat' first | exact R.Any.pure _ | exact readWeights_any .. | exact readArr_any .. | exact R.Any.lift _ | refine R.Any.bind ?_ (fun _ => ?_)

theorem readBinTensor_any (T lb ob : Nat) (wgt : Bool) (cw : Codec W) (μ : Mapping) (p : Nat) : (readBinTensor T lb ob wgt cw μ p).Any := by
  unfold readBinTensor
  repeat' first | exact R.Any.pure _ | exact readWeights_any .. | exact readArr_any .. | exact R.Any.lift _ | refine R.Any.bind ?_ (fun _ => ?_)

theorem cooFmt_any [Nonempty W] (P : Params W) (cfg : Cfg) (μ : Mapping) (p : Nat) (ft : FileType) : (readCooFmt P cfg μ p ft).Any := by
  unfold readCooFmt
  split
  · exact R.Any.bind (readMm_any ..) (fun _ => R.Any.pure _)
  · split
    · exact R.Any.bind (readEl_any ..) (fun _ => R.Any.pure _)
    · exact readBinCoo_any ..

theorem graph_any (lw ow T : Nat) (μ : Mapping) (r : Reader) : (readGraph lw ow T μ r : R (Csr W)).Any := by
  unfold readGraph
  repeat' first | exact R.Any.pure _ | exact R.Any.lift _ | exact R.Any.any | exact R.Any.par .. | refine R.Any.bind ?_ (fun _ => ?_)

theorem csr_any [Nonempty W] (P : Params W) (hT : 0 < P.T) (μ : Mapping) (fn : List Byte) (p : Nat) (ft : FileType) :
    (readCsr P μ fn p ft).Any := by
  unfold readCsr
  refine R.Any.bind (R.Any.lift _) (fun ft => ?_)
  split
  · exact R.Any.bind (cooFmt_any ..) (fun _ => R.Any.bind (convertCoo_any hT _ _) (fun _ => R.Any.pure _))
  · split
    · exact readBinCsr_any ..
    · split
      · split
        · exact R.Any.lift _
        · exact R.Any.bind (graph_any ..) (fun _ => R.Any.pure _)
      · exact R.Any.lift _

theorem coo_any [Nonempty W] (P : Params W) (hT : 0 < P.T) (cfg : Cfg) (μ : Mapping) (fn : List Byte) (p : Nat) (ft : FileType) :
    (readCoo P cfg μ fn p ft).Any := by
  unfold readCoo
  refine R.Any.bind (R.Any.lift _) (fun ft => ?_)
  split
  · exact R.Any.bind (cooFmt_any ..) (fun _ => R.Any.pure _)
  · split
    · exact R.Any.bind (csr_any P hT ..) (fun _ => convertCsr_any hT _ _ _ _)
    · exact R.Any.lift _

theorem digraphBin_any [Nonempty W] (P : Params W) (hT : 0 < P.T) (μ : Mapping) (fn : List Byte) (p : Nat) :
    (readDiGraphBin P μ fn p).Any :=
  R.Any.bind (R.Any.lift _) (fun _ => R.Any.bind (csr_any P hT ..) (fun _ => R.Any.bind (csr_any P hT ..) (fun _ => R.Any.pure _)))

theorem tensorEl_any [Nonempty W] (μ : Mapping) (lw ow : Nat) (wk : WKind W) (T : Nat) (r : Reader) :
    (readTensorEl μ lw ow wk T r).Any := by
  unfold readTensorEl
  repeat' first | exact R.Any.pure _ | exact R.Any.lift _ | exact R.Any.any | exact R.Any.par .. | refine R.Any.bind ?_ (fun _ => ?_)

/-- **C87**, loading: whatever the file, its name, the requested type and the flags, loading a COO, a CSR, a DiGraph, a Matrix or
a Tensor has an outcome. -/
theorem C87_load [Nonempty W] (P : Params W) (hT : 0 < P.T) (cfg : Cfg) (μ : Mapping) (fn : List Byte) (p : Nat) (ft : FileType) :
    (∃ o, (readCoo P cfg μ fn p ft).Out o) ∧ (∃ o, (readCsr P μ fn p ft).Out o) ∧ (∃ o, (readDiGraph P μ fn ft).Out o) ∧
    (∃ o, (readMatrix P μ fn).Out o) ∧ ∃ o, (readTensor P μ fn p ft).Out o := by
  refine ⟨coo_any P hT .., csr_any P hT .., ?_, ?_, ?_⟩
  · refine R.Any.bind (R.Any.lift _) (fun ft' => ?_)
    split
    · exact digraphBin_any P hT ..
    · exact R.Any.bind (coo_any P hT ..) (fun _ => fromCoo_any hT _ _)
  · exact R.Any.bind (coo_any P hT ..) (fun _ => matrixFromCoo_any hT _ _)
  · refine R.Any.bind (R.Any.lift _) (fun ft' => ?_)
    split
    · exact tensorEl_any ..
    · split
      · exact readBinTensor_any ..
      · exact R.Any.lift _

example := C87_load binParams (by decide) { sym := true } ⟨str "1 2 3\n%", 1⟩ (str "a.graph") 0 .auto

/-- **C87**, saving and writing: for every object. -/
theorem C87_store (T : Nat) (hT : 0 < T) (lb ob : Nat) (wgt : Bool) (cw : Codec W) (wt : WText W) (c : Coo W) (r : Csr W)
    (g : DiGraph W) (t : Tensor W) :
    (∃ o, (saveCoo T lb ob wgt cw c).Out o) ∧ (∃ o, (saveCsr T lb ob wgt cw r).Out o) ∧
    (∃ o, (saveDiGraph T lb ob wgt cw g).Out o) ∧ (∃ o, (saveTensor T lb ob wgt cw t).Out o) ∧
    (∃ o, (writeCoo T wt c).Out o) ∧ ∃ o, (writeTensor T ob wt t).Out o := by
  have hcsr : ∀ (c : Csr W) f, (saveCsrTo T lb ob wgt cw c f).Any := by
    intro c f
    unfold saveCsrTo
    repeat' first | exact R.Any.pure _ | exact saveWeights_any .. | refine R.Any.bind (R.Any.lift _) (fun _ => ?_) | refine R.Any.bind (parWrite_any ..) (fun _ => ?_) | refine R.Any.bind (saveWeights_any ..) (fun _ => ?_)
  obtain ⟨h1, h2, h3⟩ := C37_saves_run T lb ob wgt cw c r t
  exact ⟨h1, h2, R.Any.bind (R.Any.lift _) (fun _ => R.Any.bind (R.Any.lift _) (fun _ => R.Any.bind (hcsr ..) (fun _ =>
    R.Any.bind (hcsr ..) (fun _ => R.Any.pure _)))), h3, R.Any.bind (ompStatic_any _ hT) (fun _ => twoPass_any ..),
    R.Any.bind (ompStatic_any _ hT) (fun _ => twoPass_any ..)⟩

example := C87_store 3 (by decide) 4 8 true (codecNat 1 (by decide)) wtUint
  ⟨[1], [2], [3], 3, 1, 2, 3⟩ binCsr ⟨binCsr, binCsr⟩ binTensor

/-- **C87**, the operations on objects.  (`std::sort` requires the order of the weights to be a strict weak order.) -/
theorem C87_operations [Nonempty W] (lw ow T : Nat) (hT : 0 < T) (cfg : Cfg) (stor : Storage) (wgt : Bool) (wlt : W → W → Prop)
    (hw : Spec.StrictWeak wlt) (c : Coo W) (r : Csr W) (t : Tensor W) :
    (∃ o, (convertCoo lw ow T wgt c).Out o) ∧ (∃ o, (convertCsr ow T stor cfg wgt r).Out o) ∧ (∃ o, (sortCsr T wgt wlt r).Out o) ∧
    (∃ o, (withoutDups lw T wgt wlt r).Out o) ∧ (∃ o, (copyCoo T wgt c).Out o) ∧ (∃ o, (copyTensor ow T wgt t).Out o) ∧
    (∃ o, (fromCoo lw ow T wgt c).Out o) ∧ (∃ o, (matrixFromCoo lw ow T wgt c).Out o) ∧ ∃ o, (maxLabels ow T t).Out o :=
  ⟨convertCoo_any hT _ _, convertCsr_any hT _ _ _ _, sortCsr_any hT _ hw _, withoutDups_any hT _ hw _, copyCoo_any hT _ _,
    R.Any.bind (R.Any.lift _) (fun _ => R.Any.bind R.Any.any (fun _ => R.Any.bind R.Any.any (fun _ => R.Any.bind (copyLoop_any hT _ _) (fun _ =>
      R.Any.bind (copyWeights_any hT _ _ _ _) (fun _ => R.Any.pure _))))),
    fromCoo_any hT _ _, matrixFromCoo_any hT _ _,
    R.Any.bind (ompFor_any _ hT) (fun _ => R.Any.bind (R.Any.lift _) (fun _ => R.Any.lift _))⟩

example := C87_operations 32 64 3 (by decide) { sym := true } .vector true (fun a b : Int => a < b) intLt_strictWeak exCoo exCsr
  ⟨[1, 2], [7], 2, 1⟩

/-- **C87**, `find_offsets`, on every reader. -/
theorem C87_find_offsets (μ : Mapping) (b : Byte) (T : Nat) (r : Reader) : ∃ o, FindOffsets μ b T r o := by
  unfold FindOffsets
  split
  · exact ⟨_, rfl⟩
  · exact ⟨_, fun _ => 0, _, interleave_flatten _, rfl⟩

example : ∃ o, FindOffsets ⟨str "a,b", 0⟩ 44 2 ⟨0, 3⟩ o := C87_find_offsets ..

/-- **C87**, the example programs, on every file. -/
theorem C87_programs (P : Params Unit) (hT : 0 < P.T) (μ : Mapping) (fn : List Byte) (src dst : Int) :
    (∃ o, (cleanGraph P μ fn).Out o) ∧ (∃ o, (symmetrizeProg P μ fn).Out o) ∧ ∃ o, (findEdge P μ fn src dst).Out o := by
  have hw : Spec.StrictWeak (fun _ _ : Unit => False) := ⟨fun _ h => h, fun _ _ _ h => h.elim, fun _ _ _ _ h => h⟩
  have hwr : ∀ c : Coo Unit, (writeCoo P.T wtNone c).Any := fun c => R.Any.bind (ompStatic_any _ hT) (fun _ => twoPass_any ..)
  refine ⟨?_, ?_, ?_⟩
  · exact R.Any.bind (coo_any P hT ..) (fun _ => R.Any.bind (convertCoo_any hT _ _) (fun _ => R.Any.bind (withoutDups_any hT _ hw _)
      (fun _ => R.Any.bind (convertCsr_any hT _ _ _ _) (fun _ => hwr _))))
  · exact R.Any.bind (coo_any P hT ..) (fun _ => R.Any.bind (convertCoo_any hT _ _) (fun _ => R.Any.bind (sortCsr_any hT _ hw _)
      (fun _ => R.Any.bind (convertCsr_any hT _ _ _ _) (fun _ => hwr _))))
  · refine R.Any.bind (csr_any P hT ..) (fun _ => ?_)
    simp only
    split
    · exact R.Any.lift _
    · refine R.Any.bind (sortCsr_any hT _ hw _) (fun _ => ?_)
      split
      · exact R.Any.lift _
      · exact R.Any.bind (R.Any.lift _) (fun _ => R.Any.bind (R.Any.lift _) (fun _ => R.Any.bind (R.Any.lift _) (fun _ => R.Any.pure _)))

example := C87_programs oneThread (by decide) ⟨str "1 2\n3", 1⟩ (str "a.txt") 1 (-2)

end Pigo
