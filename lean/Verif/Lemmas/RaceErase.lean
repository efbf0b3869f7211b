import Verif.Model.Race
import Verif.Lemmas.ThrowErase

/-!
# Forgetting the accesses gives back the functions
-/

namespace Pigo

variable {α β W : Type}

theorem D.out_bind (p : D α) (k : α → D β) : (p >>= k).out = (p.out >>= fun a => (k a).out) := rfl

theorem D.out_touch (l : List (List Spec.Access)) (k : Unit → D β) : (D.touch l >>= k).out = (k ()).out := by
  rw [D.out_bind]; exact R.pure_bind' _ _

theorem D.out_ite (c : Prop) [Decidable c] (p q : D α) : (if c then p else q).out = if c then p.out else q.out := by
  split <;> rfl

theorem dParWrite_out (T : Nat) (v : List Byte) (n : Nat) (f : WFile) : (dParWrite T v n f).out = parWrite T v n f := rfl

theorem dSaveWeights_out (T : Nat) (wgt : Bool) (cw : Codec W) (m : Nat) (w : List W) (f : WFile) :
    (dSaveWeights T wgt cw m w f).out = saveWeights T wgt cw m w f := by
  unfold dSaveWeights saveWeights; rw [D.out_ite]; rfl

theorem dSaveCoo_out (T lb ob : Nat) (wgt : Bool) (cw : Codec W) (c : Coo W) :
    (dSaveCoo T lb ob wgt cw c).out = saveCoo T lb ob wgt cw c := by
  unfold dSaveCoo saveCoo
  simp only [D.out_bind, dParWrite_out, dSaveWeights_out]
  rfl

theorem dSaveCsrTo_out (T lb ob : Nat) (wgt : Bool) (cw : Codec W) (c : Csr W) (f : WFile) :
    (dSaveCsrTo T lb ob wgt cw c f).out = saveCsrTo T lb ob wgt cw c f := by
  unfold dSaveCsrTo saveCsrTo
  simp only [D.out_bind, dParWrite_out, dSaveWeights_out]
  rfl

theorem dSaveCsr_out (T lb ob : Nat) (wgt : Bool) (cw : Codec W) (c : Csr W) :
    (dSaveCsr T lb ob wgt cw c).out = saveCsr T lb ob wgt cw c := by
  unfold dSaveCsr saveCsr
  simp only [D.out_bind, dSaveCsrTo_out]
  rfl

theorem dSaveDiGraph_out (T lb ob : Nat) (wgt : Bool) (cw : Codec W) (g : DiGraph W) :
    (dSaveDiGraph T lb ob wgt cw g).out = saveDiGraph T lb ob wgt cw g := by
  unfold dSaveDiGraph saveDiGraph
  simp only [D.out_bind, dSaveCsrTo_out]
  rfl

theorem dSaveTensor_out (T lb ob : Nat) (wgt : Bool) (cw : Codec W) (t : Tensor W) :
    (dSaveTensor T lb ob wgt cw t).out = saveTensor T lb ob wgt cw t := by
  unfold dSaveTensor saveTensor
  simp only [D.out_bind, dParWrite_out, dSaveWeights_out]
  rfl

theorem dReadArr_out {α : Type} (T : Nat) (μ : Mapping) (k : Nat) (dec : List Byte → α) (n bytes p : Nat) :
    (dReadArr T μ k dec n bytes p).out = readArr T μ k dec n bytes p := rfl

theorem dReadWeights_out (T : Nat) (μ : Mapping) (wgt : Bool) (cw : Codec W) (m p : Nat) :
    (dReadWeights T μ wgt cw m p).out = readWeights T μ wgt cw m p := by
  unfold dReadWeights readWeights; rw [D.out_ite]; rfl

theorem dReadBinCoo_out (T lb ob : Nat) (wgt : Bool) (cw : Codec W) (μ : Mapping) (p : Nat) :
    (dReadBinCoo T lb ob wgt cw μ p).out = readBinCoo T lb ob wgt cw μ p := by
  unfold dReadBinCoo readBinCoo
  simp only [D.out_bind, dReadArr_out, dReadWeights_out]
  rfl

theorem dReadBinCsr_out (T lb ob : Nat) (wgt : Bool) (cw : Codec W) (μ : Mapping) (p : Nat) :
    (dReadBinCsr T lb ob wgt cw μ p).out = readBinCsr T lb ob wgt cw μ p := by
  unfold dReadBinCsr readBinCsr
  simp only [D.out_bind, dReadArr_out, dReadWeights_out]
  rfl

theorem dReadBinTensor_out (T lb ob : Nat) (wgt : Bool) (cw : Codec W) (μ : Mapping) (p : Nat) :
    (dReadBinTensor T lb ob wgt cw μ p).out = readBinTensor T lb ob wgt cw μ p := by
  unfold dReadBinTensor readBinTensor
  simp only [D.out_bind, dReadArr_out, dReadWeights_out]
  rfl

theorem dReadEl_out (μ : Mapping) (lw ow : Nat) (cfg : Cfg) (wk : WKind W) (T : Nat) (r : Reader) :
    (dReadEl μ lw ow cfg wk T r).out = fun o => ReadEl μ lw ow cfg wk T r o := by
  unfold dReadEl
  rw [D.out_touch]
  funext out
  refine propext ⟨?_, fun h => ⟨_, rfl, ?_⟩⟩
  · rintro ⟨o, rfl, h⟩
    unfold ReadEl
    cases h1 : readElPlan μ lw ow cfg wk T r with
    | error f => rw [h1] at h; exact h
    | ok p =>
      rw [h1] at h
      obtain ⟨_, ⟨j, -, rfl⟩, _, ⟨sched, hs, rfl⟩, h⟩ := h
      refine ⟨j, sched, hs, ?_⟩
      unfold execPlan
      cases h2 : runActs stepAct sched (allocCoo wk.wgt j p.m) with
      | error f => rw [h2] at h; exact h
      | ok mem => rw [h2] at h; exact h
  · unfold ReadEl at h
    cases h1 : readElPlan μ lw ow cfg wk T r with
    | error f => rw [h1] at h; exact h
    | ok p =>
      rw [h1] at h
      obtain ⟨j, sched, hs, h⟩ := h
      refine ⟨_, ⟨j, trivial, rfl⟩, _, ⟨sched, hs, rfl⟩, ?_⟩
      unfold execPlan at h
      cases h2 : runActs stepAct sched (allocCoo wk.wgt j p.m) with
      | error f => rw [h2] at h; exact h
      | ok mem => rw [h2] at h; exact h

theorem dReadMm_out (μ : Mapping) (lw ow : Nat) (cfg : Cfg) (wk : WKind W) (T : Nat) (r : Reader) :
    (dReadMm μ lw ow cfg wk T r).out = fun o => ReadMm μ lw ow cfg wk T r o := by
  rw [readMm_eq]
  unfold dReadMm
  simp only [D.out_bind, dReadEl_out]
  rfl

theorem dCountDegrees_out (ow T n m : Nat) (x : List Nat) : (dCountDegrees ow T n m x).out = countDegrees ow T n m x := rfl

theorem dConvertCoo_out (lw ow T : Nat) (wgt : Bool) (coo : Coo W) :
    (dConvertCoo lw ow T wgt coo).out = convertCoo lw ow T wgt coo := rfl

theorem dConvertCsr_out (ow T : Nat) (stor : Storage) (cfg : Cfg) (wgt : Bool) (c : Csr W) :
    (dConvertCsr ow T stor cfg wgt c).out = convertCsr ow T stor cfg wgt c := by
  unfold dConvertCsr convertCsr
  simp only [D.out_bind, D.out_ite]
  rfl

theorem dSortCsr_out (T : Nat) (wgt : Bool) (wlt : W → W → Prop) (c : Csr W) :
    (dSortCsr T wgt wlt c).out = sortCsr T wgt wlt c := rfl

theorem dWithoutDups_out (lw T : Nat) (wgt : Bool) (wlt : W → W → Prop) (c : Csr W) :
    (dWithoutDups lw T wgt wlt c).out = withoutDups lw T wgt wlt c := rfl

theorem dCopyWeights_out (T : Nat) (wgt : Bool) (m : Nat) (w : List W) (junk : Nat → W) :
    (dCopyWeights T wgt m w junk).out = copyWeights T wgt m w junk := by
  unfold dCopyWeights copyWeights; rw [D.out_ite]; rfl

theorem dCopyCoo_out (T : Nat) (wgt : Bool) (c : Coo W) : (dCopyCoo T wgt c).out = copyCoo T wgt c := by
  unfold dCopyCoo copyCoo
  simp only [D.out_bind, dCopyWeights_out]
  rfl

theorem dCopyTensor_out (ow T : Nat) (wgt : Bool) (t : Tensor W) : (dCopyTensor ow T wgt t).out = copyTensor ow T wgt t := by
  unfold dCopyTensor copyTensor
  simp only [D.out_bind, dCopyWeights_out]
  rfl

theorem graphCounts_err {μ : Mapping} {lw ow T : Nat} {r : Reader} {f : Fault} (h : graphCounts μ lw ow T r = .error f) :
    graphPlan μ lw ow T r = .error f := by
  unfold graphCounts at h
  unfold graphPlan
  cases h1 : graphHeader μ lw ow r with
  | error g => rw [h1] at h; cases h; rfl
  | ok q =>
    obtain ⟨a, b, r'⟩ := q
    rw [h1] at h
    simp only [ok_bind] at h ⊢
    cases h2 : mapE (graphRegion μ r' T) (List.range T) with
    | error g => rw [h2] at h; cases h; rfl
    | ok rs =>
      rw [h2] at h
      simp only [ok_bind] at h ⊢
      rw [h]; rfl

theorem dReadGraph_out (lw ow T : Nat) (μ : Mapping) (r : Reader) :
    (dReadGraph lw ow T μ r : D (Csr W)).out = readGraph lw ow T μ r := by
  unfold dReadGraph dReadGraphPer
  rw [D.out_bind]
  cases h : graphCounts μ lw ow T r with
  | error f =>
    unfold readGraph
    rw [graphCounts_err h]
    funext out
    exact propext ⟨fun ⟨o, ho, hk⟩ => by subst ho; exact ⟨_, rfl, hk⟩, fun ⟨o, ho, hk⟩ => by subst ho; exact ⟨_, rfl, hk⟩⟩
  | ok cs =>
    have hb : ∀ k : List GCount → R (Csr W), ((D.run (R.lift (Except.ok cs : M (List GCount)))).out >>= k) = k cs :=
      fun k => R.pure_bind' cs k
    rw [hb]
    rw [D.out_touch, D.out_touch]
    unfold readGraph
    simp only [D.out_bind]
    refine R.congr rfl fun p => R.congr rfl fun jo => R.congr rfl fun je => R.congr rfl fun o => ?_
    exact R.pure_bind' _ _

theorem dReadTensorEl_out (μ : Mapping) (lw ow : Nat) (wk : WKind W) (T : Nat) (r : Reader) :
    (dReadTensorEl μ lw ow wk T r).out = readTensorEl μ lw ow wk T r := by
  unfold dReadTensorEl
  rw [D.out_touch]
  rfl

theorem dMaxLabels_out (ow T : Nat) (t : Tensor W) : (dMaxLabels ow T t).out = maxLabels ow T t := by
  unfold dMaxLabels maxLabels
  rw [D.out_bind]
  refine R.congr rfl fun its => ?_
  rw [D.out_touch]
  rfl

theorem dFindOffsets_out (μ : Mapping) (c : Byte) (T : Nat) (r : Reader) :
    (dFindOffsets μ c T r).out = fun o => FindOffsets μ c T r o := by
  unfold dFindOffsets
  rw [D.out_touch]
  funext out
  refine propext ⟨?_, fun h => ⟨_, rfl, ?_⟩⟩
  · rintro ⟨o, rfl, h⟩
    unfold FindOffsets
    cases h1 : foPlan μ c T r with
    | error f => rw [h1] at h; exact h
    | ok p =>
      rw [h1] at h
      obtain ⟨_, ⟨j, -, rfl⟩, sched, hs, rfl⟩ := h
      exact ⟨j, sched, hs, rfl⟩
  · unfold FindOffsets at h
    cases h1 : foPlan μ c T r with
    | error f => rw [h1] at h; exact h
    | ok p =>
      rw [h1] at h
      obtain ⟨j, sched, hs, h⟩ := h
      exact ⟨_, ⟨j, trivial, rfl⟩, sched, hs, h⟩

theorem dTwoPass_out (size : Nat → M Nat) (ascii : Nat → Nat → M (List (Nat × Byte) × Nat)) (its its' : List (List Nat)) :
    (dTwoPass size ascii its its').out = twoPass size ascii its its' := by
  unfold dTwoPass
  rw [D.out_touch]
  rfl

theorem dWriteCoo_out (T : Nat) (wt : WText W) (c : Coo W) : (dWriteCoo T wt c).out = writeCoo T wt c := by
  unfold dWriteCoo writeCoo
  simp only [D.out_bind, dTwoPass_out]
  rfl

theorem dWriteTensor_out (T ob : Nat) (wt : WText W) (t : Tensor W) : (dWriteTensor T ob wt t).out = writeTensor T ob wt t := by
  unfold dWriteTensor writeTensor
  simp only [D.out_bind, dTwoPass_out]
  rfl

theorem dReadCooFmt_out (P : Params W) (cfg : Cfg) (μ : Mapping) (p : Nat) (ft : FileType) :
    (dReadCooFmt P cfg μ p ft).out = readCooFmt P cfg μ p ft := by
  unfold dReadCooFmt readCooFmt
  simp only [D.out_ite, D.out_bind, dReadMm_out, dReadEl_out, dReadBinCoo_out]
  rfl

theorem dReadCsr_out (P : Params W) (μ : Mapping) (fn : List Byte) (p : Nat) (ft : FileType) :
    (dReadCsr P μ fn p ft).out = readCsr P μ fn p ft := by
  unfold dReadCsr readCsr
  simp only [D.out_ite, D.out_bind, dReadCooFmt_out, dReadBinCsr_out, dReadGraph_out]
  rfl

theorem dReadCoo_out (P : Params W) (cfg : Cfg) (μ : Mapping) (fn : List Byte) (p : Nat) (ft : FileType) :
    (dReadCoo P cfg μ fn p ft).out = readCoo P cfg μ fn p ft := by
  unfold dReadCoo readCoo
  simp only [D.out_ite, D.out_bind, dReadCooFmt_out, dReadCsr_out, dConvertCsr_out]
  rfl

theorem dReadDiGraphBin_out (P : Params W) (μ : Mapping) (fn : List Byte) (p : Nat) :
    (dReadDiGraphBin P μ fn p).out = readDiGraphBin P μ fn p := by
  unfold dReadDiGraphBin readDiGraphBin
  simp only [D.out_bind, dReadCsr_out]
  rfl

theorem dFromCoo_out (lw ow T : Nat) (wgt : Bool) (coo : Coo W) : (dFromCoo lw ow T wgt coo).out = fromCoo lw ow T wgt coo := by
  unfold dFromCoo fromCoo
  simp only [D.out_bind, dCopyCoo_out, dConvertCoo_out]
  rfl

theorem dReadDiGraph_out (P : Params W) (μ : Mapping) (fn : List Byte) (ft : FileType) :
    (dReadDiGraph P μ fn ft).out = readDiGraph P μ fn ft := by
  unfold dReadDiGraph readDiGraph
  simp only [D.out_ite, D.out_bind, dReadDiGraphBin_out, dReadCoo_out, dFromCoo_out]
  rfl

theorem dMatrixFromCoo_out (lw ow T : Nat) (wgt : Bool) (coo : Coo W) :
    (dMatrixFromCoo lw ow T wgt coo).out = matrixFromCoo lw ow T wgt coo := by
  unfold dMatrixFromCoo matrixFromCoo
  simp only [D.out_bind, dCopyCoo_out, dConvertCoo_out]
  rfl

theorem dReadMatrix_out (P : Params W) (μ : Mapping) (fn : List Byte) : (dReadMatrix P μ fn).out = readMatrix P μ fn := by
  unfold dReadMatrix readMatrix
  simp only [D.out_bind, dReadCoo_out, dMatrixFromCoo_out]

theorem dReadTensor_out (P : Params W) (μ : Mapping) (fn : List Byte) (p : Nat) (ft : FileType) :
    (dReadTensor P μ fn p ft).out = readTensor P μ fn p ft := by
  unfold dReadTensor readTensor
  simp only [D.out_ite, D.out_bind, dReadTensorEl_out, dReadBinTensor_out]
  rfl

end Pigo
