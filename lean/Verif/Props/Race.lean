import Verif.Lemmas.RaceFile
import Verif.Props.Write
import Verif.Props.CsrSort
import Verif.Props.GraphAny
import Verif.Props.Tensor

/-!
# C85: parallel regions without data races

`Spec.Race` is a data race in the sense of C++ and OpenMP; `D α` (Model/Race.lean) is a function of PIGO written with the memory
accesses of its parallel regions, and `(dF …).drf` says that none of the regions that an execution of `F` can enter has a race:
for all inputs, all choices of the allocator, the runtime's assignment of iterations, and the interleaving of earlier regions.
-/

namespace Pigo

open Spec (Race Conflict)

variable {W : Type}

/-! ## The functions with accesses are the functions -/

/-- **C85** Annotating the accesses does not change what the loaders do. -/
theorem C85_same_loaders (P : Params W) (cfg : Cfg) (μ : Mapping) (fn : List Byte) (p : Nat) (ft : FileType) :
    (dReadCoo P cfg μ fn p ft).out = readCoo P cfg μ fn p ft ∧ (dReadCsr P μ fn p ft).out = readCsr P μ fn p ft ∧
    (dReadDiGraph P μ fn ft).out = readDiGraph P μ fn ft ∧ (dReadMatrix P μ fn).out = readMatrix P μ fn ∧
    (dReadTensor P μ fn p ft).out = readTensor P μ fn p ft :=
  ⟨dReadCoo_out .., dReadCsr_out .., dReadDiGraph_out .., dReadMatrix_out .., dReadTensor_out ..⟩

/-- **C85** … nor what the conversions, copies and operations do. -/
theorem C85_same_operations (lw ow T : Nat) (stor : Storage) (cfg : Cfg) (wgt : Bool) (wlt : W → W → Prop) (coo : Coo W) (c : Csr W)
    (t : Tensor W) (μ : Mapping) (b : Byte) (r : Reader) :
    (dConvertCoo lw ow T wgt coo).out = convertCoo lw ow T wgt coo ∧
    (dConvertCsr ow T stor cfg wgt c).out = convertCsr ow T stor cfg wgt c ∧
    (dSortCsr T wgt wlt c).out = sortCsr T wgt wlt c ∧ (dWithoutDups lw T wgt wlt c).out = withoutDups lw T wgt wlt c ∧
    (dFromCoo lw ow T wgt coo).out = fromCoo lw ow T wgt coo ∧ (dMatrixFromCoo lw ow T wgt coo).out = matrixFromCoo lw ow T wgt coo ∧
    (dCopyCoo T wgt coo).out = copyCoo T wgt coo ∧ (dCopyTensor ow T wgt t).out = copyTensor ow T wgt t ∧
    (dMaxLabels ow T t).out = maxLabels ow T t ∧ ∀ o, (dFindOffsets μ b T r).out.Out o ↔ FindOffsets μ b T r o :=
  ⟨dConvertCoo_out .., dConvertCsr_out .., dSortCsr_out .., dWithoutDups_out .., dFromCoo_out .., dMatrixFromCoo_out .., dCopyCoo_out ..,
    dCopyTensor_out .., dMaxLabels_out .., fun o => by rw [dFindOffsets_out]; rfl⟩

/-- **C85** … nor what `save` and `write` do. -/
theorem C85_same_savers (T lb ob : Nat) (wgt : Bool) (cw : Codec W) (wt : WText W) (coo : Coo W) (c : Csr W) (g : DiGraph W) (t : Tensor W) :
    (dSaveCoo T lb ob wgt cw coo).out = saveCoo T lb ob wgt cw coo ∧ (dSaveCsr T lb ob wgt cw c).out = saveCsr T lb ob wgt cw c ∧
    (dSaveDiGraph T lb ob wgt cw g).out = saveDiGraph T lb ob wgt cw g ∧ (dSaveTensor T lb ob wgt cw t).out = saveTensor T lb ob wgt cw t ∧
    (dWriteCoo T wt coo).out = writeCoo T wt coo ∧ (dWriteTensor T ob wt t).out = writeTensor T ob wt t :=
  ⟨dSaveCoo_out .., dSaveCsr_out .., dSaveDiGraph_out .., dSaveTensor_out .., dWriteCoo_out .., dWriteTensor_out ..⟩

/-! ## Without conditions -/

/-- **C85** `save` of anything at all, even of objects whose arrays have the wrong size, has no data race. -/
theorem C85_save (T lb ob : Nat) (wgt : Bool) (cw : Codec W) (coo : Coo W) (c : Csr W) (g : DiGraph W) (t : Tensor W) :
    (dSaveCoo T lb ob wgt cw coo).drf ∧ (dSaveCsr T lb ob wgt cw c).drf ∧ (dSaveDiGraph T lb ob wgt cw g).drf ∧
    (dSaveTensor T lb ob wgt cw t).drf :=
  ⟨saveCoo_drf .., saveCsr_drf .., saveDiGraph_drf .., saveTensor_drf ..⟩

/-- **C85** Loading a binary file, whatever its bytes: a COO file as COO, CSR, DiGraph or Matrix, a CSR file as CSR, a tensor
file as Tensor. -/
theorem C85_binary_files (P : Params W) (hT : 0 < P.T) (cfg : Cfg) (μ : Mapping) (fn : List Byte) :
    (∀ ft, usedType μ fn 0 ft = .ok .cooBin → (dReadCoo P cfg μ fn 0 ft).drf ∧ (dReadCsr P μ fn 0 ft).drf ∧ (dReadDiGraph P μ fn ft).drf) ∧
    (usedType μ fn 0 .auto = .ok .cooBin → (dReadMatrix P μ fn).drf) ∧
    (∀ ft, usedType μ fn 0 ft = .ok .csrBin → (dReadCsr P μ fn 0 ft).drf) ∧
    (∀ ft, usedType μ fn 0 ft = .ok .tensorBin → (dReadTensor P μ fn 0 ft).drf) := by
  have hc : IsCooType .cooBin := .inr (.inr rfl)
  exact ⟨fun ft h => ⟨readCoo_drf h hc (readCooFmt_bin_drf ..), readCsr_drf hT h hc (readCooFmt_bin_drf ..),
      readDiGraph_drf hT h hc (readCooFmt_bin_drf ..)⟩,
    fun h => readMatrix_drf hT h hc (readCooFmt_bin_drf ..), fun ft h => readCsr_bin_drf h, fun ft h => readTensor_bin_drf h⟩

/-- **C85** Copies, `max_labels` and `find_offsets`, on any arguments. -/
theorem C85_copies (ow T : Nat) (wgt : Bool) (coo : Coo W) (t : Tensor W) (μ : Mapping) (b : Byte) (r : Reader) :
    (dCopyCoo T wgt coo).drf ∧ (dCopyTensor ow T wgt t).drf ∧ (dMaxLabels ow T t).drf ∧ (dFindOffsets μ b T r).drf :=
  ⟨copyCoo_drf .., copyTensor_drf .., maxLabels_drf .., findOffsets_drf ..⟩

/-! ## Conversions -/

/-- **C85** Building a CSR, a DiGraph or a Matrix from any COO at all whose `m()` fits the offset type; labels may be out of range
and arrays too short (the fault of such an execution is no race either). -/
theorem C85_from_coo (lw ow T : Nat) (hT : 0 < T) (wgt : Bool) (c : Coo W) (hm : c.m < 2 ^ ow) :
    (dConvertCoo lw ow T wgt c).drf ∧ (dFromCoo lw ow T wgt c).drf ∧ (dMatrixFromCoo lw ow T wgt c).drf :=
  ⟨convertCoo_drf hT hm, fromCoo_drf hT hm, matrixFromCoo_drf hT hm⟩

/-- **C85** A CSR whose offsets do not decrease: building a COO from it under any flags, and sorting it. -/
theorem C85_csr_ops (ow T : Nat) (stor : Storage) (cfg : Cfg) (wgt : Bool) (wlt : W → W → Prop) (c : Csr W)
    (h : ∀ v, v < c.n → Spec.off c v ≤ Spec.off c (v + 1)) :
    (dConvertCsr ow T stor cfg wgt c).drf ∧ (dSortCsr T wgt wlt c).drf :=
  ⟨convertCsr_drf h, sortCsr_drf h⟩

/-- **C85** `new_csr_without_dups` of a valid CSR. -/
theorem C85_without_dups [Inhabited W] (lw T : Nat) (hT : 0 < T) (wgt : Bool) (wlt : W → W → Prop) (c : Csr W)
    (hc : Spec.ValidCsr c wgt) (hl : ∀ u ∈ c.endpoints, u + 1 < 2 ^ lw) (hfit : Spec.OffsetsFit lw c.n) :
    (dWithoutDups lw T wgt wlt c).drf := by
  have hp : 0 < 2 ^ lw := Nat.two_pow_pos lw
  exact withoutDups_drf (B := 2 ^ lw - 1) hT (isCsr_of_valid hc (default : W)) hc.mono (fun u hu => by have := hl u hu; omega) (by omega) hfit

/-- A CSR with a repeated neighbour. -/
example : Spec.ValidCsr (W := Unit) { offsets := [0, 3, 3, 4], endpoints := [2, 1, 2, 0], weights := [], n := 3, m := 4, nrows := 3, ncols := 3 } false ∧
    Spec.OffsetsFit 32 3 := ⟨⟨rfl, rfl, by decide, rfl, rfl, by decide⟩, .inr (by decide)⟩

/-- A COO with a label out of range and a short array still has `m()` below the bound. -/
example : (dConvertCoo 32 64 3 false ({ x := [9, 0], y := [1], w := [], n := 2, m := 2, nrows := 2, ncols := 2 } : Coo Unit)).drf :=
  (C85_from_coo 32 64 3 (by decide) false _ (by decide)).1

/-! ## Text files -/

/-- **C85** Any bytes at all read as an unweighted edge list or Matrix Market file, under any flags, into a COO; and into a
CSR, DiGraph or Matrix (the size of the file is no multiple of the page size). -/
theorem C85_any_text (P : Params Unit) (hwk : P.wk = wNone) (hT : 0 < P.T) (page : Nat) (hp : 0 < page) (file : List Byte)
    (hd : ¬ page ∣ file.length) (fn : List Byte) (ft ft' : FileType) (hu : usedType (mapFile page file) fn 0 ft = .ok ft')
    (hft : ft' = .edgeList ∨ ft' = .matrixMarket) :
    (∀ cfg, (dReadCoo P cfg (mapFile page file) fn 0 ft).drf) ∧ (dReadCsr P (mapFile page file) fn 0 ft).drf ∧
    (dReadDiGraph P (mapFile page file) fn ft).drf ∧ (ft = .auto → (dReadMatrix P (mapFile page file) fn).drf) := by
  have hpad := (mapFile_pad (file := file) hp).mpr hd
  have hc : IsCooType ft' := by rcases hft with rfl | rfl <;> decide
  exact ⟨fun cfg => readCoo_drf hu hc (readCooFmt_any_drf hpad hwk cfg _), readCsr_drf hT hu hc (readCooFmt_any_drf hpad hwk _ _),
    readDiGraph_drf hT hu hc (readCooFmt_any_drf hpad hwk _ _),
    fun h => readMatrix_drf hT (h ▸ hu) hc (readCooFmt_any_drf hpad hwk _ _)⟩

/-- Garbage, read as an edge list. -/
example : ¬ 4096 ∣ (str "7 x 1\n%2 3 4\n5").length ∧
    usedType (mapFile 4096 (str "7 x 1\n%2 3 4\n5")) (str "g.txt") 0 .auto = .ok .edgeList := ⟨by decide, by decide⟩

theorem stored_modL {lw : Nat} {en : Nat × Nat × W} (h : en.1 < 2 ^ lw ∧ en.2.1 < 2 ^ lw) : modL lw en = en := by
  unfold modL
  rw [Nat.mod_eq_of_lt h.1, Nat.mod_eq_of_lt h.2]

/-- **C85** A well-formed edge list file with weights of any of the types, under flags that drop none of its lines, into a COO, and
without flags into a CSR, DiGraph or Matrix. -/
theorem C85_weighted_edge_list (P : Params W) (hT : 0 < P.T) (μ : Mapping) (hpad : 0 < μ.pad) (fn : List Byte) (ft : FileType)
    (hu : usedType μ fn 0 ft = .ok .edgeList) (entry : List Byte → Option (Nat × Nat × W)) (wp : Nat × Nat × W → Prop)
    (hf : Format P.wk entry wp) (hok : Spec.FileOk entry μ.bytes) (hwp : ∀ e ∈ Spec.entries entry μ.bytes, wp e)
    (hlab : ∀ e ∈ Spec.entries entry μ.bytes, e.1 < 2 ^ (8 * P.lb) ∧ e.2.1 < 2 ^ (8 * P.lb)) :
    (∀ cfg : Cfg, (∀ e ∈ Spec.entries entry μ.bytes, Spec.stored cfg.sym cfg.ut cfg.sl e ≠ []) → (dReadCoo P cfg μ fn 0 ft).drf) ∧
    (dReadCsr P μ fn 0 ft).drf ∧ (dReadDiGraph P μ fn ft).drf ∧ (ft = .auto → (dReadMatrix P μ fn).drf) := by
  have hmap : (Spec.entries entry μ.bytes).map (modL (8 * P.lb)) = Spec.entries entry μ.bytes := by
    conv => rhs; rw [← List.map_id (Spec.entries entry μ.bytes)]
    exact List.map_congr_left fun e he => stored_modL (hlab e he)
  have key : ∀ cfg : Cfg, (∀ e ∈ Spec.entries entry μ.bytes, Spec.stored cfg.sym cfg.ut cfg.sl e ≠ []) → (dReadCooFmt P cfg μ 0 .edgeList).drf := by
    intro cfg hd
    unfold dReadCooFmt
    rw [if_neg (by decide), if_pos rfl]
    refine drf_bind (readEl_file_drf hpad (hf.ok _) hok hwp cfg hT (.inr ?_)) fun _ _ => drf_pure _
    rw [hmap]
    exact hd
  have h0 := key {} (fun e _ => by simp [Spec.stored])
  have hc : IsCooType .edgeList := .inr (.inl rfl)
  exact ⟨fun cfg hd => readCoo_drf hu hc (key cfg hd), readCsr_drf hT hu hc h0, readDiGraph_drf hT hu hc h0,
    fun h => readMatrix_drf hT (h ▸ hu) hc h0⟩

/-- A weighted file; under the flags `symmetric` no line is dropped. -/
example : Spec.FileOk Spec.entryU (str "2 3 7\n1 1 5\n1 2 9\n") ∧
    (∀ e ∈ Spec.entries Spec.entryU (str "2 3 7\n1 1 5\n1 2 9\n"), e.2.2 < 2 ^ 32 ∧ e.1 < 2 ^ 32 ∧ e.2.1 < 2 ^ 32 ∧ Spec.stored true false false e ≠ []) ∧
    usedType ⟨str "2 3 7\n1 1 5\n1 2 9\n", 4078⟩ (str "g.txt") 0 .auto = .ok .edgeList :=
  ⟨⟨by decide, by decide⟩, by decide, by decide⟩

/-- **C85** A well-formed Matrix Market file with weights. -/
theorem C85_weighted_matrix_market (P : Params W) (hT : 0 < P.T) (μ : Mapping) (hpad : 0 < μ.pad) (fn : List Byte) (ft : FileType)
    (hu : usedType μ fn 0 ft = .ok .matrixMarket) {R C N : Nat} {body : List (List Byte)} (h : Spec.MmFile μ.bytes R C N body)
    (entry : List Byte → Option (Nat × Nat × W)) (wp : Nat × Nat × W → Prop)
    (hf : Format P.wk entry wp) (hok : Spec.BodyOk entry body) (hwp : ∀ e ∈ Spec.entriesOf entry body, wp e)
    (hlab : ∀ e ∈ Spec.entriesOf entry body, e.1 < 2 ^ (8 * P.lb) ∧ e.2.1 < 2 ^ (8 * P.lb)) :
    (∀ cfg : Cfg, (∀ e ∈ Spec.entriesOf entry body, Spec.stored cfg.sym cfg.ut cfg.sl e ≠ []) → (dReadCoo P cfg μ fn 0 ft).drf) ∧
    (dReadCsr P μ fn 0 ft).drf ∧ (dReadDiGraph P μ fn ft).drf ∧ (ft = .auto → (dReadMatrix P μ fn).drf) := by
  have key : ∀ cfg : Cfg, (∀ e ∈ Spec.entriesOf entry body, Spec.stored cfg.sym cfg.ut cfg.sl e ≠ []) → (dReadCooFmt P cfg μ 0 .matrixMarket).drf := by
    intro cfg hd
    unfold dReadCooFmt
    rw [if_pos rfl]
    exact drf_bind (readMm_file_drf hpad h (hf.ok _) hok hwp hlab cfg hT (.inr hd)) fun _ _ => drf_pure _
  have h0 := key {} (fun e _ => by simp [Spec.stored])
  have hc : IsCooType .matrixMarket := .inl rfl
  exact ⟨fun cfg hd => readCoo_drf hu hc (key cfg hd), readCsr_drf hT hu hc h0, readDiGraph_drf hT hu hc h0,
    fun h => readMatrix_drf hT (h ▸ hu) hc h0⟩

/-- **C85** A well-formed tensor file, with or without weights. -/
theorem C85_tensor_file (P : Params W) (hT : 0 < P.T) (μ : Mapping) (hpad : 0 < μ.pad) (fn : List Byte) (ft : FileType)
    (hft : usedType μ fn 0 ft = .ok .edgeList) (entry : Nat → List Byte → Option (List Nat × W)) (wp : List Nat × W → Prop) (hf : TFormat P.wk entry wp)
    (k : Nat) (hk : 0 < k) (hok : Spec.TensorOk P.wk.wgt entry k μ.bytes) (hwp : ∀ en ∈ Spec.entries (entry k) μ.bytes, wp en)
    (hkw : k + 1 < 2 ^ (8 * P.ob)) : (dReadTensor P μ fn 0 ft).drf := by
  refine drf_lift fun f hf' => ?_
  rw [hft] at hf'
  cases hf'
  rw [if_pos rfl]
  exact readTensorEl_file_drf hpad hf hk hok hwp hT hkw

/-- **C85** A well-formed `.graph` file none of whose labels is zero (or read by one thread). -/
theorem C85_graph_file (μ : Mapping) (hpad : 0 < μ.pad) (lw ow T n m : Nat) (hT : 0 < T) (rows : List (List Nat))
    (body : List (List Byte)) (tail : List Byte) (h : GraphOk μ.bytes lw ow n m rows body tail) (hz : ¬ Spec.ZeroBased body tail ∨ T = 1) :
    (dReadGraph (W := W) lw ow T μ (fileReader μ)).drf := by
  have h2 := fileBase_le body tail
  have h3 := dropWhile_len_le List.isEmpty rows
  have h4 := h.fitRows
  have h5 : (loadedRows body).length ≤ rows.length := by
    rw [← h.adj, Spec.adjacency, List.length_map, loadedRows]
    have := dropWhile_len_le List.isEmpty (body.map Spec.digitRuns)
    rwa [List.length_map] at this
  have h6 : (loadedRows body).flatten.length = rows.flatten.length := by
    rw [← h.adj, ← adjacency_flatten, keptRows_eq, ← List.map_flatten, List.length_map]
  refine readGraph_file_drf hpad h.file hT (by omega) ?_ ?_
  · rw [h.tail_runs, List.append_nil, h6]
    exact h.fitInts
  · rcases hz with hz | rfl
    · exact .inl hz
    · exact .inr (zerosOk_one _ _ _ _ _)

example : ¬ Spec.ZeroBased exBody1 [] := by
  rintro ⟨l, hl, h⟩
  have : l = str "2" ∨ l = str "1 3" ∨ l = str "2" ∨ l = [] := by simpa [exBody1] using hl
  rcases this with rfl | rfl | rfl | rfl <;> revert h <;> decide

/-- **C85**, partial: any bytes at all that hold no comment sign right after a digit and do not end with a comment sign, read as a
`.graph` file: no data race but for the bits of `have_zeros`, that is, none if its elements were memory locations of their own.
Missing: they are bits of a word (below). -/
theorem C85_any_graph_text_partial (page : Nat) (hp : 0 < page) (file : List Byte) (hd : ¬ page ∣ file.length)
    (hend : ∀ c, file.getLast? = some c → isCom c = false)
    (hgl : ∀ p c d q, file = p ++ c :: d :: q → isDigit c = true → isCom d = false) (lw ow T : Nat) (hT : 0 < T)
    (hlw : T * file.length + 2 < 2 ^ lw) (how : T * file.length < 2 ^ ow) :
    (dReadGraphPer (W := W) 1 lw ow T (mapFile page file) (fileReader (mapFile page file))).drf :=
  readGraph_toks_drf (μ := mapFile page file) hT ((mapFile_pad (file := file) hp).mpr hd) hend hgl hlw how (zerosOk_apart _ _ _ _ _)

/-! ## Writers -/

/-- **C85** `COO::write`. -/
theorem C85_write_coo (T : Nat) (wt : WText W) (txt : W → List Byte) (ok : W → Prop) (hp : Printer wt txt ok) (c : Coo W)
    (es : List (Nat × Nat × W)) (h : Holds c wt.wgt es) (hok : ∀ e ∈ es, ok e.2.2) : (dWriteCoo T wt c).drf := by
  refine drf_choose fun its hits => twoPass_drf (line := lineAt (Spec.cooLine wt.wgt txt) es) fun e he => ?_
  rw [hits.chunks, h.m, List.mem_range] at he
  have hg := List.getElem?_eq_getElem he
  rw [lineAt_some hg]
  exact cooLine_ok h (fun hg p hpm => hp.write (hok p hpm) hg) hg

/-- **C85** `Tensor::write`. -/
theorem C85_write_tensor (T ob : Nat) (wt : WText W) (txt : W → List Byte) (ok : W → Prop) (hp : Printer wt txt ok) (t : Tensor W)
    (es : List (List Nat × W)) (h : HoldsT t wt.wgt es) (ho : 0 < t.order) (hfit : t.order * t.m < 256 ^ ob) (hok : ∀ e ∈ es, ok e.2) :
    (dWriteTensor T ob wt t).drf := by
  refine drf_choose fun its hits => twoPass_drf (line := lineAt (fun e => Spec.tensorLine wt.wgt txt e) es) fun e he => ?_
  rw [hits.chunks, h.m, List.mem_range] at he
  have hg := List.getElem?_eq_getElem he
  rw [lineAt_some hg]
  exact tensorLine_ok h ho hfit (fun hg p hpm => hp.write (hok p hpm) hg) hg

example := C85_write_coo 3 (wtInt 8) Spec.showInt _ (.sint 8) wrCoo [(0, 5, -7), (12, 0, 0), (7, 100, 31)]
  ⟨rfl, rfl, rfl, fun _ => rfl⟩ (by decide)
example := C85_write_tensor 3 8 wtUint Spec.showNat _ .uint wrTensor [([0, 1, 2], 1), ([30, 4, 5], 20)] ⟨rfl, by decide, rfl, fun _ => rfl⟩
  (by decide) (by decide) (fun _ _ => trivial)

/-- A comment sign after a blank: no digit is followed by one. -/
example : (dReadGraphPer (W := Unit) 1 32 64 3 (mapFile 4096 (str "3 2\n2 %\n1 3\n2\n"))
    (fileReader (mapFile 4096 (str "3 2\n2 %\n1 3\n2\n")))).drf :=
  C85_any_graph_text_partial 4096 (by decide) (str "3 2\n2 %\n1 3\n2\n") (by decide) (by decide)
    (fun p c d q h hc => by
      have key : ∀ i, i < 14 → ∀ c d, (str "3 2\n2 %\n1 3\n2\n")[i]? = some c → (str "3 2\n2 %\n1 3\n2\n")[i+1]? = some d →
          isDigit c = true → isCom d = false := by
        intro i hi
        have : ∀ i : Fin 14, (((str "3 2\n2 %\n1 3\n2\n")[i.1]?.map isDigit).getD false &&
            ((str "3 2\n2 %\n1 3\n2\n")[i.1+1]?.map isCom).getD false) = false := by decide
        intro c d hc hd hdig
        have h := this ⟨i, hi⟩
        simp only [hc, hd, Option.map_some, Option.getD_some, hdig, Bool.true_and] at h
        exact h
      have hlen := congrArg List.length h
      have h14 : (str "3 2\n2 %\n1 3\n2\n").length = 14 := by decide
      rw [h14] at hlen
      simp only [List.length_append, List.length_cons] at hlen
      refine key p.length (by omega) c d ?_ ?_ hc
      · rw [h]; simp
      · rw [h]; simp)
    32 64 3 (by decide) (by decide) (by decide)

/-! ## Races there are -/

section
variable {α S : Type}

theorem Interleave.left {l1 A' s : List α} : ∀ A : List α, Interleave [A', l1] s → Interleave [A ++ A', l1] (A ++ s)
  | [], h => h
  | a :: A, h => .step (i := 0) (l := A ++ A') rfl (Interleave.left A h)

theorem Interleave.right {l0 B' s : List α} : ∀ B : List α, Interleave [l0, B'] s → Interleave [l0, B ++ B'] (B ++ s)
  | [], h => h
  | b :: B, h => .step (i := 1) (l := B ++ B') rfl (Interleave.right B h)

/-- Two threads that get to the steps `a` and `b`. -/
theorem race_two {step : α → S → M S} {foot : α → S → List Spec.Access} {A A' B B' : List α} {a b : α} {s s1 s2 : S} {x y : Spec.Access}
    (h1 : runActs step (A ++ B) s = .ok s1) (h2 : step a s1 = .ok s2) (hx : x ∈ foot a s1) (hy : y ∈ foot b s2) (hc : Conflict x y) :
    Race step foot [A ++ a :: A', B ++ b :: B'] s := by
  have hrun : ∀ (l : List (Nat × α)) (s : S), runActs (fun p : Nat × α => step p.2) l s = runActs step (l.map (·.2)) s := by
    intro l
    induction l with
    | nil => intro s; rfl
    | cons p l ih =>
      intro s
      simp only [runActs, List.map_cons]
      cases step p.2 s with
      | error f => rfl
      | ok s' => exact ih s'
  have happ : ∀ (l : List α) (s : S), runActs step l s = .ok s1 → runActs step (l ++ [a]) s = .ok s2 := by
    intro l
    induction l with
    | nil => intro s h; cases h; simp only [List.nil_append, runActs, h2]; rfl
    | cons p l ih =>
      intro s h
      simp only [runActs, List.cons_append] at h ⊢
      cases hs : step p s with
      | error f => rw [hs] at h; cases h
      | ok s' => rw [hs] at h; exact ih s' h
  refine ⟨A.map (Prod.mk 0) ++ B.map (Prod.mk 1), [], A'.map (Prod.mk 0) ++ B'.map (Prod.mk 1), 0, 1, a, b, s1, s2, x, y, ?_, by decide, ?_, ?_, hx, hy, hc⟩
  · have ht : Spec.tagged [A ++ a :: A', B ++ b :: B'] = [A.map (Prod.mk 0) ++ (0, a) :: A'.map (Prod.mk 0), B.map (Prod.mk 1) ++ (1, b) :: B'.map (Prod.mk 1)] := by
      simp [Spec.tagged]
    rw [ht, List.append_assoc]
    refine Interleave.left _ (Interleave.right _ ?_)
    refine .step (i := 0) rfl (.step (i := 1) rfl ?_)
    have := interleave_flatten [A'.map (Prod.mk 0), B'.map (Prod.mk 1)]
    simpa using this
  · rw [hrun]
    simpa [List.map_map, Function.comp_def] using h1
  · rw [hrun]
    have := happ _ _ h1
    simpa [List.map_map, Function.comp_def] using this

end

open Spec (reads writes)

/-- **C85 is violated** by a well-formed weighted edge list and the flag that removes self loops: the weight of the removed line
`1 1 5` of the first thread is stored into the element that belongs to the second thread's first entry. -/
theorem C85_removed_weight_violated :
    Spec.FileOk Spec.entryU (str "2 3 7\n1 1 5\n1 2 9\n") ∧
    ¬ (dReadEl ⟨str "2 3 7\n1 1 5\n1 2 9\n", 4078⟩ 32 64 { sl := true } (wUint 32) 2 (fileReader ⟨str "2 3 7\n1 1 5\n1 2 9\n", 4078⟩)).drf := by
  refine ⟨⟨by decide, by decide⟩, fun h => ?_⟩
  have hp : readElPlan ⟨str "2 3 7\n1 1 5\n1 2 9\n", 4078⟩ 32 64 { sl := true } (wUint 32) 2
      (fileReader ⟨str "2 3 7\n1 1 5\n1 2 9\n", 4078⟩) =
      .ok { m := 2, threads := [[.setW 0 7, .setX 0 2, .setY 0 3, .setW 1 5, .setW 1 0],
        [.setW 1 9, .setX 1 1, .setY 1 2]], mr := 2, mc := 3 } := by decide
  have h1 := (h.2 () rfl).2 _ hp.symm
  have h2 := h1.2 ⟨fun _ => 0, fun _ => 0, fun _ => 0⟩ ⟨_, trivial, rfl⟩
  exact h2.1.1 (race_two (α := Act Nat) (A := [.setW 0 7, .setX 0 2, .setY 0 3]) (B := []) (a := .setW 1 5) (b := .setW 1 9)
    (x := writes "w_" 1) (y := writes "w_" 1) rfl rfl (List.mem_singleton.mpr rfl) (List.mem_singleton.mpr rfl) ⟨rfl, rfl, by decide, by decide⟩)

/-- **C85 is violated** by a well-formed 0-based `.graph` file: both threads read a zero and set their bit of the same word of
`have_zeros`. -/
theorem C85_have_zeros_violated :
    GraphOk exGraph0.bytes 32 64 4 3 exRows0 exBody0 [] ∧ ¬ (dReadGraph (W := W) 32 64 2 exGraph0 (fileReader exGraph0)).drf := by
  refine ⟨exGraph0_ok, fun h => ?_⟩
  have hc : graphCounts exGraph0 32 64 2 (fileReader exGraph0) = .ok [⟨3, 4, true⟩, ⟨1, 2, true⟩] := by decide
  have h1 := (h.2 _ hc.symm).1
  exact h1 (race_two (α := Spec.Access) (A := []) (B := []) (a := writes "have_zeros" 0) (b := writes "have_zeros" 0) (A' := []) (B' := [])
    (x := writes "have_zeros" 0) (y := writes "have_zeros" 0) rfl rfl (List.mem_singleton.mpr rfl) (List.mem_singleton.mpr rfl)
    ⟨rfl, rfl, by decide, by decide⟩)

/-- **C85 is violated** by a `.graph` file with a comment sign right after a number: the threads store different rows into the same
element of the offsets (with any layout of `have_zeros`). -/
theorem C85_glued_comment_violated (per : Nat) : ¬ (dReadGraphPer (W := W) per 32 64 2 exGlue (fileReader exGlue)).drf := by
  intro h
  have hc : graphCounts exGlue 32 64 2 (fileReader exGlue) = .ok [⟨3, 3, false⟩, ⟨3, 3, true⟩] := by decide
  have h1 := ((h.2 _ hc.symm).2 () rfl).2 () rfl
  have h2 := (h1.2 _ exGlue_plan.symm).2 (fun _ => 0) ⟨_, trivial, rfl⟩
  have h3 := h2.2 (fun _ => 0) ⟨_, trivial, rfl⟩
  have hi : graphInit exGluePlan.base exGluePlan.n exGluePlan.m (alloc (fun _ => 0) (plusOne 32 exGluePlan.n)) = .ok [0, 0, 0, 0, 0, 0, 6] := by decide
  have h4 := ((h3.2 _ hi.symm).2 () rfl).1
  exact h4.1 (race_two (α := GAct) (A := [.inr (0, 1), .inl (1, 1), .inl (2, 1), .inr (1, 2), .inl (3, 2)]) (B := [.inr (3, 0)])
    (a := .inl (4, 2)) (b := .inl (4, 4)) (A' := [.inr (2, 3), .inl (5, 3)]) (B' := [.inr (4, 4), .inl (5, 5), .inr (5, 5), .inl (6, 6)])
    (x := writes "offsets_" 4) (y := writes "offsets_" 4) rfl rfl (List.mem_singleton.mpr rfl) (List.mem_singleton.mpr rfl)
    ⟨rfl, rfl, by decide, by decide⟩)

/-- A CSR as a damaged binary file can hold it: rows 0 and 2 are both the first endpoint. -/
def exOverlap : Csr Unit := { offsets := [0, 1, 0, 1], endpoints := [5], weights := [], n := 3, m := 1, nrows := 3, ncols := 6 }

/-- **C85 is violated** by a CSR whose offsets decrease (which loading a binary file does not rule out): the threads of its
conversion to a COO store into the same elements. -/
theorem C85_decreasing_offsets_violated (stor : Storage) : ¬ (dConvertCsr 64 2 stor {} false exOverlap).drf := by
  intro h
  have h1 := ((h.2 0 ⟨_, trivial, rfl⟩).2 0 ⟨_, trivial, rfl⟩).2 1 rfl
  have h2 := h1.2 ⟨fun _ => 0, fun _ => 0, fun _ => ()⟩ ⟨_, trivial, rfl⟩
  have h3 := h2.2 [[0, 1], [2]] ⟨_, ⟨by decide, by decide⟩, rfl⟩
  have hp : mapE (fun vs => mapE (csrRow stor {} false exOverlap) vs) [[0, 1], [2]] =
      .ok [[[.setX 0 0, .setY 0 5], []], [[.setX 0 2, .setY 0 5]]] := by cases stor <;> decide
  have h4 := (h3.2 _ hp.symm).1
  exact h4.1 (race_two (α := Act Unit) (A := []) (B := []) (a := .setX 0 0) (b := .setX 0 2)
    (x := writes "x_" 0) (y := writes "x_" 0) rfl rfl (List.mem_singleton.mpr rfl) (List.mem_singleton.mpr rfl)
    ⟨rfl, rfl, by decide, by decide⟩)

end Pigo
