import Verif.Model.Binary
import Verif.Model.GraphFile

/-!
# File types and loading by type

`File::guess_file_type` (impl/pigo.impl.hpp 135–163) and the `read_` functions of COO (impl/coo.impl.hpp 31–57),
CSR (impl/csr.impl.hpp 45–67), Tensor (impl/tensor.impl.hpp 32–48) and DiGraph (impl/graph.impl.hpp 22–61).
-/

namespace Pigo

variable {W : Type}

/-- `enum FileType` (pigo.hpp 252–274) -/
inductive FileType
  | matrixMarket | edgeList | cooBin | csrBin | digraphBin | tensorBin | graph | auto
  deriving DecidableEq, Repr

/-- `fn_.size() >= ext.size() && fn_.compare(…) == 0` (impl/pigo.impl.hpp 150–152, 155–157). -/
def endsWith (fn ext : List Byte) : Bool := decide (fn.length ≥ ext.length) && (fn.drop (fn.length - ext.length) == ext)

/-- `File::guess_file_type()` (impl/pigo.impl.hpp 135–163) with the file position at `p`. -/
def guessFileType (μ : Mapping) (fn : List Byte) (p : Nat) : M FileType := do
  let r : Reader := ⟨p, μ.bytes.length⟩
  if ← atStr μ cooMagic r then .ok .cooBin
  else if ← atStr μ csrMagic r then .ok .csrBin
  else if ← atStr μ digraphMagic r then .ok .digraphBin
  else if ← atStr μ tensorMagic r then .ok .tensorBin
  else if ← atStr μ (str "PIGO") r then .error .error
  else if endsWith fn (str ".mtx") then .ok .matrixMarket
  else if endsWith fn (str ".graph") then .ok .graph
  else .ok .edgeList

/-- The type used: `ft`, or the guess if it is `AUTO`. -/
def usedType (μ : Mapping) (fn : List Byte) (p : Nat) (ft : FileType) : M FileType :=
  if ft = .auto then guessFileType μ fn p else .ok ft

/-- The template parameters of a load: type sizes, weight type (as text and as bytes), threads, storage of weights. -/
structure Params (W : Type) where
  T : Nat
  lb : Nat
  ob : Nat
  wk : WKind W
  cw : Codec W
  stor : Storage

/-- `FileReader r = f.reader()` with the position at `p`. -/
def readerAt (μ : Mapping) (p : Nat) : Reader := ⟨p, μ.bytes.length⟩

/-- The branches of `COO::read_` for the formats holding a COO (impl/coo.impl.hpp 38–45): the COO and the new file
position; text is read through a copy of the position, so only the binary format moves it. -/
def readCooFmt (P : Params W) (cfg : Cfg) (μ : Mapping) (p : Nat) (ft : FileType) : R (Coo W × Nat) :=
  if ft = .matrixMarket then do
    let c ← (fun o => ReadMm μ (8 * P.lb) (8 * P.ob) cfg P.wk P.T (readerAt μ p) o : R (Coo W))
    pure (c, p)
  else if ft = .edgeList then do
    let c ← (fun o => ReadEl μ (8 * P.lb) (8 * P.ob) cfg P.wk P.T (readerAt μ p) o : R (Coo W))
    pure (c, p)
  else readBinCoo P.T P.lb P.ob P.wk.wgt P.cw μ p

/-- `CSR::read_` (impl/csr.impl.hpp 45–67, `fail_if_weighted` 30–43): the CSR and the new file position; the inner COO has
no flags. -/
def readCsr (P : Params W) (μ : Mapping) (fn : List Byte) (p : Nat) (ft : FileType) : R (Csr W × Nat) := do
  let ft ← R.lift (usedType μ fn p ft)
  if ft = .matrixMarket ∨ ft = .edgeList ∨ ft = .cooBin then do
    let (coo, p) ← readCooFmt P {} μ p ft
    let c ← convertCoo (8 * P.lb) (8 * P.ob) P.T P.wk.wgt coo
    pure (c, p)
  else if ft = .csrBin then readBinCsr P.T P.lb P.ob P.wk.wgt P.cw μ p
  else if ft = .graph then
    if P.wk.wgt then R.lift (.error .nyi) else do
      let c ← readGraph (8 * P.lb) (8 * P.ob) P.T μ (readerAt μ p)
      pure (c, p)
  else R.lift (.error .nyi)

/-- `COO::read_` (impl/coo.impl.hpp 31–57). -/
def readCoo (P : Params W) (cfg : Cfg) (μ : Mapping) (fn : List Byte) (p : Nat) (ft : FileType) : R (Coo W) := do
  let ft ← R.lift (usedType μ fn p ft)
  if ft = .matrixMarket ∨ ft = .edgeList ∨ ft = .cooBin then do
    let (c, _) ← readCooFmt P cfg μ p ft
    pure c
  else if ft = .csrBin ∨ ft = .graph then do
    let (c, _) ← readCsr P μ fn p ft
    convertCsr (8 * P.ob) P.T P.stor cfg P.wk.wgt c
  else R.lift (.error .nyi)

/-- The binary branch of `DiGraph::read_` (impl/graph.impl.hpp 22–47), with the position at the start of the file;
the other branch builds a COO and both graphs from it (`from_coo_`). -/
def readDiGraphBin (P : Params W) (μ : Mapping) (fn : List Byte) (p : Nat) : R (DiGraph W) := do
  let p ← R.lift (rdStr μ digraphMagic p)
  let (inG, p) ← readCsr P μ fn p .auto
  let (outG, _) ← readCsr P μ fn p .auto
  pure ⟨inG, outG⟩

end Pigo
