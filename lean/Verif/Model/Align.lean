import Verif.Model.Dispatch

/-!
# Alignment of the header fields

`read<T>` is `*(T*)fp` and `write` is `*(T*)fp = val` (impl/pigo.impl.hpp 165–178): in C++ these accesses are undefined unless the address is a multiple of
`alignof(T)`, which is `sizeof(T)` for the integer types.  A mapping starts at a page boundary, so the address is aligned exactly when the position in the file
is.  Here a misaligned access gives the outcome of undefined behaviour (`Fault.oob`); arrays are copied by `memcpy` (impl/pigo.impl.hpp 648, 677), which has no
such condition.
-/

namespace Pigo

variable {W : Type}

/-- `read<T>(fp)` for a type of `k` bytes (impl/pigo.impl.hpp 165–171). -/
def rdA (μ : Mapping) (k p : Nat) : M (Nat × Nat) := if p % k = 0 then rdLE μ k p else .error .oob

/-- `write(fp, val)` for a value of `k` bytes (impl/pigo.impl.hpp 173–178). -/
def wA (k v : Nat) (f : WFile) : M WFile := if f.fp % k = 0 then wBytes (encLE k v) f else .error .oob

/-- `COO::read_bin_` (impl/coo.impl.hpp 531–567) -/
def aReadBinCoo (T lb ob : Nat) (wgt : Bool) (cw : Codec W) (μ : Mapping) (p : Nat) : R (Coo W × Nat) := do
  let p ← R.lift (rdStr μ cooMagic p)
  let (ls, p) ← R.lift (rdA μ 1 p)
  let (os, p) ← R.lift (rdA μ 1 p)
  let _ ← R.lift (sizeCheck ls lb)
  let _ ← R.lift (sizeCheck os ob)
  let (nrows, p) ← R.lift (rdA μ lb p)
  let (ncols, p) ← R.lift (rdA μ lb p)
  let (n, p) ← R.lift (rdA μ lb p)
  let (m, p) ← R.lift (rdA μ ob p)
  let (x, p) ← readArr T μ lb decLE m (lb * m) p
  let (y, p) ← readArr T μ lb decLE m (lb * m) p
  let (w, p) ← readWeights T μ wgt cw m p
  pure ({ x := x, y := y, w := w, n := n, m := m, nrows := nrows, ncols := ncols }, p)

/-- `CSR::read_bin_` (impl/csr.impl.hpp 491–528) -/
def aReadBinCsr (T lb ob : Nat) (wgt : Bool) (cw : Codec W) (μ : Mapping) (p : Nat) : R (Csr W × Nat) := do
  let p ← R.lift (rdStr μ csrMagic p)
  let (ls, p) ← R.lift (rdA μ 1 p)
  let (os, p) ← R.lift (rdA μ 1 p)
  let _ ← R.lift (sizeCheck ls lb)
  let _ ← R.lift (sizeCheck os ob)
  let (n, p) ← R.lift (rdA μ lb p)
  let (m, p) ← R.lift (rdA μ ob p)
  let (nrows, p) ← R.lift (rdA μ lb p)
  let (ncols, p) ← R.lift (rdA μ lb p)
  let (offsets, p) ← readArr T μ ob decLE (succL lb n) (ob * succL lb n) p
  let (endpoints, p) ← readArr T μ lb decLE m (lb * m) p
  let (weights, p) ← readWeights T μ wgt cw m p
  pure ({ offsets := offsets, endpoints := endpoints, weights := weights, n := n, m := m, nrows := nrows, ncols := ncols }, p)

/-- `Tensor::read_bin_` (impl/tensor.impl.hpp 249–284) -/
def aReadBinTensor (T lb ob : Nat) (wgt : Bool) (cw : Codec W) (μ : Mapping) (p : Nat) : R (Tensor W) := do
  let p ← R.lift (rdStr μ tensorMagic p)
  let (ls, p) ← R.lift (rdA μ 1 p)
  let (os, p) ← R.lift (rdA μ 1 p)
  let _ ← R.lift (sizeCheck ls lb)
  let _ ← R.lift (sizeCheck os ob)
  let p ← R.lift (if wgt then (rdA μ 1 p >>= fun (ws, p) => sizeCheck ws cw.size >>= fun _ => .ok p) else .ok p)
  let (order, p) ← R.lift (rdA μ ob p)
  let (m, p) ← R.lift (rdA μ ob p)
  let (c, p) ← readArr T μ lb decLE (inOrd (8 * ob) (order * m)) (lb * order * m) p
  let (w, _) ← readWeights T μ wgt cw m p
  pure { c := c, w := w, order := order, m := m }

/-- `COO::read_`, formats holding a COO (impl/coo.impl.hpp 38–45), the binary one with checked alignment. -/
def aReadCooFmt (P : Params W) (cfg : Cfg) (μ : Mapping) (p : Nat) (ft : FileType) : R (Coo W × Nat) :=
  if ft = .matrixMarket ∨ ft = .edgeList then readCooFmt P cfg μ p ft else aReadBinCoo P.T P.lb P.ob P.wk.wgt P.cw μ p

/-- `CSR::read_` (impl/csr.impl.hpp 45–67), the binary formats with checked alignment. -/
def aReadCsr (P : Params W) (μ : Mapping) (fn : List Byte) (p : Nat) (ft : FileType) : R (Csr W × Nat) := do
  let ft ← R.lift (usedType μ fn p ft)
  if ft = .matrixMarket ∨ ft = .edgeList ∨ ft = .cooBin then do
    let (coo, p) ← aReadCooFmt P {} μ p ft
    let c ← convertCoo (8 * P.lb) (8 * P.ob) P.T P.wk.wgt coo
    pure (c, p)
  else if ft = .csrBin then aReadBinCsr P.T P.lb P.ob P.wk.wgt P.cw μ p
  else if ft = .graph then
    if P.wk.wgt then R.lift (.error .nyi) else do
      let c ← readGraph (8 * P.lb) (8 * P.ob) P.T μ (readerAt μ p)
      pure (c, p)
  else R.lift (.error .nyi)

/-- The binary branch of `DiGraph::read_` (impl/graph.impl.hpp 22–47) -/
def aReadDiGraphBin (P : Params W) (μ : Mapping) (fn : List Byte) (p : Nat) : R (DiGraph W) := do
  let p ← R.lift (rdStr μ digraphMagic p)
  let (inG, p) ← aReadCsr P μ fn p .auto
  let (outG, _) ← aReadCsr P μ fn p .auto
  pure ⟨inG, outG⟩

/-- `COO::save` (impl/coo.impl.hpp 483–529): magic and sizes are written as characters and single bytes. -/
def aSaveCoo (T lb ob : Nat) (wgt : Bool) (cw : Codec W) (c : Coo W) : R (List Byte) := do
  let f ← R.lift (openW (cooSaveSize lb ob wgt cw c))
  let f ← R.lift (wBytes cooMagic f)
  let f ← R.lift (wA 1 lb f)
  let f ← R.lift (wA 1 ob f)
  let f ← R.lift (wA lb c.nrows f)
  let f ← R.lift (wA lb c.ncols f)
  let f ← R.lift (wA lb c.n f)
  let f ← R.lift (wA ob c.m f)
  let f ← parWrite T (rawArr (encLE lb) c.x) (lb * c.m) f
  let f ← parWrite T (rawArr (encLE lb) c.y) (lb * c.m) f
  let f ← saveWeights T wgt cw c.m c.w f
  pure f.bytes

/-- `CSR::save(File&)` (impl/csr.impl.hpp 456–489) -/
def aSaveCsrTo (T lb ob : Nat) (wgt : Bool) (cw : Codec W) (c : Csr W) (f : WFile) : R WFile := do
  let f ← R.lift (wBytes csrMagic f)
  let f ← R.lift (wA 1 lb f)
  let f ← R.lift (wA 1 ob f)
  let f ← R.lift (wA lb c.n f)
  let f ← R.lift (wA ob c.m f)
  let f ← R.lift (wA lb c.nrows f)
  let f ← R.lift (wA lb c.ncols f)
  let f ← parWrite T (rawArr (encLE ob) c.offsets) (ob * succL lb c.n) f
  let f ← parWrite T (rawArr (encLE lb) c.endpoints) (lb * c.m) f
  saveWeights T wgt cw c.m c.weights f

/-- `CSR::save(std::string)` (impl/csr.impl.hpp 444–454) -/
def aSaveCsr (T lb ob : Nat) (wgt : Bool) (cw : Codec W) (c : Csr W) : R (List Byte) := do
  let f ← R.lift (openW (csrSaveSize lb ob wgt cw c))
  let f ← aSaveCsrTo T lb ob wgt cw c f
  pure f.bytes

/-- `DiGraph::save` (impl/graph.impl.hpp 63–81) -/
def aSaveDiGraph (T lb ob : Nat) (wgt : Bool) (cw : Codec W) (g : DiGraph W) : R (List Byte) := do
  let f ← R.lift (openW (digraphMagic.length + csrSaveSize lb ob wgt cw g.inG + csrSaveSize lb ob wgt cw g.outG))
  let f ← R.lift (wBytes digraphMagic f)
  let f ← aSaveCsrTo T lb ob wgt cw g.inG f
  let f ← aSaveCsrTo T lb ob wgt cw g.outG f
  pure f.bytes

/-- `Tensor::save` (impl/tensor.impl.hpp 200–247) -/
def aSaveTensor (T lb ob : Nat) (wgt : Bool) (cw : Codec W) (t : Tensor W) : R (List Byte) := do
  let f ← R.lift (openW (tensorSaveSize lb ob wgt cw t))
  let f ← R.lift (wBytes tensorMagic f)
  let f ← R.lift (wA 1 lb f)
  let f ← R.lift (wA 1 ob f)
  let f ← R.lift (if wgt then wA 1 cw.size f else wBytes [] f)
  let f ← R.lift (wA ob t.order f)
  let f ← R.lift (wA ob t.m f)
  let f ← parWrite T (rawArr (encLE lb) t.c) (lb * t.order * t.m) f
  let f ← saveWeights T wgt cw t.m t.w f
  pure f.bytes

end Pigo
