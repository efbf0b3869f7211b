import Verif.Model.Throw
import Verif.Model.Write

/-!
# Failures inside parallel regions, and memory that runs out

The loaders once more (`Model/Throw`), where an allocation may fail, and where an exception that leaves an OpenMP parallel region ends the process
(OpenMP: "a throw executed inside a parallel region must cause execution to resume within the same region"; compilers call `std::terminate`).
Then the text writers, whose output file is opened inside such a region.

`allocate_mem_` throws `Error` for raw pointers (pigo.hpp 503–504), vectors and `new` throw `std::bad_alloc`; both are `Fault.error` here.
The blocks known when an exception arrives are those of `Model/Throw` and the working arrays of `convert_coo_`; the vectors of the readers release
themselves.
-/

namespace Pigo

/-- How a computation ends: as before, or by the end of the process. -/
inductive Fin (α : Type)
  | out (o : M α)
  | ended

/-- The build and the machine: compiled with OpenMP or not; whether memory can run out. -/
structure Env where
  omp : Bool
  short : Bool

/-- Ways to end, with the blocks left. -/
def FR (α : Type) : Type := Fin α → List Blk → Prop

/-- A computation that allocates nothing that survives it. -/
def FR.run {α : Type} (p : R α) : FR α := fun z L => ∃ o, z = .out o ∧ p o ∧ L = []

/-- Allocation of the arrays of an object, one after the other (`allocate_mem_`, pigo.hpp 487–545): all of them, or an exception after the first `k`;
it destroys the object. -/
def FR.alloc (E : Env) (bs : List Blk) : FR Unit := fun z L =>
  (z = .out (.ok ()) ∧ L = bs) ∨ (E.short = true ∧ ∃ k, k < bs.length ∧ z = .out (.error .error) ∧ L = unwind (bs.take k))

/-- A vector of the function (`nl_offsets`, …). -/
def FR.vec (E : Env) : FR Unit := fun z L => L = [] ∧ (z = .out (.ok ()) ∨ (E.short = true ∧ z = .out (.error .error)))

/-- An OpenMP parallel region. -/
def FR.region {α : Type} (E : Env) (p : FR α) : FR α := fun z L =>
  ∃ z' L', p z' L' ∧
    (((E.omp = true ∧ (z' = .out (.error .error) ∨ z' = .out (.error .nyi))) ∧ z = .ended ∧ L = []) ∨
     (¬ (E.omp = true ∧ (z' = .out (.error .error) ∨ z' = .out (.error .nyi))) ∧ z = z' ∧ L = L'))

/-- Run `p`, then `k` on its result (`TR.using`). -/
def FR.using {α β : Type} (p : FR α) (left : α → M β → List Blk → List Blk) (k : α → FR β) : FR β := fun z L =>
  ∃ z1 L1, p z1 L1 ∧ match z1 with
    | .ended => z = .ended ∧ L = []
    | .out (.error f) => z = .out (.error f) ∧ L = L1
    | .out (.ok a) => ∃ L2, k a z L2 ∧ L = match z with
        | .ended => []
        | .out o => left a o L1 ++ L2

instance : Monad FR where
  pure a := FR.run (pure a)
  bind p k := FR.using p (fun _ out L => keep out L) k

variable {W : Type}

/-- `COO::read_el_` (impl/coo.impl.hpp 384–481): `nl_offsets` (403), then the region (407–473) with both passes and `allocate_()` (460). -/
def fReadEl (E : Env) (s ws : Storage) (μ : Mapping) (lw ow : Nat) (cfg : Cfg) (wk : WKind W) (T : Nat) (r : Reader) : FR (Coo W) := do
  let _ ← FR.vec E
  FR.region E (do
    let regions ← FR.run (R.lift (mapE (elRegion μ r T) (List.range T)))
    let counts ← FR.run (R.lift (mapE (elCount μ lw cfg wk) regions))
    let _ ← FR.alloc E (cooBlocks s ws wk.wgt ((prefixSums 0 counts).getD (T - 1) 0 % 2 ^ ow))
    FR.run (readElPass2 μ lw ow cfg wk T regions (prefixSums 0 counts)))

/-- `COO::read_mm_` (impl/coo.impl.hpp 326–381). -/
def fReadMm (E : Env) (s ws : Storage) (μ : Mapping) (lw ow : Nat) (cfg : Cfg) (wk : WKind W) (T : Nat) (r : Reader) : FR (Coo W) := do
  let h ← FR.run (R.lift (readMmHeader μ lw ow r))
  FR.using (fReadEl E s ws μ lw ow cfg wk T h.2.2.2) checkCoo
    (fun c => FR.run (R.lift (mmCheck ow cfg h.1 h.2.1 h.2.2.1 c)))

/-- `COO::read_bin_` (impl/coo.impl.hpp 531–567): header, allocation (557), arrays. -/
def fReadBinCoo (E : Env) (s ws : Storage) (T lb ob : Nat) (wgt : Bool) (cw : Codec W) (μ : Mapping) (p : Nat) : FR (Coo W × Nat) := do
  let p ← FR.run (R.lift (rdStr μ cooMagic p))
  let (ls, p) ← FR.run (R.lift (rdLE μ 1 p))
  let (os, p) ← FR.run (R.lift (rdLE μ 1 p))
  let _ ← FR.run (R.lift (sizeCheck ls lb))
  let _ ← FR.run (R.lift (sizeCheck os ob))
  let (nrows, p) ← FR.run (R.lift (rdLE μ lb p))
  let (ncols, p) ← FR.run (R.lift (rdLE μ lb p))
  let (n, p) ← FR.run (R.lift (rdLE μ lb p))
  let (m, p) ← FR.run (R.lift (rdLE μ ob p))
  let _ ← FR.alloc E (cooBlocks s ws wgt m)
  let (x, p) ← FR.run (readArr T μ lb decLE m (lb * m) p)
  let (y, p) ← FR.run (readArr T μ lb decLE m (lb * m) p)
  let (w, p) ← FR.run (readWeights T μ wgt cw m p)
  pure ({ x := x, y := y, w := w, n := n, m := m, nrows := nrows, ncols := ncols }, p)

/-- `CSR::read_bin_` (impl/csr.impl.hpp 495–528): header, allocation, arrays. -/
def fReadBinCsr (E : Env) (st : Stor) (ws : Storage) (T lb ob : Nat) (wgt : Bool) (cw : Codec W) (μ : Mapping) (p : Nat) :
    FR (Csr W × Nat) := do
  let p ← FR.run (R.lift (rdStr μ csrMagic p))
  let (ls, p) ← FR.run (R.lift (rdLE μ 1 p))
  let (os, p) ← FR.run (R.lift (rdLE μ 1 p))
  let _ ← FR.run (R.lift (sizeCheck ls lb))
  let _ ← FR.run (R.lift (sizeCheck os ob))
  let (n, p) ← FR.run (R.lift (rdLE μ lb p))
  let (m, p) ← FR.run (R.lift (rdLE μ ob p))
  let (nrows, p) ← FR.run (R.lift (rdLE μ lb p))
  let (ncols, p) ← FR.run (R.lift (rdLE μ lb p))
  let _ ← FR.alloc E (csrBlocks st ws wgt m (succL lb n))
  let (offsets, p) ← FR.run (readArr T μ ob decLE (succL lb n) (ob * succL lb n) p)
  let (endpoints, p) ← FR.run (readArr T μ lb decLE m (lb * m) p)
  let (weights, p) ← FR.run (readWeights T μ wgt cw m p)
  pure ({ offsets := offsets, endpoints := endpoints, weights := weights, n := n, m := m, nrows := nrows, ncols := ncols }, p)

/-- `CSR::read_graph_` (impl/csr.impl.hpp 255–424): the vectors (284–287), the region (289–411) with the allocation (371), then the checks (413–415).
The header (272–277) is read before the region; it does not throw. -/
def fReadGraph (E : Env) (st : Stor) (ws : Storage) (wgt : Bool) (lw ow T : Nat) (μ : Mapping) (r : Reader) : FR (Csr W) := do
  let _ ← FR.vec E
  let pq ← FR.region E (do
    let p ← FR.run (R.lift (graphPlan μ lw ow T r))
    let _ ← FR.alloc E (csrBlocks st ws wgt p.m (plusOne lw p.n))
    let jo ← FR.run (R.any (Nat → Nat))
    let je ← FR.run (R.any (Nat → Nat))
    let o ← FR.run (R.lift (graphInit p.base p.n p.m (alloc jo (plusOne lw p.n))))
    let q ← FR.run (R.par (sumStep storeAct storeAct) p.threads (o, alloc je p.m))
    pure (p, q))
  FR.run (R.lift (graphFinish lw ow pq.1 pq.2.1 pq.2.2))

/-- `COO::convert_csr_` (impl/coo.impl.hpp 65–129): the two `throw`s (72–77) come before the allocation (79). -/
def fConvertCsr (E : Env) (s ws : Storage) (ow T : Nat) (cfg : Cfg) (wgt : Bool) (c : Csr W) : FR (Coo W) := do
  let nrows ← FR.run (R.any Nat)
  let ncols ← FR.run (R.any Nat)
  let m ← FR.run (R.lift (if cfg.sym && !cfg.ut then .ok (c.m * 2 % 2 ^ ow)
    else if !cfg.sym && cfg.ut then .error .nyi else .ok c.m))
  if cfg.sl then FR.run (R.lift (.error .nyi)) else do
    let _ ← FR.alloc E (cooBlocks s ws wgt m)
    let j ← FR.run (R.any (Junk W))
    let its ← FR.run (R.choose (OmpDyn c.n T))
    let threads ← FR.run (R.lift (mapE (fun vs => mapE (csrRow ws cfg wgt c) vs) its))
    let mem ← FR.run (R.par stepAct (threads.map List.flatten) (allocCoo wgt j m))
    pure { x := mem.x, y := mem.y, w := mem.w, n := c.n, m := m, nrows := nrows, ncols := ncols }

/-- `CSR::convert_coo_` (impl/csr.impl.hpp 106–253): `allocate_` (120), `label_degs`, `start_offsets`, `all_degs` by `new` (143–150); nothing
after them throws (`R.Calm.convertCoo`), and they are released by `delete []` (248–250). -/
def fConvertCoo (E : Env) (st : Stor) (ws : Storage) (lw ow T : Nat) (wgt : Bool) (coo : Coo W) : FR (Csr W) := do
  let _ ← FR.alloc E (csrBlocks st ws wgt coo.m (plusOne lw coo.n))
  FR.using (FR.alloc E [⟨.work, coo.n, true⟩, ⟨.work, T, true⟩, ⟨.work, coo.n, true⟩]) (fun _ _ _ => [])
    (fun _ => FR.run (convertCoo lw ow T wgt coo))

/-- The copy constructor of `COO` (coo.hpp 314–319). -/
def fCopyCoo (E : Env) (s ws : Storage) (T : Nat) (wgt : Bool) (c : Coo W) : FR (Coo W) := do
  let _ ← FR.alloc E (cooBlocks s ws wgt c.m)
  FR.run (copyCoo T wgt c)

/-- The branches of `COO::read_` holding a COO (impl/coo.impl.hpp 38–45). -/
def fReadCooFmt (E : Env) (s : Storage) (P : Params W) (cfg : Cfg) (μ : Mapping) (p : Nat) (ft : FileType) : FR (Coo W × Nat) :=
  if ft = .matrixMarket then do
    let c ← fReadMm E s P.stor μ (8 * P.lb) (8 * P.ob) cfg P.wk P.T (readerAt μ p)
    pure (c, p)
  else if ft = .edgeList then do
    let c ← fReadEl E s P.stor μ (8 * P.lb) (8 * P.ob) cfg P.wk P.T (readerAt μ p)
    pure (c, p)
  else fReadBinCoo E s P.stor P.T P.lb P.ob P.wk.wgt P.cw μ p

/-- `CSR::read_` (impl/csr.impl.hpp 45–67): the inner COO has raw label storage (`L*`, 55), and is released by
`coo.free()` (57). -/
def fReadCsr (E : Env) (st : Stor) (P : Params W) (μ : Mapping) (fn : List Byte) (p : Nat) (ft : FileType) : FR (Csr W × Nat) := do
  let ft ← FR.run (R.lift (usedType μ fn p ft))
  if ft = .matrixMarket ∨ ft = .edgeList ∨ ft = .cooBin then
    FR.using (fReadCooFmt E .pointer P {} μ p ft) (fun cp => tempCoo cp.1) (fun cp => do
      let c ← fConvertCoo E st P.stor (8 * P.lb) (8 * P.ob) P.T P.wk.wgt cp.1
      pure (c, cp.2))
  else if ft = .csrBin then fReadBinCsr E st P.stor P.T P.lb P.ob P.wk.wgt P.cw μ p
  else if ft = .graph then
    if P.wk.wgt then FR.run (R.lift (.error .nyi)) else do
      let c ← fReadGraph E st P.stor P.wk.wgt (8 * P.lb) (8 * P.ob) P.T μ (readerAt μ p)
      pure (c, p)
  else FR.run (R.lift (.error .nyi))

/-- `COO::read_` (impl/coo.impl.hpp 31–57): the inner CSR has the storage `S` for both labels and offsets (50), and is
released by `csr.free()` (52). -/
def fReadCoo (E : Env) (s : Storage) (P : Params W) (cfg : Cfg) (μ : Mapping) (fn : List Byte) (p : Nat) (ft : FileType) : FR (Coo W) := do
  let ft ← FR.run (R.lift (usedType μ fn p ft))
  if ft = .matrixMarket ∨ ft = .edgeList ∨ ft = .cooBin then do
    let cp ← fReadCooFmt E s P cfg μ p ft
    pure cp.1
  else if ft = .csrBin ∨ ft = .graph then
    FR.using (fReadCsr E ⟨s, s⟩ P μ fn p ft) (fun _ => tempCsr)
      (fun cp => fConvertCsr E s P.stor (8 * P.ob) P.T cfg P.wk.wgt cp.1)
  else FR.run (R.lift (.error .nyi))

/-- `from_coo_` of `DiGraph` (graph.hpp 213–237) and of `Matrix` (matrix.hpp 131–157): the transposed copy is released by
`coo_copy.free()`. -/
def fTwoGraphs (E : Env) (s : Storage) (st : Stor) (ws : Storage) (lw ow T : Nat) (wgt : Bool) (coo : Coo W) : FR (Csr W × Csr W) := do
  let a ← FR.using (fCopyCoo E s ws T wgt coo) tempCoo (fun copy => fConvertCoo E st ws lw ow T wgt (transposeCoo copy))
  let b ← fConvertCoo E st ws lw ow T wgt coo
  pure (a, b)

/-- `DiGraph::read_` (impl/graph.impl.hpp 22–61): the inner COO has the label storage of the graph and is released by
`coo.free()` (59). -/
def fReadDiGraph (E : Env) (st : Stor) (P : Params W) (μ : Mapping) (fn : List Byte) (ft : FileType) : FR (DiGraph W) := do
  let ft' ← FR.run (R.lift (usedType μ fn 0 ft))
  if ft' = .digraphBin then do
    let p ← FR.run (R.lift (rdStr μ digraphMagic 0))
    let a ← fReadCsr E st P μ fn p .auto
    let b ← fReadCsr E st P μ fn a.2 .auto
    pure ⟨a.1, b.1⟩
  else FR.using (fReadCoo E st.l P {} μ fn 0 ft) tempCoo (fun coo => do
    let g ← fTwoGraphs E st.l st P.stor (8 * P.lb) (8 * P.ob) P.T P.wk.wgt coo
    pure ⟨g.1, g.2⟩)

/-- `Matrix(std::string)` (matrix.hpp 189–197). -/
def fReadMatrix (E : Env) (st : Stor) (P : Params W) (μ : Mapping) (fn : List Byte) : FR (Matrix W) :=
  FR.using (fReadCoo E st.l P {} μ fn 0 .auto) tempCoo (fun coo => do
    let g ← fTwoGraphs E st.l st P.stor (8 * P.lb) (8 * P.ob) P.T P.wk.wgt coo
    pure ⟨g.2, g.1⟩)

/-- `Tensor::read_` (impl/tensor.impl.hpp 32–48), `read_el_` (103–198; `nl_offsets` 130, the region 132–197), `read_bin_` (249–284). -/
def fReadTensor (E : Env) (s : Storage) (P : Params W) (μ : Mapping) (fn : List Byte) (p : Nat) (ft : FileType) : FR (Tensor W) := do
  let ft ← FR.run (R.lift (usedType μ fn p ft))
  if ft = .edgeList then do
    let _ ← FR.vec E
    FR.region E (do
      let q ← FR.run (R.lift (tensorPlan μ (8 * P.lb) (8 * P.ob) P.wk P.T (readerAt μ p)))
      let _ ← FR.alloc E (tensorBlocks s P.stor P.wk.wgt (inOrd (8 * P.ob) (q.order * q.m)) q.m)
      let jc ← FR.run (R.any (Nat → Nat))
      let jw ← FR.run (R.any (Nat → W))
      let mem ← FR.run (R.par stepT q.threads
        { c := alloc jc (inOrd (8 * P.ob) (q.order * q.m)), w := if P.wk.wgt then alloc jw q.m else [] })
      pure { c := mem.c, w := mem.w, order := q.order, m := q.m })
  else if ft = .tensorBin then do
    let p ← FR.run (R.lift (rdStr μ tensorMagic p))
    let (ls, p) ← FR.run (R.lift (rdLE μ 1 p))
    let (os, p) ← FR.run (R.lift (rdLE μ 1 p))
    let _ ← FR.run (R.lift (sizeCheck ls P.lb))
    let _ ← FR.run (R.lift (sizeCheck os P.ob))
    let p ← FR.run (R.lift (if P.wk.wgt then
      (rdLE μ 1 p >>= fun (ws, p) => sizeCheck ws P.cw.size >>= fun _ => .ok p) else .ok p))
    let (order, p) ← FR.run (R.lift (rdLE μ P.ob p))
    let (m, p) ← FR.run (R.lift (rdLE μ P.ob p))
    let _ ← FR.alloc E (tensorBlocks s P.stor P.wk.wgt (inOrd (8 * P.ob) (order * m)) m)
    let (c, p) ← FR.run (readArr P.T μ P.lb decLE (inOrd (8 * P.ob) (order * m)) (P.lb * order * m) p)
    let (w, _) ← FR.run (readWeights P.T μ P.wk.wgt P.cw m p)
    pure { c := c, w := w, order := order, m := m }
  else FR.run (R.lift (.error .nyi))

/-! ## Writing -/

/-- `File(fn, WRITE, max_size)` (impl/pigo.impl.hpp 22–77) where some system call fails if `fails`. -/
def openFail (fails : Bool) (size : Nat) : M WFile := if fails then .error .error else openW size

/-- Both passes of the text writers (impl/coo.impl.hpp 590–656, impl/tensor.impl.hpp 307–370): `pos_offsets`, then one region that contains
also the construction of the `File` (impl/coo.impl.hpp 634). -/
def fTwoPass (E : Env) (fails : Bool) (size : Nat → M Nat) (ascii : Nat → Nat → M (List (Nat × Byte) × Nat)) (m T : Nat) : FR (List Byte) := do
  let _ ← FR.vec E
  FR.region E (do
    let its ← FR.run (R.choose (OmpStatic m T))
    let sizes ← FR.run (R.lift (mapE (sizeLoopE size) its))
    let f ← FR.run (R.lift (openFail fails ((posOffsets sizes).getD its.length 0)))
    let threads ← FR.run (R.lift (mapE (fun p : Nat × List Nat => writeLoop ascii (f.fp + p.1) p.2) ((posOffsets sizes).zip its)))
    FR.run (R.par storeAct threads f.bytes))

/-- `COO::write` (impl/coo.impl.hpp 569–657) -/
def fWriteCoo (E : Env) (fails : Bool) (T : Nat) (wt : WText W) (c : Coo W) : FR (List Byte) :=
  fTwoPass E fails (cooLineSize wt c) (cooLineActs wt c) c.m T

/-- `Tensor::write` (impl/tensor.impl.hpp 286–371) -/
def fWriteTensor (E : Env) (fails : Bool) (T ob : Nat) (wt : WText W) (t : Tensor W) : FR (List Byte) :=
  fTwoPass E fails (tensorLineSize ob wt t) (tensorLineActs ob wt t) t.m T

/-- The `save` functions `p` (impl/coo.impl.hpp 483–529, impl/csr.impl.hpp 444–454, impl/graph.impl.hpp 63–81, impl/tensor.impl.hpp 200–247): the `File`
is constructed before any parallel region. -/
def fSave {α : Type} (fails : Bool) (p : R α) : FR α := do
  let _ ← FR.run (R.lift (if fails then .error .error else .ok ()))
  FR.run p

end Pigo
