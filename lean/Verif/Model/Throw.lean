import Verif.Model.Graph
import Verif.Model.Tensor

/-!
# Memory left behind when a constructor throws

The loaders again, with the arrays that are allocated when they end: an outcome together with the list of blocks still
allocated.  An array in raw pointer storage (`Label*`, the default, coo.hpp 66, 72) is released by `free()` only; one in
vector or `shared_ptr` storage is also released when its object is destroyed, which happens when an exception leaves the
constructor.

Not tracked: the working arrays of `convert_coo_`, `read_el_`, `read_graph_` (`new`/`delete` or vectors inside one
function between whose allocation and release nothing throws, C74), failing allocations (`malloc` succeeds, also for
zero bytes), and the file mapping (released by `~File`, C65).
-/

namespace Pigo

/-- The arrays of the classes. -/
inductive Arr
  | x | y | w | endpoints | weights | offsets | coords
  /-- a working array (Model/Fail) -/
  | work
  deriving DecidableEq, Repr

/-- An allocated array: which, number of elements, and whether its storage is a raw pointer. -/
structure Blk where
  arr : Arr
  size : Nat
  raw : Bool
  deriving DecidableEq, Repr

/-- Outcomes with the blocks allocated by the computation and not released when it ends. -/
def TR (α : Type) : Type := M α → List Blk → Prop

/-- Destruction of the objects owning `L`: vectors and shared pointers release their arrays. -/
def unwind (L : List Blk) : List Blk := L.filter (·.raw)

/-- A computation that allocates nothing that survives it. -/
def TR.run {α : Type} (p : R α) : TR α := fun o L => p o ∧ L = []

/-- Allocation of the given arrays (`allocate_mem_`, pigo.hpp 487–545). -/
def TR.alloc (bs : List Blk) : TR Unit := fun o L => o = .ok () ∧ L = bs

/-- Run `p`, then `k` on its result; `left` says what remains of the blocks of `p` when `k` ended.
If `p` itself throws, `k` is not run. -/
def TR.using {α β : Type} (p : TR α) (left : α → M β → List Blk → List Blk) (k : α → TR β) : TR β := fun out L =>
  ∃ o L1, p o L1 ∧ match o with
    | .error f => out = .error f ∧ L = L1
    | .ok a => ∃ L2, k a out L2 ∧ L = left a out L1 ++ L2

/-- What `p` allocated stays when `k` succeeds, and is unwound when `k` throws. -/
def keep {β : Type} (out : M β) (L : List Blk) : List Blk :=
  match out with
  | .ok _ => L
  | .error _ => unwind L

instance : Monad TR where
  pure a := TR.run (pure a)
  bind p k := TR.using p (fun _ out L => keep out L) k

variable {W : Type}

/-- The storage of labels and of ordinals (`LabelStorage`, `OrdinalStorage`); that of weights is `Params.stor`. -/
structure Stor where
  l : Storage
  o : Storage
  deriving DecidableEq, Repr

/-- The storage is a plain pointer. -/
def Storage.raw (s : Storage) : Bool := s == .pointer

/-- `COO::allocate_()` (impl/coo.impl.hpp 131–136): `S` is the storage of labels, `ws` that of weights. -/
def cooBlocks (s ws : Storage) (wgt : Bool) (m : Nat) : List Blk :=
  [⟨.x, m, s.raw⟩, ⟨.y, m, s.raw⟩] ++ if wgt then [⟨.w, m, ws.raw⟩] else []

/-- `CSR::allocate_()` (impl/csr.impl.hpp 69–74) with `k` the value of `n_+1`. -/
def csrBlocks (st : Stor) (ws : Storage) (wgt : Bool) (m k : Nat) : List Blk :=
  [⟨.endpoints, m, st.l.raw⟩] ++ (if wgt then [⟨.weights, m, ws.raw⟩] else []) ++ [⟨.offsets, k, st.o.raw⟩]

/-- `COO::free()` (coo.hpp 305–312): nothing is released when `m_` is 0. -/
def freeCoo (c : Coo W) (L : List Blk) : List Blk := if c.m > 0 then [] else L

/-- A local COO: `coo.free()` at the end of the block, then its destructor; only the destructor when an exception passes. -/
def tempCoo {β : Type} (c : Coo W) (out : M β) (L : List Blk) : List Blk :=
  match out with
  | .ok _ => unwind (freeCoo c L)
  | .error _ => unwind L

/-- A local CSR: `csr.free()` (csr.hpp 246–250) releases every array; only the destructor runs when an exception passes. -/
def tempCsr {β : Type} (out : M β) (L : List Blk) : List Blk :=
  match out with
  | .ok _ => []
  | .error _ => unwind L

/-- The checks of `read_mm_` (impl/coo.impl.hpp 350–377): `free()` is called before each `throw`. -/
def checkCoo {β : Type} (c : Coo W) (out : M β) (L : List Blk) : List Blk :=
  match out with
  | .ok _ => L
  | .error _ => unwind (freeCoo c L)

/-- Pass 2 of `read_el_` (impl/coo.impl.hpp 446–481), after the allocation. -/
def readElPass2 (μ : Mapping) (lw ow : Nat) (cfg : Cfg) (wk : WKind W) (T : Nat) (regions : List Reader)
    (offs : List Nat) : R (Coo W) := fun out =>
  match mapE (elSet μ lw cfg wk offs) ((List.range T).zip regions) with
  | .error f => out = .error f
  | .ok sts => ∃ j sched, Interleave (elPlan ow T offs sts).threads sched ∧
      out = execPlan lw wk.wgt j (elPlan ow T offs sts) sched

/-- `COO::read_el_` (impl/coo.impl.hpp 384–481): regions, pass 1, allocation, pass 2. -/
def tReadEl (s ws : Storage) (μ : Mapping) (lw ow : Nat) (cfg : Cfg) (wk : WKind W) (T : Nat) (r : Reader) : TR (Coo W) := do
  let regions ← TR.run (R.lift (mapE (elRegion μ r T) (List.range T)))
  let counts ← TR.run (R.lift (mapE (elCount μ lw cfg wk) regions))
  let _ ← TR.alloc (cooBlocks s ws wk.wgt ((prefixSums 0 counts).getD (T - 1) 0 % 2 ^ ow))
  TR.run (readElPass2 μ lw ow cfg wk T regions (prefixSums 0 counts))

/-- `COO::read_mm_` (impl/coo.impl.hpp 326–381). -/
def tReadMm (s ws : Storage) (μ : Mapping) (lw ow : Nat) (cfg : Cfg) (wk : WKind W) (T : Nat) (r : Reader) : TR (Coo W) := do
  let h ← TR.run (R.lift (readMmHeader μ lw ow r))
  TR.using (tReadEl s ws μ lw ow cfg wk T h.2.2.2) checkCoo
    (fun c => TR.run (R.lift (mmCheck ow cfg h.1 h.2.1 h.2.2.1 c)))

/-- `COO::read_bin_` (impl/coo.impl.hpp 531–567): header, allocation (557), arrays. -/
def tReadBinCoo (s ws : Storage) (T lb ob : Nat) (wgt : Bool) (cw : Codec W) (μ : Mapping) (p : Nat) : TR (Coo W × Nat) := do
  let p ← TR.run (R.lift (rdStr μ cooMagic p))
  let (ls, p) ← TR.run (R.lift (rdLE μ 1 p))
  let (os, p) ← TR.run (R.lift (rdLE μ 1 p))
  let _ ← TR.run (R.lift (sizeCheck ls lb))
  let _ ← TR.run (R.lift (sizeCheck os ob))
  let (nrows, p) ← TR.run (R.lift (rdLE μ lb p))
  let (ncols, p) ← TR.run (R.lift (rdLE μ lb p))
  let (n, p) ← TR.run (R.lift (rdLE μ lb p))
  let (m, p) ← TR.run (R.lift (rdLE μ ob p))
  let _ ← TR.alloc (cooBlocks s ws wgt m)
  let (x, p) ← TR.run (readArr T μ lb decLE m (lb * m) p)
  let (y, p) ← TR.run (readArr T μ lb decLE m (lb * m) p)
  let (w, p) ← TR.run (readWeights T μ wgt cw m p)
  pure ({ x := x, y := y, w := w, n := n, m := m, nrows := nrows, ncols := ncols }, p)

/-- `CSR::read_bin_` (impl/csr.impl.hpp 495–528): header, allocation, arrays. -/
def tReadBinCsr (st : Stor) (ws : Storage) (T lb ob : Nat) (wgt : Bool) (cw : Codec W) (μ : Mapping) (p : Nat) :
    TR (Csr W × Nat) := do
  let p ← TR.run (R.lift (rdStr μ csrMagic p))
  let (ls, p) ← TR.run (R.lift (rdLE μ 1 p))
  let (os, p) ← TR.run (R.lift (rdLE μ 1 p))
  let _ ← TR.run (R.lift (sizeCheck ls lb))
  let _ ← TR.run (R.lift (sizeCheck os ob))
  let (n, p) ← TR.run (R.lift (rdLE μ lb p))
  let (m, p) ← TR.run (R.lift (rdLE μ ob p))
  let (nrows, p) ← TR.run (R.lift (rdLE μ lb p))
  let (ncols, p) ← TR.run (R.lift (rdLE μ lb p))
  let _ ← TR.alloc (csrBlocks st ws wgt m (succL lb n))
  let (offsets, p) ← TR.run (readArr T μ ob decLE (succL lb n) (ob * succL lb n) p)
  let (endpoints, p) ← TR.run (readArr T μ lb decLE m (lb * m) p)
  let (weights, p) ← TR.run (readWeights T μ wgt cw m p)
  pure ({ offsets := offsets, endpoints := endpoints, weights := weights, n := n, m := m, nrows := nrows, ncols := ncols }, p)

/-- `CSR::read_graph_` (impl/csr.impl.hpp 255–424): the allocation (371), then the checks (406–408), which throw
without `free()`.  Pass 2 is part of `graphPlan`; it does not throw. -/
def tReadGraph (st : Stor) (ws : Storage) (wgt : Bool) (lw ow T : Nat) (μ : Mapping) (r : Reader) : TR (Csr W) := do
  let p ← TR.run (R.lift (graphPlan μ lw ow T r))
  let _ ← TR.alloc (csrBlocks st ws wgt p.m (plusOne lw p.n))
  let jo ← TR.run (R.any (Nat → Nat))
  let je ← TR.run (R.any (Nat → Nat))
  let o ← TR.run (R.lift (graphInit p.base p.n p.m (alloc jo (plusOne lw p.n))))
  let q ← TR.run (R.par (sumStep storeAct storeAct) p.threads (o, alloc je p.m))
  TR.run (R.lift (graphFinish lw ow p q.1 q.2))

/-- `COO::convert_csr_` (impl/coo.impl.hpp 65–129): the two `throw`s (72–77) come before the allocation (79). -/
def tConvertCsr (s ws : Storage) (ow T : Nat) (cfg : Cfg) (wgt : Bool) (c : Csr W) : TR (Coo W) := do
  let nrows ← TR.run (R.any Nat)
  let ncols ← TR.run (R.any Nat)
  let m ← TR.run (R.lift (if cfg.sym && !cfg.ut then .ok (c.m * 2 % 2 ^ ow)
    else if !cfg.sym && cfg.ut then .error .nyi else .ok c.m))
  if cfg.sl then TR.run (R.lift (.error .nyi)) else do
    let _ ← TR.alloc (cooBlocks s ws wgt m)
    let j ← TR.run (R.any (Junk W))
    let its ← TR.run (R.choose (OmpDyn c.n T))
    let threads ← TR.run (R.lift (mapE (fun vs => mapE (csrRow ws cfg wgt c) vs) its))
    let mem ← TR.run (R.par stepAct (threads.map List.flatten) (allocCoo wgt j m))
    pure { x := mem.x, y := mem.y, w := mem.w, n := c.n, m := m, nrows := nrows, ncols := ncols }

/-- `CSR::convert_coo_` (impl/csr.impl.hpp 106–253): `allocate_` first (126). -/
def tConvertCoo (st : Stor) (ws : Storage) (lw ow T : Nat) (wgt : Bool) (coo : Coo W) : TR (Csr W) := do
  let _ ← TR.alloc (csrBlocks st ws wgt coo.m (plusOne lw coo.n))
  TR.run (convertCoo lw ow T wgt coo)

/-- The copy constructor of `COO` (coo.hpp 314–319). -/
def tCopyCoo (s ws : Storage) (T : Nat) (wgt : Bool) (c : Coo W) : TR (Coo W) := do
  let _ ← TR.alloc (cooBlocks s ws wgt c.m)
  TR.run (copyCoo T wgt c)

/-- The branches of `COO::read_` holding a COO (impl/coo.impl.hpp 38–45). -/
def tReadCooFmt (s : Storage) (P : Params W) (cfg : Cfg) (μ : Mapping) (p : Nat) (ft : FileType) : TR (Coo W × Nat) :=
  if ft = .matrixMarket then do
    let c ← tReadMm s P.stor μ (8 * P.lb) (8 * P.ob) cfg P.wk P.T (readerAt μ p)
    pure (c, p)
  else if ft = .edgeList then do
    let c ← tReadEl s P.stor μ (8 * P.lb) (8 * P.ob) cfg P.wk P.T (readerAt μ p)
    pure (c, p)
  else tReadBinCoo s P.stor P.T P.lb P.ob P.wk.wgt P.cw μ p

/-- `CSR::read_` (impl/csr.impl.hpp 45–67): the inner COO has raw label storage (`L*`, 55), and is released by
`coo.free()` (57). -/
def tReadCsr (st : Stor) (P : Params W) (μ : Mapping) (fn : List Byte) (p : Nat) (ft : FileType) : TR (Csr W × Nat) := do
  let ft ← TR.run (R.lift (usedType μ fn p ft))
  if ft = .matrixMarket ∨ ft = .edgeList ∨ ft = .cooBin then
    TR.using (tReadCooFmt .pointer P {} μ p ft) (fun cp => tempCoo cp.1) (fun cp => do
      let c ← tConvertCoo st P.stor (8 * P.lb) (8 * P.ob) P.T P.wk.wgt cp.1
      pure (c, cp.2))
  else if ft = .csrBin then tReadBinCsr st P.stor P.T P.lb P.ob P.wk.wgt P.cw μ p
  else if ft = .graph then
    if P.wk.wgt then TR.run (R.lift (.error .nyi)) else do
      let c ← tReadGraph st P.stor P.wk.wgt (8 * P.lb) (8 * P.ob) P.T μ (readerAt μ p)
      pure (c, p)
  else TR.run (R.lift (.error .nyi))

/-- `COO::read_` (impl/coo.impl.hpp 31–57): the inner CSR has the storage `S` for both labels and offsets (50), and is
released by `csr.free()` (52). -/
def tReadCoo (s : Storage) (P : Params W) (cfg : Cfg) (μ : Mapping) (fn : List Byte) (p : Nat) (ft : FileType) : TR (Coo W) := do
  let ft ← TR.run (R.lift (usedType μ fn p ft))
  if ft = .matrixMarket ∨ ft = .edgeList ∨ ft = .cooBin then do
    let cp ← tReadCooFmt s P cfg μ p ft
    pure cp.1
  else if ft = .csrBin ∨ ft = .graph then
    TR.using (tReadCsr ⟨s, s⟩ P μ fn p ft) (fun _ => tempCsr)
      (fun cp => tConvertCsr s P.stor (8 * P.ob) P.T cfg P.wk.wgt cp.1)
  else TR.run (R.lift (.error .nyi))

/-- `from_coo_` of `DiGraph` (graph.hpp 213–237) and of `Matrix` (matrix.hpp 131–157): the transposed copy is released by
`coo_copy.free()`. -/
def tTwoGraphs (s : Storage) (st : Stor) (ws : Storage) (lw ow T : Nat) (wgt : Bool) (coo : Coo W) : TR (Csr W × Csr W) := do
  let a ← TR.using (tCopyCoo s ws T wgt coo) tempCoo (fun copy => tConvertCoo st ws lw ow T wgt (transposeCoo copy))
  let b ← tConvertCoo st ws lw ow T wgt coo
  pure (a, b)

/-- `DiGraph::read_` (impl/graph.impl.hpp 22–61): the inner COO has the label storage of the graph and is released by
`coo.free()` (59). -/
def tReadDiGraph (st : Stor) (P : Params W) (μ : Mapping) (fn : List Byte) (ft : FileType) : TR (DiGraph W) := do
  let ft' ← TR.run (R.lift (usedType μ fn 0 ft))
  if ft' = .digraphBin then do
    let p ← TR.run (R.lift (rdStr μ digraphMagic 0))
    let a ← tReadCsr st P μ fn p .auto
    let b ← tReadCsr st P μ fn a.2 .auto
    pure ⟨a.1, b.1⟩
  else TR.using (tReadCoo st.l P {} μ fn 0 ft) tempCoo (fun coo => do
    let g ← tTwoGraphs st.l st P.stor (8 * P.lb) (8 * P.ob) P.T P.wk.wgt coo
    pure ⟨g.1, g.2⟩)

/-- `Matrix(std::string)` (matrix.hpp 189–197). -/
def tReadMatrix (st : Stor) (P : Params W) (μ : Mapping) (fn : List Byte) : TR (Matrix W) :=
  TR.using (tReadCoo st.l P {} μ fn 0 .auto) tempCoo (fun coo => do
    let g ← tTwoGraphs st.l st P.stor (8 * P.lb) (8 * P.ob) P.T P.wk.wgt coo
    pure ⟨g.2, g.1⟩)

/-- `Tensor::allocate_` (impl/tensor.impl.hpp 50–54) with `k` the value of `order_*m_`. -/
def tensorBlocks (s ws : Storage) (wgt : Bool) (k m : Nat) : List Blk :=
  [⟨.coords, k, s.raw⟩] ++ if wgt then [⟨.weights, m, ws.raw⟩] else []

/-- `Tensor::read_` (impl/tensor.impl.hpp 32–48), `read_el_` (103–198), `read_bin_` (249–284). -/
def tReadTensor (s : Storage) (P : Params W) (μ : Mapping) (fn : List Byte) (p : Nat) (ft : FileType) : TR (Tensor W) := do
  let ft ← TR.run (R.lift (usedType μ fn p ft))
  if ft = .edgeList then do
    let q ← TR.run (R.lift (tensorPlan μ (8 * P.lb) (8 * P.ob) P.wk P.T (readerAt μ p)))
    let _ ← TR.alloc (tensorBlocks s P.stor P.wk.wgt (inOrd (8 * P.ob) (q.order * q.m)) q.m)
    let jc ← TR.run (R.any (Nat → Nat))
    let jw ← TR.run (R.any (Nat → W))
    let mem ← TR.run (R.par stepT q.threads
      { c := alloc jc (inOrd (8 * P.ob) (q.order * q.m)), w := if P.wk.wgt then alloc jw q.m else [] })
    pure { c := mem.c, w := mem.w, order := q.order, m := q.m }
  else if ft = .tensorBin then do
    let p ← TR.run (R.lift (rdStr μ tensorMagic p))
    let (ls, p) ← TR.run (R.lift (rdLE μ 1 p))
    let (os, p) ← TR.run (R.lift (rdLE μ 1 p))
    let _ ← TR.run (R.lift (sizeCheck ls P.lb))
    let _ ← TR.run (R.lift (sizeCheck os P.ob))
    let p ← TR.run (R.lift (if P.wk.wgt then
      (rdLE μ 1 p >>= fun (ws, p) => sizeCheck ws P.cw.size >>= fun _ => .ok p) else .ok p))
    let (order, p) ← TR.run (R.lift (rdLE μ P.ob p))
    let (m, p) ← TR.run (R.lift (rdLE μ P.ob p))
    let _ ← TR.alloc (tensorBlocks s P.stor P.wk.wgt (inOrd (8 * P.ob) (order * m)) m)
    let (c, p) ← TR.run (readArr P.T μ P.lb decLE (inOrd (8 * P.ob) (order * m)) (P.lb * order * m) p)
    let (w, _) ← TR.run (readWeights P.T μ P.wk.wgt P.cw m p)
    pure { c := c, w := w, order := order, m := m }
  else TR.run (R.lift (.error .nyi))

end Pigo
