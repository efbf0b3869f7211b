import Verif.Model.Dispatch

/-!
# Copies, graphs and matrices

`COO::copy_`/copy constructor/`transpose` (coo.hpp 174–198, 315–340), `Tensor::copy_` (tensor.hpp 107–126, 203–206),
`BaseGraph`, `EdgeIt` (graph.hpp 21–143, impl/graph.impl.hpp 83–94), `DiGraph` (graph.hpp 209–237,
impl/graph.impl.hpp 22–61) and `Matrix` (matrix.hpp 128–197).
-/

namespace Pigo

variable {W : Type}

/-- `set_value_(x_, pos, get_value_(other.x_, pos))` (coo.hpp 178–187, tensor.hpp 110–114): load from the source, which no
thread writes, and store. -/
def copyAct {α : Type} (src : List α) (i : Nat) (dst : List α) : M (List α) := do
  let v ← load src i
  store dst i v

/-- One copy loop `#pragma omp parallel for` over `k` positions into a fresh array of length `k`
(the weight loop of coo.hpp 190–197 and tensor.hpp 109–115, 117–124). -/
def copyLoop {α : Type} (T k : Nat) (src dst : List α) : R (List α) := do
  let its ← R.choose (OmpFor k T)
  R.par (copyAct src) its dst

/-- The weights part: `if (if_true_<weighted>())` allocate and copy (coo.hpp 189–197, tensor.hpp 116–124); without weights
`w_` is not allocated. -/
def copyWeights (T : Nat) (wgt : Bool) (m : Nat) (w : List W) (junk : Nat → W) : R (List W) :=
  if wgt then copyLoop T m w (alloc junk m) else pure []

/-- The steps of one iteration of the first loop of `COO::copy_` (coo.hpp 177–188): copy `x`, then copy `y`. -/
def copyIter (e : Nat) : List (Nat ⊕ Nat) := [.inl e, .inr e]

/-- The copy constructor `COO(const COO&)` (coo.hpp 315–319): the fields, `allocate_` (impl/coo.impl.hpp 131–136), `copy_`
(coo.hpp 174–198), with `T` threads. -/
def copyCoo (T : Nat) (wgt : Bool) (c : Coo W) : R (Coo W) := do
  let j ← R.any (Junk W)
  let its ← R.choose (OmpFor c.m T)
  let (x, y) ← R.par (sumStep (copyAct c.x) (copyAct c.y)) (its.map (fun es => es.flatMap copyIter))
    (alloc j.x c.m, alloc j.y c.m)
  let w ← copyWeights T wgt c.m c.w j.w
  pure { x := x, y := y, w := w, n := c.n, m := c.m, nrows := c.nrows, ncols := c.ncols }

/-- The number of positions of the coordinate array: `order_*m_` in the ordinal type (tensor.hpp 109,
impl/tensor.impl.hpp `allocate_`). -/
def tensorLen (ow : Nat) (t : Tensor W) : Nat := inOrd ow (t.order * t.m)

/-- The copy constructor `Tensor(const Tensor&)` (tensor.hpp 203–206, `copy_` 107–126).  The counter `pos` of the first loop is
an ordinal: if the number of positions, not wrapped for ordinals narrower than `int`, is more than it can hold, the loop does
not end (`.fuel`). -/
def copyTensor (ow T : Nat) (wgt : Bool) (t : Tensor W) : R (Tensor W) := do
  R.lift (if 2 ^ ow ≤ tensorLen ow t then .error .fuel else .ok ())
  let jc ← R.any (Nat → Nat)
  let jw ← R.any (Nat → W)
  let c ← copyLoop T (tensorLen ow t) t.c (alloc jc (tensorLen ow t))
  let w ← copyWeights T wgt t.m t.w jw
  pure { c := c, w := w, order := t.order, m := t.m }

/-- `COO::transpose` (coo.hpp 337–340): swaps the arrays, nothing else. -/
def transposeCoo (c : Coo W) : Coo W := { c with x := c.y, y := c.x }

/-- `BaseGraph::neighbor_start` (impl/graph.impl.hpp 86–89) -/
def neighborStart (g : Csr W) (v : Nat) : M Nat := load g.offsets v

/-- `BaseGraph::neighbor_end` (impl/graph.impl.hpp 91–94): `v+1` in the label type, which has `lw` bits. -/
def neighborEnd (lw : Nat) (g : Csr W) (v : Nat) : M Nat := load g.offsets (plusOne lw v)

/-- `BaseGraph::degree` (graph.hpp 126–128): unsigned subtraction in the ordinal type of `ow` bits. -/
def degree (lw ow : Nat) (g : Csr W) (v : Nat) : M Nat := do
  let e ← neighborEnd lw g v
  let s ← neighborStart g v
  .ok ((2 ^ ow + e - s) % 2 ^ ow)

/-- A range-for loop over an `EdgeIt` (graph.hpp 21–71): `while (pos != end) { … *it …; ++pos; }` with `pos` of type
`O`; collects what `*it` yields (`EdgeItT::operator*`, impl/graph.impl.hpp 83–84). `fuel` bounds the iterations; the loop
takes fewer than `2^ow`, as `pos` is an `O` and passes every value. -/
def iterate (ow : Nat) (ep : List Nat) : Nat → Nat → Nat → M (List Nat)
  | 0, _, _ => .error .fuel
  | fuel + 1, pos, stop =>
    if pos = stop then .ok [] else do
      let v ← load ep pos
      let vs ← iterate ow ep fuel ((pos + 1) % 2 ^ ow) stop
      .ok (v :: vs)

/-- `for (auto u : g.neighbors(v))` (graph.hpp 135–138): the sequence of `u`. -/
def neighbors (lw ow : Nat) (g : Csr W) (v : Nat) : M (List Nat) := do
  let s ← neighborStart g v
  let e ← neighborEnd lw g v
  iterate ow g.endpoints (2 ^ ow) s e

/-- `DiGraph::from_coo_` (graph.hpp 209–237): the in-graph from a transposed copy, the out-graph from the COO. -/
def fromCoo (lw ow T : Nat) (wgt : Bool) (coo : Coo W) : R (DiGraph W) := do
  let copy ← copyCoo T wgt coo
  let inG ← convertCoo lw ow T wgt (transposeCoo copy)
  let outG ← convertCoo lw ow T wgt coo
  pure { inG := inG, outG := outG }

/-- `DiGraph::read_` (impl/graph.impl.hpp 22–61) at the start of the file. -/
def readDiGraph (P : Params W) (μ : Mapping) (fn : List Byte) (ft : FileType) : R (DiGraph W) := do
  let ft' ← R.lift (usedType μ fn 0 ft)
  if ft' = .digraphBin then readDiGraphBin P μ fn 0
  else do
    let coo ← readCoo P {} μ fn 0 ft
    fromCoo (8 * P.lb) (8 * P.ob) P.T P.wk.wgt coo

/-- A `Matrix` (matrix.hpp 103–127): `csr_` and `csc_`; a `CSC` is a CSR of the transpose (csr.hpp 330–349). -/
structure Matrix (W : Type) where
  csr : Csr W
  csc : Csr W
  deriving DecidableEq, Repr

/-- `Matrix::from_coo_` (matrix.hpp 128–156) -/
def matrixFromCoo (lw ow T : Nat) (wgt : Bool) (coo : Coo W) : R (Matrix W) := do
  let copy ← copyCoo T wgt coo
  let csc ← convertCoo lw ow T wgt (transposeCoo copy)
  let csr ← convertCoo lw ow T wgt coo
  pure { csr := csr, csc := csc }

/-- `Matrix(std::string)` (matrix.hpp 189–197): `COO {filename}` guesses the type. -/
def readMatrix (P : Params W) (μ : Mapping) (fn : List Byte) : R (Matrix W) := do
  let coo ← readCoo P {} μ fn 0 .auto
  matrixFromCoo (8 * P.lb) (8 * P.ob) P.T P.wk.wgt coo

/-- `Matrix::nrows()` (matrix.hpp 204), before the conversion to `Ordinal` (for which see `Model/Sizes`) -/
def Matrix.nrows (a : Matrix W) : Nat := a.csr.nrows

/-- `Matrix::ncols()` (matrix.hpp 207), before the conversion to `Ordinal` (for which see `Model/Sizes`) -/
def Matrix.ncols (a : Matrix W) : Nat := a.csr.ncols

end Pigo
