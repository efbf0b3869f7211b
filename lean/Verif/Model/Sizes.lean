import Verif.Model.Graph

/-!
# Sizes set by the user and sizes reported

The setters of COO (coo.hpp 271–278), the constructor `CSR(n, m, nrows, ncols)` (csr.hpp 127–130) and the size functions of `DiGraph` (graph.hpp 295–305)
and `Matrix` (matrix.hpp 204–208), which return the ordinal type, of `ow` bits.
-/

namespace Pigo

variable {W : Type}

/-- `COO::set_n` (coo.hpp 272) -/
def setN (c : Coo W) (n : Nat) : Coo W := { c with n := n }

/-- `COO::set_nrows` (coo.hpp 275) -/
def setNrows (c : Coo W) (n : Nat) : Coo W := { c with nrows := n }

/-- `COO::set_ncols` (coo.hpp 278) -/
def setNcols (c : Coo W) (n : Nat) : Coo W := { c with ncols := n }

/-- `CSR(n, m, nrows, ncols)` (csr.hpp 127–130) and `allocate_` (impl/csr.impl.hpp 69–74): arrays of arbitrary content. -/
def newCsr (lw : Nat) (wgt : Bool) (n m nrows ncols : Nat) : R (Csr W) := do
  let j ← R.any (CsrJunk W)
  pure { offsets := alloc j.offsets (plusOne lw n), endpoints := alloc j.endpoints m, weights := if wgt then alloc j.weights m else [],
         n := n, m := m, nrows := nrows, ncols := ncols }

/-- A number converted to the ordinal type of `ow` bits (unsigned). -/
def toOrd (ow v : Nat) : Nat := v % 2 ^ ow

/-- `DiGraph::m()` (graph.hpp 296) -/
def diM (ow : Nat) (g : DiGraph W) : Nat := toOrd ow g.outG.m

/-- `DiGraph::n()` (graph.hpp 299) -/
def diN (ow : Nat) (g : DiGraph W) : Nat := toOrd ow g.outG.n

/-- `DiGraph::nrows()` (graph.hpp 302) -/
def diNrows (ow : Nat) (g : DiGraph W) : Nat := toOrd ow g.outG.nrows

/-- `DiGraph::ncols()` (graph.hpp 305) -/
def diNcols (ow : Nat) (g : DiGraph W) : Nat := toOrd ow g.outG.ncols

/-- `Matrix::nrows()` (matrix.hpp 205) -/
def matNrows (ow : Nat) (a : Matrix W) : Nat := toOrd ow a.csr.nrows

/-- `Matrix::ncols()` (matrix.hpp 208) -/
def matNcols (ow : Nat) (a : Matrix W) : Nat := toOrd ow a.csr.ncols

end Pigo
