import Verif.Model.Binary

/-!
# The binary layouts

What a saved file contains, byte by byte.
-/

namespace Pigo.Spec

variable {W : Type}

/-- Byte `i` of the `k` byte little endian representation of `n`. -/
def le (k n : Nat) : List Byte := (List.range k).map (fun i => UInt8.ofNat (n / 256 ^ i % 256))

/-- The layout of a COO file: magic, type sizes, `nrows`, `ncols`, `n`, `m`, `x`, `y`, weights. -/
def cooFile (lb ob : Nat) (wgt : Bool) (cw : Codec W) (c : Coo W) : List Byte :=
  str "PIGO-COO-v1" ++ le 1 lb ++ le 1 ob ++ le lb c.nrows ++ le lb c.ncols ++ le lb c.n ++ le ob c.m ++
  c.x.flatMap (le lb) ++ c.y.flatMap (le lb) ++ (if wgt then c.w.flatMap cw.enc else [])

/-- The layout of a CSR file: magic, type sizes, `n`, `m`, `nrows`, `ncols`, offsets, endpoints, weights. -/
def csrFile (lb ob : Nat) (wgt : Bool) (cw : Codec W) (c : Csr W) : List Byte :=
  str "PIGO-CSR-v2" ++ le 1 lb ++ le 1 ob ++ le lb c.n ++ le ob c.m ++ le lb c.nrows ++ le lb c.ncols ++
  c.offsets.flatMap (le ob) ++ c.endpoints.flatMap (le lb) ++ (if wgt then c.weights.flatMap cw.enc else [])

/-- The layout of a DiGraph file: magic, the CSR file of the in-edges, the CSR file of the out-edges. -/
def digraphFile (lb ob : Nat) (wgt : Bool) (cw : Codec W) (g : DiGraph W) : List Byte :=
  str "PIGO-DiGraph-v1" ++ csrFile lb ob wgt cw g.inG ++ csrFile lb ob wgt cw g.outG

/-- The layout of a Tensor file: magic, type sizes (with the weight size if weighted), order, `m`, coordinates,
weights. -/
def tensorFile (lb ob : Nat) (wgt : Bool) (cw : Codec W) (t : Tensor W) : List Byte :=
  str "PIGO-Tensor-2" ++ le 1 lb ++ le 1 ob ++ (if wgt then le 1 cw.size else []) ++ le ob t.order ++ le ob t.m ++
  t.c.flatMap (le lb) ++ (if wgt then t.w.flatMap cw.enc else [])

/-- The values of a COO fit in its types, its arrays have `m` elements. -/
structure FitsCoo (lb ob : Nat) (wgt : Bool) (cw : Codec W) (c : Coo W) : Prop where
  x : c.x.length = c.m ∧ ∀ v ∈ c.x, v < 256 ^ lb
  y : c.y.length = c.m ∧ ∀ v ∈ c.y, v < 256 ^ lb
  w : c.w.length = (if wgt then c.m else 0) ∧ ∀ v ∈ c.w, cw.ok v
  n : c.n < 256 ^ lb
  nrows : c.nrows < 256 ^ lb
  ncols : c.ncols < 256 ^ lb
  m : c.m < 256 ^ ob

/-- The values of a CSR fit in its types, its arrays have `n + 1` and `m` elements. -/
structure FitsCsr (lb ob : Nat) (wgt : Bool) (cw : Codec W) (c : Csr W) : Prop where
  offsets : c.offsets.length = c.n + 1 ∧ ∀ v ∈ c.offsets, v < 256 ^ ob
  endpoints : c.endpoints.length = c.m ∧ ∀ v ∈ c.endpoints, v < 256 ^ lb
  weights : c.weights.length = (if wgt then c.m else 0) ∧ ∀ v ∈ c.weights, cw.ok v
  n : c.n < 256 ^ lb
  nrows : c.nrows < 256 ^ lb
  ncols : c.ncols < 256 ^ lb
  m : c.m < 256 ^ ob
  /-- `n + 1` can be computed: in `int` for label types of less than 4 bytes, in the label type for the others. -/
  room : lb < 4 ∨ c.n + 1 < 256 ^ lb

/-- The values of a Tensor fit in its types, its arrays have `order * m` and `m` elements. -/
structure FitsTensor (lb ob : Nat) (wgt : Bool) (cw : Codec W) (t : Tensor W) : Prop where
  c : t.c.length = t.order * t.m ∧ ∀ v ∈ t.c, v < 256 ^ lb
  w : t.w.length = (if wgt then t.m else 0) ∧ ∀ v ∈ t.w, cw.ok v
  order : t.order < 256 ^ ob
  m : t.m < 256 ^ ob
  all : (ob < 4 ∧ t.order * t.m < 2 ^ 31) ∨ t.order * t.m < 256 ^ ob

end Pigo.Spec
