import Verif.Spec.Csr
import Verif.Spec.Edges

/-!
# Specification: a CSR of a list of entries
-/

namespace Pigo.Spec

variable {W : Type}

/-- The entries with rows and columns exchanged. -/
def transposed (es : List (Nat × Nat × W)) : List (Nat × Nat × W) := es.map (fun e => (e.2.1, e.1, e.2.2))

/-- `c` is a valid CSR with `n` rows holding exactly the entries `es`: row `v` has the columns (with their weights) of the
entries of row `v`, in some order. -/
structure RowsOf (c : Csr W) (wgt : Bool) (n : Nat) (es : List (Nat × Nat × W)) : Prop where
  valid : ValidCsr c wgt
  size : c.n = n
  m : c.m = es.length
  rows : ∀ v, v < n → (row c v).Perm ((es.filter (fun e => e.1 == v)).map (fun e => e.2.1))
  weights : wgt = true → ∀ v, v < n →
    ((row c v).zip (rowWeights c v)).Perm ((es.filter (fun e => e.1 == v)).map (fun e => e.2))

/-- The COO holds the entries `es` in this order and has the given dimensions. -/
structure CooIs (c : Coo W) (wgt : Bool) (es : List (Nat × Nat × W)) (n nrows ncols : Nat) : Prop where
  holds : Holds c wgt es
  n : c.n = n
  nrows : c.nrows = nrows
  ncols : c.ncols = ncols

/-- The largest row plus one. -/
def rowDim (es : List (Nat × Nat × W)) : Nat := maxOf (es.map (fun e => e.1)) + 1

/-- The largest column plus one. -/
def colDim (es : List (Nat × Nat × W)) : Nat := maxOf (es.map (fun e => e.2.1)) + 1


/-- The entry of a CSR as the flags of a COO store it. -/
def flagged (cfg : Cfg) (p : Nat × Nat) : List (Nat × Nat) :=
  if cfg.sym then (if cfg.ut then [(min p.1 p.2, max p.1 p.2)] else [(p.2, p.1), (p.1, p.2)]) else [p]


end Pigo.Spec
