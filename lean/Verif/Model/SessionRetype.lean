import Verif.Model.Session
import Verif.Model.Retype

/-!
# Programs that change the template types

A program over the API in several parts.  Within a part all objects have the same label, ordinal and weight types; between two
parts an object is built from one of the types before.
-/

namespace Pigo.Session

/-- The operations that may change the types: the templated constructors `CSR(COO<…>&)` (impl/csr.impl.hpp 99–253),
`DiGraph(COO<…>&)` (graph.hpp 209–237), `Matrix(COO<…>&)` (matrix.hpp 128–156), `COO(CSR<…>&)` (impl/coo.impl.hpp 59–129), and
`new_csr_without_dups<…>()` (impl/csr.impl.hpp 571–718). -/
inductive Conv : Kind → Kind → Type
  | toCsr : Conv .coo .csr
  | toGraph : Conv .coo .graph
  | toMatrix : Conv .coo .matrix
  | toCoo (f : Flags) : Conv .csr .coo
  | withoutDups : Conv .csr .csr

/-- One such operation with `T` threads, from the types `E` to the types `E'`; `conv` converts the weights.  (The functions cited at
`Conv`, as in Model/Retype.) -/
def Conv.run {W V : Type} (E : Types W) (E' : Types V) (conv : W → V) (T : Nat) : {k k' : Kind} → Conv k k' → Obj W k → R (Obj V k')
  | _, _, .toCsr, c => convertCooTo (8 * E'.lb) (8 * E'.ob) T E'.wk.wgt conv c
  | _, _, .toGraph, c => fromCooTo (8 * E'.lb) (8 * E'.ob) T E'.wk.wgt conv c
  | _, _, .toMatrix, c => matrixFromCooTo (8 * E'.lb) (8 * E'.ob) T E'.wk.wgt conv c
  | _, _, .toCoo f, c => convertCsrTo (8 * E'.lb) (8 * E'.ob) T E.stor f.cfg E'.wk.wgt conv c
  | _, _, .withoutDups, c => do
    let r ← withoutDupsTo (8 * E.lb) (8 * E'.lb) (8 * E'.ob) T E.wk.wgt E'.wk.wgt E.wlt conv c
    pure r.2

/-- A program in parts: `last` is a program with one set of types, `change` runs `p`, then the operation `op` that changes the types
from `E` to `E1` (weights are converted by `conv`), then the rest. -/
inductive Long : {W V : Type} → Types W → Types V → Kind → Kind → Type 1
  | last {W : Type} {E : Types W} {k k' : Kind} (p : Prog k k') : Long E E k k'
  | change {W U V : Type} {E : Types W} {E1 : Types U} {E' : Types V} {k k1 k2 k' : Kind} (p : Prog k k1) (T : Nat) (op : Conv k1 k2)
      (conv : W → U) (rest : Long E1 E' k2 k') : Long E E' k k'

/-- Running a program in parts. -/
def Long.run : {W V : Type} → {E : Types W} → {E' : Types V} → {k k' : Kind} → Long E E' k k' → Obj W k → R (Obj V k')
  | _, _, E, _, _, _, .last p, o => p.run E o
  | _, _, E, _, _, _, .change (E1 := E1) p T op conv rest, o => do
    let o1 ← p.run E o
    let o2 ← op.run E E1 conv T o1
    rest.run o2

end Pigo.Session
