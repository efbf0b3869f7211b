import Verif.Model.Graph
import Verif.Model.Write
import Verif.Model.CsrOps

/-!
# Programs over the API

A user's program: a sequence of operations on COO, CSR, DiGraph and Matrix objects, each operation run with its own number of
threads.  The operations are the functions of the other model files; here they are only put one after the other.
-/

namespace Pigo.Session

variable {W : Type}

/-- The classes (coo.hpp, csr.hpp, graph.hpp, matrix.hpp). -/
inductive Kind
  | coo | csr | graph | matrix
  deriving DecidableEq, Repr

/-- The objects of a class. -/
def Obj (W : Type) : Kind → Type
  | .coo => Coo W
  | .csr => Csr W
  | .graph => DiGraph W
  | .matrix => Matrix W

/-- The flags of the class `COO` (coo.hpp 36–47) that its constructor from a CSR implements (impl/coo.impl.hpp 65–82). -/
inductive Flags
  | none | symmetric | symmetricUpper
  deriving DecidableEq, Repr

/-- The template flags. -/
def Flags.cfg : Flags → Cfg
  | .none => {}
  | .symmetric => { sym := true }
  | .symmetricUpper => { sym := true, ut := true }

/-- The template parameters of a program (coo.hpp 36–47): sizes of the label and ordinal types, the weight type (how it is
read, stored in a file, written, compared) and the storage type. -/
structure Types (W : Type) where
  lb : Nat
  ob : Nat
  wk : WKind W
  cw : Codec W
  stor : Storage
  wt : WText W
  wlt : W → W → Prop

/-- The parameters of an operation run with `T` threads. -/
def Types.params (E : Types W) (T : Nat) : Params W :=
  { T := T, lb := E.lb, ob := E.ob, wk := E.wk, cw := E.cw, stor := E.stor }

/-- The operations of the API: copying a COO (coo.hpp 315–319), `transpose` (coo.hpp 337–340), `CSR(coo)` (impl/csr.impl.hpp
106–253), `DiGraph(coo)` (graph.hpp 209–237), `Matrix(coo)` (matrix.hpp 128–185), `COO(csr)` with flags (impl/coo.impl.hpp 59–129), `sort` and
`new_csr_without_dups` (impl/csr.impl.hpp 530–718), `out()` and `in()` (graph.hpp 307–327), `csr()` and `csc()` (matrix.hpp 210–230), `save` followed by the
construction of an object from the file `fn` (impl/coo.impl.hpp 483–529, impl/csr.impl.hpp 444–493, impl/graph.impl.hpp 63–81,
22–60), `write` followed by the construction of an object from the file (impl/coo.impl.hpp 569–657).  `pad` is the number of
mapped bytes after the end of the file. -/
inductive Op : Kind → Kind → Type
  | copy : Op .coo .coo
  | transpose : Op .coo .coo
  | toCsr : Op .coo .csr
  | toGraph : Op .coo .graph
  | toMatrix : Op .coo .matrix
  | toCoo (f : Flags) : Op .csr .coo
  | sort : Op .csr .csr
  | withoutDups : Op .csr .csr
  | outGraph : Op .graph .csr
  | inGraph : Op .graph .csr
  | csr : Op .matrix .csr
  | csc : Op .matrix .csr
  | saveCoo (k : Kind) (fn : List Byte) (pad : Nat) : Op .coo k
  | saveCsr (k : Kind) (fn : List Byte) (pad : Nat) : Op .csr k
  | saveGraph (fn : List Byte) (pad : Nat) : Op .graph .graph
  | write (k : Kind) (fn : List Byte) (pad : Nat) : Op .coo k

/-- The constructor from a file name of each class (coo.hpp 206, csr.hpp 166, graph.hpp 273, matrix.hpp 187–197). -/
def load (P : Params W) : (k : Kind) → Mapping → List Byte → R (Obj W k)
  | .coo, μ, fn => readCoo P {} μ fn 0 .auto
  | .csr, μ, fn => do
    let (c, _) ← readCsr P μ fn 0 .auto
    pure c
  | .graph, μ, fn => readDiGraph P μ fn .auto
  | .matrix, μ, fn => readMatrix P μ fn

/-- One operation with `T` threads (the functions cited at `Op`). -/
def Op.run (E : Types W) (T : Nat) : {k k' : Kind} → Op k k' → Obj W k → R (Obj W k')
  | _, _, .copy, c => copyCoo T E.wk.wgt c
  | _, _, .transpose, c => pure (transposeCoo c)
  | _, _, .toCsr, c => convertCoo (8 * E.lb) (8 * E.ob) T E.wk.wgt c
  | _, _, .toGraph, c => fromCoo (8 * E.lb) (8 * E.ob) T E.wk.wgt c
  | _, _, .toMatrix, c => matrixFromCoo (8 * E.lb) (8 * E.ob) T E.wk.wgt c
  | _, _, .toCoo f, c => convertCsr (8 * E.ob) T E.stor f.cfg E.wk.wgt c
  | _, _, .sort, c => sortCsr T E.wk.wgt E.wlt c
  | _, _, .withoutDups, c => do
    let r ← Pigo.withoutDups (8 * E.lb) T E.wk.wgt E.wlt c
    pure r.2
  | _, _, .outGraph, g => pure (DiGraph.outG g)
  | _, _, .inGraph, g => pure (DiGraph.inG g)
  | _, _, .csr, a => pure (Matrix.csr a)
  | _, _, .csc, a => pure (Matrix.csc a)
  | _, _, .saveCoo k fn pad, c => do
    let bs ← Pigo.saveCoo T E.lb E.ob E.wk.wgt E.cw c
    load (E.params T) k ⟨bs, pad⟩ fn
  | _, _, .saveCsr k fn pad, c => do
    let bs ← Pigo.saveCsr T E.lb E.ob E.wk.wgt E.cw c
    load (E.params T) k ⟨bs, pad⟩ fn
  | _, _, .saveGraph fn pad, g => do
    let bs ← saveDiGraph T E.lb E.ob E.wk.wgt E.cw g
    load (E.params T) .graph ⟨bs, pad⟩ fn
  | _, _, .write k fn pad, c => do
    let bs ← writeCoo T E.wt c
    load (E.params T) k ⟨bs, pad⟩ fn

/-- A program: a sequence of operations, each on the result of the one before, each with its number of threads. -/
inductive Prog : Kind → Kind → Type
  | done {k : Kind} : Prog k k
  | step {k k' k'' : Kind} (T : Nat) (op : Op k k') (p : Prog k' k'') : Prog k k''

/-- Running a program. -/
def Prog.run (E : Types W) : {k k' : Kind} → Prog k k' → Obj W k → R (Obj W k')
  | _, _, .done, o => pure o
  | _, _, .step T op p, o => do
    let o' ← op.run E T o
    p.run E o'

end Pigo.Session
