import Verif.Model.Life

/-!
# Storage life cycle of CSR, CSC, BaseGraph, Graph, DiGraph and Matrix objects with raw pointer storage

`CSR`: csr.hpp 129–137, 246–250, impl/csr.impl.hpp 69–74; `CSC` (csr.hpp 330–349), `BaseGraph`, `Graph` inherit everything from
`CSR`. `DiGraph`: graph.hpp 213–237, 290–293; `Matrix`: matrix.hpp 131–157, 199–202. None of them declares a copy constructor,
a copy assignment or a destructor: copies copy the pointers.
-/

namespace Pigo.LifeCsr

open Pigo.Life

/-- A CSR: the pointers `endpoints_`, `weights_` (if weighted), `offsets_` (`none`: indeterminate), `n_`, `m_`. -/
structure CObj where
  endpoints : Option Nat
  weights : Option Nat
  offsets : Option Nat
  n : Nat
  m : Nat
  deriving DecidableEq, Repr

structure CState where
  objs : Nat → Option CObj
  heap : Heap

def CState.init : CState := ⟨fun _ => none, Heap.empty⟩

def CState.set (st : CState) (i : Nat) (o : Option CObj) (h : Heap) : CState := ⟨fun k => if k = i then o else st.objs k, h⟩

/-- `allocate_()` (impl/csr.impl.hpp 69–74): `m_` endpoints, `m_` weights if weighted, `n_+1` offsets. -/
def callocate (wgt : Bool) (n m : Nat) (h : Heap) : CObj × Heap :=
  let (e, h) := h.malloc (fun _ => 0) m
  if wgt then
    let (w, h) := h.malloc (fun _ => 0) m
    let (o, h) := h.malloc (fun _ => 0) (n + 1)
    (⟨some e, some w, some o, n, m⟩, h)
  else
    let (o, h) := h.malloc (fun _ => 0) (n + 1)
    (⟨some e, none, some o, n, m⟩, h)

/-- `free()` (csr.hpp 246–250): the fields keep their values. -/
def cfree (wgt : Bool) (o : CObj) (h : Heap) : HM Heap := do
  let h ← h.free o.endpoints
  let h ← h.free o.offsets
  if wgt then h.free o.weights else .ok h

/-- The operations of a program on CSR objects. -/
inductive COp
  /-- `CSR(n, m, nrows, ncols)`, or a CSR built from a file or a COO -/
  | construct (i n m : Nat)
  /-- `CSR()`: pointers not initialised -/
  | default (i : Nat)
  /-- `CSR i(j)` or `i = j`: the implicit copy, field by field -/
  | copy (i j : Nat)
  /-- `i.free()` -/
  | free (i : Nat)
  /-- end of the lifetime of `i`; there is no destructor -/
  | destroy (i : Nat)

/-- One operation; operations on objects that do not exist and constructions of names in use are skipped. -/
def cstep (wgt : Bool) : COp → CState → HM CState
  | .construct i n m, st =>
    match st.objs i with
    | some _ => .ok st
    | none => let (o, h) := callocate wgt n m st.heap; .ok (st.set i (some o) h)
  | .default i, st =>
    match st.objs i with
    | some _ => .ok st
    | none => .ok (st.set i (some ⟨none, none, none, 0, 0⟩) st.heap)
  | .copy i j, st =>
    match st.objs j with
    | some o => .ok (st.set i (some o) st.heap)
    | none => .ok st
  | .free i, st =>
    match st.objs i with
    | some o => do
      let h ← cfree wgt o st.heap
      .ok (st.set i (some o) h)
    | none => .ok st
  | .destroy i, st => .ok (st.set i none st.heap)

/-- A history. -/
def crun (wgt : Bool) : List COp → CState → HM CState
  | [], st => .ok st
  | op :: ops, st => do
    let st ← cstep wgt op st
    crun wgt ops st

/-! ## DiGraph and Matrix: two CSRs built from a COO -/

/-- `from_coo_(coo)` of DiGraph (graph.hpp 213–237) and Matrix (matrix.hpp 131–157): copy the COO, transpose the copy, build
the first CSR from it, free the copy, build the second CSR from the COO. `n`, `n'`: the sizes of the two CSRs (both `coo.n()`
in the code). The contents of the CSRs are in `Model/Graph`; here is the storage only. -/
def buildPair (wgt : Bool) (junk : Nat → Nat → Nat) (coo : Obj) (n n' : Nat) (h : Heap) : HM (CObj × CObj × Heap) := do
  let (copy, h) ← copyObj (cooKind wgt) junk coo h
  let copy := { copy with arrs := swap01 copy.arrs }
  let (first, h) := callocate wgt n copy.m h
  let (_, h) ← freeObj (cooKind wgt) copy h
  let (second, h) := callocate wgt n' coo.m h
  .ok (first, second, h)

/-- `DiGraph::free` (graph.hpp 290–293), `Matrix::free` (matrix.hpp 199–202): both CSRs. -/
def freePair (wgt : Bool) (a b : CObj) (h : Heap) : HM Heap := do
  let h ← cfree wgt a h
  cfree wgt b h

/-- A DiGraph or Matrix built from a file with `m` entries (impl/graph.impl.hpp 52–60, matrix.hpp 186–196): read a COO,
build both CSRs, free the COO. -/
def pairFromFile (wgt : Bool) (junk : Nat → Nat → Nat) (v : Val) (n n' : Nat) (h : Heap) : HM (CObj × CObj × Heap) := do
  let (arrs, h) := allocAll junk ((cooKind wgt).lens v.dims v.m) h
  let h ← fillAll arrs v.arrs h
  let coo : Obj := ⟨arrs, v.dims, v.m⟩
  let (a, b, h) ← buildPair wgt junk coo n n' h
  let (_, h) ← freeObj (cooKind wgt) coo h
  .ok (a, b, h)

end Pigo.LifeCsr
