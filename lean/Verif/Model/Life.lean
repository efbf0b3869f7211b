import Verif.Model.Coo

/-!
# Storage life cycle of COO, Tensor and CSR objects with raw pointer storage

`detail::allocate_mem_`, `detail::free_mem_` (pigo.hpp 498–586), `COO`: coo.hpp 174–198, 230–236, 305–340,
impl/coo.impl.hpp 131–136; `Tensor`: tensor.hpp 107–126, 151–157, 193–219, impl/tensor.impl.hpp 50–54; `CSR`: csr.hpp
129–137, 246–250, impl/csr.impl.hpp 69–74 and its implicit copy operations.

Storage is a raw pointer (the storages `std::shared_ptr` and `std::vector` free themselves, see `Model/Alias`; for them `free_mem_` does
nothing).  Array elements are numbers.  `malloc` does not fail (and `malloc(0)` returns a block of size 0).
-/

namespace Pigo.Life

/-- What can go wrong with memory. -/
inductive HFault
  /-- `free` of a pointer that is not an allocated block -/
  | badFree
  /-- a load or store through a pointer that is not an allocated block, or outside of the block -/
  | badAccess
  deriving DecidableEq, Repr

abbrev HM := Except HFault

/-- The heap: blocks by address; a block that was never allocated or is freed is `none`. -/
structure Heap where
  next : Nat
  mem : Nat → Option (List Nat)

/-- The empty heap. -/
def Heap.empty : Heap := ⟨0, fun _ => none⟩

/-- `malloc` of `len` elements with arbitrary contents (pigo.hpp 500–506). -/
def Heap.malloc (h : Heap) (junk : Nat → Nat) (len : Nat) : Nat × Heap :=
  (h.next, ⟨h.next + 1, fun a => if a = h.next then some (alloc junk len) else h.mem a⟩)

/-- `free(it)` (pigo.hpp 554–558); the pointer variable keeps its value. An indeterminate pointer is `none`. -/
def Heap.free (h : Heap) : Option Nat → HM Heap
  | none => .error .badFree
  | some p => match h.mem p with
    | none => .error .badFree
    | some _ => .ok { h with mem := fun a => if a = p then none else h.mem a }

/-- The block a pointer points to. -/
def Heap.block (h : Heap) : Option Nat → HM (List Nat)
  | none => .error .badAccess
  | some p => match h.mem p with
    | none => .error .badAccess
    | some b => .ok b

/-- `it[k] = v` -/
def Heap.store (h : Heap) (p : Option Nat) (k v : Nat) : HM Heap := do
  let b ← h.block p
  if k < b.length then .ok { h with mem := fun a => if some a = p then some (b.set k v) else h.mem a } else .error .badAccess

/-- The kinds of objects with the free/copy/assign of COO and Tensor. -/
structure Kind where
  /-- the sizes of the arrays, from the dimensions and `m_` -/
  lens : List Nat → Nat → List Nat
  /-- the dimensions after `free()` -/
  freed : List Nat → List Nat
  /-- `transpose` exists -/
  swaps : Bool

/-- COO: `x_`, `y_` and, if weighted, `w_`, of `m_` elements (impl/coo.impl.hpp 131–136); dimensions `n_`, `nrows_`, `ncols_`. -/
def cooKind (wgt : Bool) : Kind := ⟨fun _ m => if wgt then [m, m, m] else [m, m], id, true⟩

/-- Tensor: `c_` of `order_*m_` elements and, if weighted, `w_` of `m_` (impl/tensor.impl.hpp 50–54); dimension `order_`
(`free()` sets it to 0, tensor.hpp 197). -/
def tensorKind (wgt : Bool) : Kind := ⟨fun d m => if wgt then [d.headD 0 * m, m] else [d.headD 0 * m], fun _ => [0], false⟩

/-- An object: the pointers to its arrays (`none`: indeterminate), the dimensions and `m_`. -/
structure Obj where
  arrs : List (Option Nat)
  dims : List Nat
  m : Nat
  deriving DecidableEq, Repr

/-- All objects of a program, by name, and the heap. -/
structure State where
  objs : Nat → Option Obj
  heap : Heap

def State.init : State := ⟨fun _ => none, Heap.empty⟩

def State.set (st : State) (i : Nat) (o : Option Obj) (h : Heap) : State := ⟨fun k => if k = i then o else st.objs k, h⟩

/-- `allocate_()`: one `malloc` per array (impl/coo.impl.hpp 131–136, impl/tensor.impl.hpp 50–54). -/
def allocAll (junk : Nat → Nat → Nat) : List Nat → Heap → List (Option Nat) × Heap
  | [], h => ([], h)
  | len :: lens, h =>
    let (p, h) := h.malloc (junk lens.length) len
    let (ps, h) := allocAll junk lens h
    (some p :: ps, h)

/-- The loops of `copy_` for one array of `len` elements (coo.hpp 174–198, tensor.hpp 107–126): no access if `len = 0`.
(The iterations of one loop write different elements; that any schedule copies the array is in `Props/Graph`, C70.) -/
def copyArr (h : Heap) (dst src : Option Nat) (len : Nat) : HM Heap := do
  if len = 0 then .ok h
  else do
    let s ← h.block src
    let d ← h.block dst
    if len ≤ s.length ∧ len ≤ d.length then
      .ok { h with mem := fun a => if some a = dst then some (s.take len ++ d.drop len) else h.mem a }
    else .error .badAccess

/-- `copy_(other)`: all arrays. -/
def copyAll : List (Option Nat) → List (Option Nat) → List Nat → Heap → HM Heap
  | dst :: ds, src :: ss, len :: lens, h => do
    let h ← copyArr h dst src len
    copyAll ds ss lens h
  | _, _, _, h => .ok h

/-- `free_mem_` of all arrays. -/
def freeAll : List (Option Nat) → Heap → HM Heap
  | [], h => .ok h
  | p :: ps, h => do
    let h ← h.free p
    freeAll ps h

/-- `free()` of COO (coo.hpp 305–312) and Tensor (tensor.hpp 193–200). -/
def freeObj (K : Kind) (o : Obj) (h : Heap) : HM (Obj × Heap) :=
  if o.m > 0 then do
    let h ← freeAll o.arrs h
    .ok ({ o with dims := K.freed o.dims, m := 0 }, h)
  else .ok (o, h)

/-- `allocate_(); copy_(other);` with the fields of `other` (coo.hpp 315–319, 326–331, tensor.hpp 203–206, 212–216). -/
def copyObj (K : Kind) (junk : Nat → Nat → Nat) (other : Obj) (h : Heap) : HM (Obj × Heap) := do
  let (arrs, h) := allocAll junk (K.lens other.dims other.m) h
  let h ← copyAll arrs other.arrs (K.lens other.dims other.m) h
  .ok ({ arrs := arrs, dims := other.dims, m := other.m }, h)

/-- The contents of an object as plain data. -/
structure Val where
  arrs : List (List Nat)
  dims : List Nat
  m : Nat
  deriving DecidableEq, Repr

/-- The operations of a program on its objects. -/
inductive Op
  /-- an object constructed with contents `v`: from a file, or `COO(n, nrows, ncols, m)` (coo.hpp 233–236) filled by the
  caller; `allocate_` and stores to every element -/
  | construct (i : Nat) (v : Val)
  /-- `COO()` (coo.hpp 230), `Tensor()` (tensor.hpp 151): pointers not initialised -/
  | default (i : Nat) (dims : List Nat)
  /-- `COO i(j)` -/
  | copy (i j : Nat) (junk : Nat → Nat → Nat)
  /-- `i = j` -/
  | assign (i j : Nat) (junk : Nat → Nat → Nat)
  /-- `i.transpose()` (coo.hpp 337–340) -/
  | transpose (i : Nat)
  /-- `i.free()` -/
  | free (i : Nat)
  /-- the caller stores `v` at element `k` of array `a`, e.g. `i.x()[k] = v` -/
  | write (i a k v : Nat)
  /-- end of the lifetime of `i`; there is no destructor -/
  | destroy (i : Nat)

/-- Swap of the first two arrays (`std::swap(x_, y_)`, coo.hpp 338). -/
def swap01 {α : Type} : List α → List α
  | a :: b :: l => b :: a :: l
  | l => l

/-- Store given contents in fresh arrays, element by element in effect. -/
def fillAll : List (Option Nat) → List (List Nat) → Heap → HM Heap
  | p :: ps, v :: vs, h => do
    let b ← h.block p
    if b.length = v.length then fillAll ps vs { h with mem := fun a => if some a = p then some v else h.mem a }
    else .error .badAccess
  | _, _, h => .ok h

/-- One operation.  Operations on objects that do not exist, constructions of names in use and stores outside of the
object's arrays are not part of any program: they are skipped. -/
def step (K : Kind) : Op → State → HM State
  | .construct i v, st =>
    if (st.objs i).isSome ∨ v.arrs.map List.length ≠ K.lens v.dims v.m then .ok st
    else do
      let (arrs, h) := allocAll (fun _ _ => 0) (K.lens v.dims v.m) st.heap
      let h ← fillAll arrs v.arrs h
      .ok (st.set i (some { arrs := arrs, dims := v.dims, m := v.m }) h)
  | .default i dims, st =>
    if (st.objs i).isSome then .ok st
    else .ok (st.set i (some { arrs := (K.lens dims 0).map (fun _ => none), dims := dims, m := 0 }) st.heap)
  | .copy i j junk, st =>
    match st.objs i, st.objs j with
    | none, some other => do
      let (o, h) ← copyObj K junk other st.heap
      .ok (st.set i (some o) h)
    | _, _ => .ok st
  | .assign i j junk, st =>
    match st.objs i, st.objs j with
    | some o, some other =>
      if i = j then .ok st      -- `if (&other != this)`
      else do
        let (_, h) ← freeObj K o st.heap
        let (o', h) ← copyObj K junk other h
        .ok (st.set i (some o') h)
    | _, _ => .ok st
  | .transpose i, st =>
    match st.objs i with
    | some o => if K.swaps then .ok (st.set i (some { o with arrs := swap01 o.arrs }) st.heap) else .ok st
    | none => .ok st
  | .free i, st =>
    match st.objs i with
    | some o => do
      let (o', h) ← freeObj K o st.heap
      .ok (st.set i (some o') h)
    | none => .ok st
  | .write i a k v, st =>
    match st.objs i with
    | some o =>
      if k < (K.lens o.dims o.m).getD a 0 then do
        let h ← st.heap.store (o.arrs.getD a none) k v
        .ok (st.set i (some o) h)
      else .ok st
    | none => .ok st
  | .destroy i, st => .ok (st.set i none st.heap)

/-- A history. -/
def run (K : Kind) : List Op → State → HM State
  | [], st => .ok st
  | op :: ops, st => do
    let st ← step K op st
    run K ops st

end Pigo.Life
