import Verif.Model.Life

/-!
# Copies of objects and the three storage types

Histories of programs over COO, Tensor, CSR (also CSC, BaseGraph, Graph), DiGraph and Matrix objects whose arrays are raw
pointers, `std::shared_ptr`s or `std::vector`s: `detail::allocate_mem_`, `detail::free_mem_` (pigo.hpp 485–586), the copy
operations of COO (coo.hpp 174–198, 305–340) and Tensor (tensor.hpp 107–126, 193–219) and the implicit ones, field by field, of
CSR (csr.hpp 55–137, 246–250), `DiGraph` (graph.hpp 290–293) and `Matrix` (matrix.hpp 199–202), and the variables of the caller
that hold a copy of an array (`auto e = csr.endpoints()`).

A `shared_ptr` counts its owners; a `vector` is the only owner of its block.  Elements are numbers; allocation does not fail; the
implicit move operations of CSR (used when a CSR is returned by value) leave one owner and are not distinguished from building the
object in place.  Assigning to an array of an object (`csr.endpoints() = …`) is not modelled.
-/

namespace Pigo.Alias

open Pigo.Life (HFault HM Val)

/-- The storage types of the arrays. -/
inductive Stor
  | raw | shared | vec
  deriving DecidableEq, Repr

/-- A block: its elements and the number of its owners. -/
abbrev Block := List Nat × Nat

/-- The heap: the allocated blocks by address. -/
structure Heap where
  next : Nat
  mem : Nat → Option Block

def Heap.empty : Heap := ⟨0, fun _ => none⟩

def Heap.set (h : Heap) (p : Nat) (b : Option Block) : Heap := ⟨h.next, fun a => if a = p then b else h.mem a⟩

/-- An array of an object: the block it refers to, if any (an empty vector, a null `shared_ptr`, an indeterminate pointer). -/
abbrev Slot := Option Nat

/-- A new block with one owner. -/
def fresh (b : List Nat) (h : Heap) : Slot × Heap := (some h.next, ⟨h.next + 1, fun a => if a = h.next then some (b, 1) else h.mem a⟩)

/-- The block a slot refers to. -/
def Heap.block (h : Heap) : Slot → HM (Nat × Block)
  | none => .error .badAccess
  | some p => match h.mem p with
    | none => .error .badAccess
    | some b => .ok (p, b)

/-- Copy construction of an array variable: a raw pointer is copied, a `shared_ptr` gets another owner, a `vector` is copied. -/
def dup : Stor → Slot → Heap → HM (Slot × Heap)
  | .raw, s, h => .ok (s, h)
  | _, none, h => .ok (none, h)
  | .shared, s, h => do
    let (p, b, c) ← h.block s
    .ok (s, h.set p (some (b, c + 1)))
  | .vec, s, h => do
    let (_, b, _) ← h.block s
    .ok (fresh b h)

/-- End of the lifetime of an array variable: a raw pointer is forgotten; the last owner of a block deletes it. -/
def drop : Stor → Slot → Heap → HM Heap
  | .raw, _, h => .ok h
  | _, none, h => .ok h
  | _, s, h => do
    let (p, b, c) ← h.block s
    .ok (h.set p (if c = 1 then none else some (b, c - 1)))

/-- `v.resize(len)` of the elements of a vector. -/
def resized (b : List Nat) (len : Nat) : List Nat := b.take len ++ List.replicate (len - b.length) 0

/-- `allocate_mem_(it, len)` (pigo.hpp 498–545): `it = malloc(…)`, `it = shared_ptr(new T[len])` (the previous value of the
`shared_ptr` is released), `it.resize(len)`. -/
def allocate (S : Stor) (junk : Nat → Nat) (len : Nat) (s : Slot) (h : Heap) : HM (Slot × Heap) :=
  match S with
  | .raw => .ok (fresh (alloc junk len) h)
  | .shared => do
    let (s', h) := fresh (alloc junk len) h
    let h ← drop .shared s h
    .ok (s', h)
  | .vec =>
    match s with
    | none => .ok (fresh (resized [] len) h)
    | some p => do
      let (_, b, c) ← h.block s
      .ok (some p, h.set p (some (resized b len, c)))

/-- Assignment of array variables: as `dup`, and the previous value is released; a vector takes over the elements. -/
def assign (S : Stor) (src s : Slot) (h : Heap) : HM (Slot × Heap) :=
  match S with
  | .raw => .ok (src, h)
  | .shared => do
    let (s', h) ← dup .shared src h
    let h ← drop .shared s h
    .ok (s', h)
  | .vec => do
    let (s', h) ← dup .vec src h
    let h ← drop .vec s h
    .ok (s', h)

/-- `free_mem_(it)` (pigo.hpp 546–586): raw pointers only. -/
def freeMem (S : Stor) (s : Slot) (h : Heap) : HM Heap :=
  match S, s with
  | .raw, none => .error .badFree
  | .raw, some p => match h.mem p with
    | none => .error .badFree
    | some _ => .ok (h.set p none)
  | _, _ => .ok h

/-- `it[0], …, it[len-1]` read. -/
def get (s : Slot) (len : Nat) (h : Heap) : HM (List Nat) :=
  if len = 0 then .ok []
  else do
    let (_, b, _) ← h.block s
    if len ≤ b.length then .ok (b.take len) else .error .badAccess

/-- `it[0], …` set to the elements of `a`. -/
def put (s : Slot) (a : List Nat) (h : Heap) : HM Heap :=
  if a = [] then .ok h
  else do
    let (p, b, c) ← h.block s
    if a.length ≤ b.length then .ok (h.set p (some (a ++ b.drop a.length, c))) else .error .badAccess

/-! ## Objects -/

/-- The classes: COO (`n_`, `nrows_`, `ncols_`), Tensor (`order_`), CSR (`n_`, `nrows_`, `ncols_`), DiGraph and Matrix (two CSRs:
their `n_`s, the `m_` of the second), and a variable of the caller that holds an array. -/
inductive Cls
  | coo (wgt : Bool) | tensor (wgt : Bool) | csr (wgt : Bool) | pair (wgt : Bool) | array
  deriving DecidableEq, Repr

/-- The classes that declare a copy constructor and a copy assignment. -/
def Cls.deep : Cls → Bool
  | .coo _ | .tensor _ => true
  | _ => false

/-- The sizes of the arrays by the dimensions and `m_` (impl/coo.impl.hpp 131–136, impl/tensor.impl.hpp 50–54,
impl/csr.impl.hpp 69–74): `x_`, `y_`, `w_`; `c_`, `w_`; `endpoints_`, `offsets_`, `weights_`. -/
def Cls.lens : Cls → List Nat → Nat → List Nat
  | .coo wgt, _, m => if wgt then [m, m, m] else [m, m]
  | .tensor wgt, d, m => if wgt then [d.headD 0 * m, m] else [d.headD 0 * m]
  | .csr wgt, d, m => if wgt then [m, d.headD 0 + 1, m] else [m, d.headD 0 + 1]
  | .pair wgt, d, m =>
    if wgt then [m, d.headD 0 + 1, m, d.getD 2 0, d.getD 1 0 + 1, d.getD 2 0] else [m, d.headD 0 + 1, d.getD 2 0, d.getD 1 0 + 1]
  | .array, _, m => [m]

/-- Is there a constructor without arguments (coo.hpp 230, tensor.hpp 151, csr.hpp 129; none for DiGraph and Matrix)? -/
def Cls.hasDefault : Cls → Bool
  | .coo _ | .tensor _ | .csr _ => true
  | _ => false

/-- The fields besides `m_` after construction without arguments. -/
def Cls.zeros : Cls → List Nat
  | .tensor _ => [0]
  | _ => [0, 0, 0]

/-- The fields besides `m_` after `free()`: `order_ = 0` (tensor.hpp 197). -/
def Cls.freed : Cls → List Nat → List Nat
  | .tensor _, _ => [0]
  | _, d => d

structure Obj where
  cls : Cls
  slots : List Slot
  dims : List Nat
  m : Nat
  deriving DecidableEq, Repr

/-- The objects of a program, in the order of their construction (`none`: its lifetime has ended), and the heap. -/
structure State where
  objs : List (Option Obj)
  heap : Heap

def State.init : State := ⟨[], Heap.empty⟩

/-- A function on every slot of an object, one after the other. -/
def each {α : Type} (f : α → Heap → HM (Slot × Heap)) : List α → Heap → HM (List Slot × Heap)
  | [], h => .ok ([], h)
  | a :: as, h => do
    let (s, h) ← f a h
    let (ss, h) ← each f as h
    .ok (s :: ss, h)

/-- The same for functions without a result. -/
def each_ {α : Type} (f : α → Heap → HM Heap) : List α → Heap → HM Heap
  | [], h => .ok h
  | a :: as, h => do
    let h ← f a h
    each_ f as h

/-- `copy_(other)` for one array: `len` elements (coo.hpp 174–198, tensor.hpp 107–126). -/
def copyArr (t : (Slot × Slot) × Nat) (h : Heap) : HM Heap := do
  let a ← get t.1.2 t.2 h
  put t.1.1 a h

/-- `allocate_(); copy_(other);` on an object with the slots `old` (coo.hpp 315–319, 326–331, tensor.hpp 203–206, 212–216). -/
def deepCopy (S : Stor) (junk : Nat → Nat) (old : List Slot) (other : Obj) (h : Heap) : HM (Obj × Heap) := do
  let lens := other.cls.lens other.dims other.m
  let (slots, h) ← each (fun (t : Slot × Nat) h => allocate S junk t.2 t.1 h) (old.zip lens) h
  let h ← each_ copyArr ((slots.zip other.slots).zip lens) h
  .ok ({ other with slots := slots }, h)

/-- The implicit copy constructor (`old = none`) or assignment: every field, one after the other. -/
def shallowCopy (S : Stor) (old : Option (List Slot)) (other : Obj) (h : Heap) : HM (Obj × Heap) := do
  match old with
  | none => do
    let (slots, h) ← each (fun s h => dup S s h) other.slots h
    .ok ({ other with slots := slots }, h)
  | some ss => do
    let (slots, h) ← each (fun (t : Slot × Slot) h => assign S t.2 t.1 h) (ss.zip other.slots) h
    .ok ({ other with slots := slots }, h)

/-- `free()`: coo.hpp 305–312, tensor.hpp 193–200, csr.hpp 246–250, graph.hpp 290–293, matrix.hpp 199–202. -/
def freeObj (S : Stor) (o : Obj) (h : Heap) : HM (Obj × Heap) := do
  match o.cls.deep with
  | true =>
    if o.m > 0 then do
      let h ← each_ (fun s h => freeMem S s h) o.slots h
      .ok ({ o with dims := o.cls.freed o.dims, m := 0 }, h)
    else .ok (o, h)
  | false => do
    let h ← each_ (fun s h => freeMem S s h) o.slots h
    .ok (o, h)

/-- The operations. -/
inductive Op
  /-- an object constructed with contents `v`: from a file, from another object, or sized and filled by the caller -/
  | construct (c : Cls) (v : Val)
  /-- `COO()`, `Tensor()`, `CSR()` -/
  | default (c : Cls)
  /-- a new object copied from object `j` -/
  | copy (j : Nat) (junk : Nat → Nat)
  /-- `i = j` -/
  | assign (i j : Nat) (junk : Nat → Nat)
  /-- `i.transpose()` of a COO (coo.hpp 337–340) -/
  | transpose (i : Nat)
  /-- `i.free()` -/
  | free (i : Nat)
  /-- the elements of the arrays of `i` are set to `a`, by `i.sort()`, or by the caller through `i.x()`, … or a variable -/
  | update (i : Nat) (a : List (List Nat))
  /-- `auto e = i.endpoints()`, …: a new variable holding array `k` of `i` -/
  | take (i k : Nat)
  /-- end of the lifetime of `i` -/
  | destroy (i : Nat)

/-- The elements that array variables have room for: none if they do not refer to a block. -/
def room (o : Obj) : List Nat := (o.slots.zip (o.cls.lens o.dims o.m)).map (fun t => if t.1.isNone then 0 else t.2)

/-- Swap of the first two (`std::swap(x_, y_)`). -/
def swap01 {α : Type} : List α → List α
  | a :: b :: l => b :: a :: l
  | l => l

def State.at (st : State) (i : Nat) : Option Obj := st.objs.getD i none

def State.set (st : State) (i : Nat) (o : Option Obj) (h : Heap) : State := ⟨st.objs.set i o, h⟩

def State.add (st : State) (o : Obj) (h : Heap) : State := ⟨st.objs ++ [some o], h⟩

/-- One operation.  What is not part of any program is skipped: operations on objects that do not exist, contents that do not
have the sizes of the arrays, assignments between classes, transposes of other objects than COOs. -/
def step (S : Stor) : Op → State → HM State
  | .construct c v, st =>
    if v.arrs.map List.length = c.lens v.dims v.m then do
      let (slots, h) ← each (fun b h => .ok (fresh b h)) v.arrs st.heap
      .ok (st.add ⟨c, slots, v.dims, v.m⟩ h)
    else .ok st
  | .default c, st =>
    if c.hasDefault then .ok (st.add ⟨c, (c.lens c.zeros 0).map (fun _ => none), c.zeros, 0⟩ st.heap) else .ok st
  | .copy j junk, st =>
    match st.at j with
    | none => .ok st
    | some other => do
      let (o, h) ← if other.cls.deep then deepCopy S junk (other.slots.map (fun _ => none)) other st.heap
        else shallowCopy S none other st.heap
      .ok (st.add o h)
  | .assign i j junk, st =>
    match st.at i, st.at j with
    | some o, some other =>
      if i = j ∨ o.cls ≠ other.cls then .ok st
      else if o.cls.deep then do
        let (o, h) ← freeObj S o st.heap
        let (o, h) ← deepCopy S junk o.slots other h
        .ok (st.set i (some o) h)
      else do
        let (o, h) ← shallowCopy S (some o.slots) other st.heap
        .ok (st.set i (some o) h)
    | _, _ => .ok st
  | .transpose i, st =>
    match st.at i with
    | some o => match o.cls with
      | .coo _ => .ok (st.set i (some { o with slots := swap01 o.slots }) st.heap)
      | _ => .ok st
    | none => .ok st
  | .free i, st =>
    match st.at i with
    | some o => do
      let (o, h) ← freeObj S o st.heap
      .ok (st.set i (some o) h)
    | none => .ok st
  | .update i a, st =>
    match st.at i with
    | some o =>
      if a.map List.length = room o then do
        let h ← each_ (fun (t : Slot × List Nat) h => put t.1 t.2 h) (o.slots.zip a) st.heap
        .ok (st.set i (some o) h)
      else .ok st
    | none => .ok st
  | .take i k, st =>
    match st.at i with
    | some o => match o.slots[k]? with
      | some s => do
        let (s', h) ← dup S s st.heap
        .ok (st.add ⟨.array, [s'], [], (room o).getD k 0⟩ h)
      | none => .ok st
    | none => .ok st
  | .destroy i, st =>
    match st.at i with
    | some o => do
      let h ← each_ (fun s h => drop S s h) o.slots st.heap
      .ok (st.set i none h)
    | none => .ok st

/-- A history. -/
def run (S : Stor) : List Op → State → HM State
  | [], st => .ok st
  | op :: ops, st => do
    let st ← step S op st
    run S ops st

end Pigo.Alias
