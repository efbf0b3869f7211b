import Verif.Model.Alias

/-!
# What a user expects of copies

`vrun`: objects are plain data — the arrays and fields are the object, a copy is another one.  `families`: which objects may have
arrays in common if the copies of CSR, DiGraph and Matrix objects (and variables taken from an object) share the arrays of the
original.
-/

namespace Pigo.Alias

open Pigo.Life (Val)

/-- The elements of an array variable. -/
def contents (h : Heap) (s : Slot) : List Nat := ((s.bind h.mem).map Prod.fst).getD []

/-- An object as a user sees it: its fields and the elements of its arrays, as many as the fields say. -/
def value (h : Heap) (o : Obj) : Val :=
  ⟨(o.slots.zip (o.cls.lens o.dims o.m)).map (fun t => (contents h t.1).take t.2), o.dims, o.m⟩

/-- An object refers to the block at `p`. -/
def Refers (o : Obj) (p : Nat) : Prop := some p ∈ o.slots

/-- The array variables `ss` refer to blocks with (at least) as many elements as the numbers say; a variable that refers to none has no
elements (an object of a class that copies its arrays: if the number is 0; others also after `CSR()`). -/
def HasRoom (h : Heap) (deep : Bool) (ss : List Slot) (lens : List Nat) : Prop :=
  ss.length = lens.length ∧ ∀ t ∈ ss.zip lens, (t.1.isSome ∨ deep = true) → t.2 ≤ (contents h t.1).length

/-- The arrays a user accesses by the fields of an object: `x()`, `y()`, `w()` with `m()` elements each; `c()` with `order() * m()` and
`w()` with `m()`; `endpoints()`, `offsets()`, `weights()` with `m()`, `n() + 1`, `m()` elements; those of two CSRs. -/
def Shaped (h : Heap) (o : Obj) : Prop :=
  match o.cls, o.dims with
  | .coo false, _ => HasRoom h true o.slots [o.m, o.m]
  | .coo true, _ => HasRoom h true o.slots [o.m, o.m, o.m]
  | .tensor false, order :: _ => HasRoom h true o.slots [order * o.m]
  | .tensor true, order :: _ => HasRoom h true o.slots [order * o.m, o.m]
  | .csr false, n :: _ => HasRoom h false o.slots [o.m, n + 1]
  | .csr true, n :: _ => HasRoom h false o.slots [o.m, n + 1, o.m]
  | .pair false, n :: n' :: m' :: _ => HasRoom h false o.slots [o.m, n + 1, m', n' + 1]
  | .pair true, n :: n' :: m' :: _ => HasRoom h false o.slots [o.m, n + 1, o.m, m', n' + 1, m']
  | .array, _ => HasRoom h false o.slots [o.m]
  | _, _ => True

/-- Objects as plain data. -/
abbrev Vals := List (Option (Cls × Val))

def emptyVal (c : Cls) (d : List Nat) : Val := ⟨(c.lens d 0).map (fun _ => []), d, 0⟩

/-- One operation on plain data: it changes one object or adds one. -/
def vstep : Op → Vals → Vals
  | .construct c v, A => if v.arrs.map List.length = c.lens v.dims v.m then A ++ [some (c, v)] else A
  | .default c, A => if c.hasDefault then A ++ [some (c, emptyVal c c.zeros)] else A
  | .copy j _, A =>
    match A.getD j none with
    | some cv => A ++ [some cv]
    | none => A
  | .assign i j _, A =>
    match A.getD i none, A.getD j none with
    | some (c, _), some (c', v) => if c = c' then A.set i (some (c, v)) else A
    | _, _ => A
  | .transpose i, A =>
    match A.getD i none with
    | some (.coo w, v) => A.set i (some (.coo w, { v with arrs := swap01 v.arrs }))
    | _ => A
  | .free i, A =>
    match A.getD i none with
    | some (c, v) => if c.deep ∧ 0 < v.m then A.set i (some (c, emptyVal c (c.freed v.dims))) else A
    | none => A
  | .update i a, A =>
    match A.getD i none with
    | some (c, v) => if a.map List.length = v.arrs.map List.length then A.set i (some (c, { v with arrs := a })) else A
    | none => A
  | .take i k, A =>
    match A.getD i none with
    | some (_, v) => match v.arrs[k]? with
      | some b => A ++ [some (.array, ⟨[b], [], b.length⟩)]
      | none => A
    | none => A
  | .destroy i, A => A.set i none

def vrun : List Op → Vals → Vals
  | [], A => A
  | op :: ops, A => vrun ops (vstep op A)

/-- The operation makes no object of a class without copy operations of its own: COOs and Tensors only. -/
def Op.Deep : Op → Prop
  | .construct c _ | .default c => c.deep = true
  | .take _ _ => False
  | _ => True

/-- The object an operation is called on. -/
def Op.target : Op → Option Nat
  | .assign i _ _ | .transpose i | .free i | .update i _ | .destroy i => some i
  | _ => none

/-- The operation does not store elements in arrays of `o`. -/
def Op.Avoids (op : Op) (st : State) (o : Obj) : Prop :=
  ∀ i a, op = .update i a → ∀ x, st.at i = some x → ∀ p, Refers x p → ¬ Refers o p

/-- The class and the family of every object.  `t` is a number not used before. -/
def fstep (t : Nat) : Op → List (Option (Cls × Nat)) → List (Option (Cls × Nat))
  | .construct c v, F => if v.arrs.map List.length = c.lens v.dims v.m then F ++ [some (c, t)] else F
  | .default c, F => if c.hasDefault then F ++ [some (c, t)] else F
  | .copy j _, F =>
    match F.getD j none with
    | some (c, f) => F ++ [some (c, if c.deep then t else f)]
    | none => F
  | .assign i j _, F =>
    match F.getD i none, F.getD j none with
    | some (c, _), some (c', f) => if i = j ∨ c ≠ c' then F else F.set i (some (c, if c.deep then t else f))
    | _, _ => F
  | .take i k, F =>
    match F.getD i none with
    | some (c, f) => if k < (c.lens [] 0).length then F ++ [some (.array, f)] else F
    | none => F
  | .destroy i, F => F.set i none
  | _, F => F

/-- The families after a history: a constructed object starts one, and so does a copy of, or an assignment to, a COO or Tensor;
copies of and assignments to other objects, and variables taken from an object, belong to the family of the source. -/
def families : Nat → List Op → List (Option (Cls × Nat)) → List (Option (Cls × Nat))
  | _, [], F => F
  | t, op :: ops, F => families (t + 1) ops (fstep t op F)

end Pigo.Alias
