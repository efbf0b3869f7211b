import Verif.Model.Life

/-!
# Value semantics of a program over COO/Tensor objects

What a user expects: an object *is* its contents. No heap, no pointers.
-/

namespace Pigo.Life

/-- The contents of an object in a state: fields, and the elements of the arrays (none if `m_ = 0`). -/
def value (h : Heap) (o : Obj) : Val :=
  { arrs := o.arrs.map (fun p => if o.m = 0 then [] else (p.bind h.mem).getD [])
    dims := o.dims
    m := o.m }

/-- All objects of a program as plain data. -/
abbrev Vals := Nat → Option Val

def Vals.set (A : Vals) (i : Nat) (v : Option Val) : Vals := fun k => if k = i then v else A k

/-- An object without entries. -/
def emptyVal (K : Kind) (dims : List Nat) : Val := ⟨(K.lens dims 0).map (fun _ => []), dims, 0⟩

/-- One operation on plain data: every operation changes object `i` only. -/
def vstep (K : Kind) : Op → Vals → Vals
  | .construct i v, A => if (A i).isSome ∨ v.arrs.map List.length ≠ K.lens v.dims v.m then A else A.set i (some v)
  | .default i dims, A => if (A i).isSome then A else A.set i (some (emptyVal K dims))
  | .copy i j _, A =>
    match A i, A j with
    | none, some v => A.set i (some v)
    | _, _ => A
  | .assign i j _, A =>
    match A i, A j with
    | some _, some v => A.set i (some v)
    | _, _ => A
  | .transpose i, A =>
    match A i with
    | some v => if K.swaps then A.set i (some { v with arrs := swap01 v.arrs }) else A
    | none => A
  | .free i, A =>
    match A i with
    | some v => if v.m > 0 then A.set i (some (emptyVal K (K.freed v.dims))) else A
    | none => A
  | .write i a k x, A =>
    match A i with
    | some v => A.set i (some { v with arrs := v.arrs.modify a (fun l => l.set k x) })
    | none => A
  | .destroy i, A => A.set i none

/-- A history on plain data. -/
def vrun (K : Kind) : List Op → Vals → Vals
  | [], A => A
  | op :: ops, A => vrun K ops (vstep K op A)

/-- The program does not end the lifetime of an object with entries: it calls `free()` before. -/
def TidyOp : Op → Vals → Prop
  | .destroy i, A => ∀ v, A i = some v → v.m = 0
  | _, _ => True

/-- A history that frees every object before the end of its lifetime. -/
def Tidy (K : Kind) : List Op → Vals → Prop
  | [], _ => True
  | op :: ops, A => TidyOp op A ∧ Tidy K ops (vstep K op A)

/-- Two array slots of the objects of a state (object, position) that hold entries. -/
def Owns (st : State) (i k : Nat) (p : Option Nat) : Prop :=
  ∃ o, st.objs i = some o ∧ 0 < o.m ∧ o.arrs[k]? = some p

end Pigo.Life
