import Verif.Model.EdgeIter
import Verif.Spec.Alias
import Verif.Spec.Csr

/-!
# Specification: loops over the neighbors of a vertex
-/

namespace Pigo.Alias.Spec

/-- The CSR object `g` has its endpoints `ep` in the block at `p` and its offsets `off` in another one. -/
structure Stored (h : Heap) (g : Obj) (p : Nat) (ep off : List Nat) : Prop where
  slot : g.slots.getD 0 none = some p
  endpoints : contents h (some p) = ep
  live : h.mem p ≠ none
  offsets : contents h (g.slots.getD 1 none) = off
  other : g.slots.getD 1 none ≠ some p

/-- What is true of every heap: addresses not given out are free, blocks have an owner. -/
structure Sane (h : Heap) : Prop where
  next : ∀ a, h.next ≤ a → h.mem a = none
  owned : ∀ a b c, h.mem a = some (b, c) → 0 < c

/-- Row `v` of the arrays lies in the endpoints; `v + 1` and the offsets fit in the label and ordinal types. -/
structure RowAt (lw ow : Nat) (ep off : List Nat) (v s e : Nat) : Prop where
  start : off[v]? = some s
  stop : off[v + 1]? = some e
  le : s ≤ e
  room : e ≤ ep.length
  label : lw < 32 ∨ v + 1 < 2 ^ lw
  ordinal : e < 2 ^ ow

/-- The elements of a row. -/
def slice (ep : List Nat) (s e : Nat) : List Nat := (ep.drop s).take (e - s)

/-- The endpoints after `u = f(u)` for the elements of a row. -/
def assigned (ep : List Nat) (s e : Nat) (f : Nat → Option Nat) : List Nat :=
  ep.take s ++ (slice ep s e).map (fun u => (f u).getD u) ++ ep.drop e

/-- Nothing in memory has changed: the same blocks are allocated, with the same elements and owners. -/
def SameMemory (h h' : Heap) : Prop := h'.mem = h.mem

end Pigo.Alias.Spec
