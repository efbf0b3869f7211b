import Verif.Model.Alias
import Verif.Model.Csr

/-!
# Edge iterators and their storage

`BaseGraph::neighbors` (graph.hpp 130–138) and the range-for loop over it.  `EdgeIt` and `EdgeItT` (graph.hpp 21–71) hold the endpoints *by
value*: a copy of the raw pointer, another owner of the `shared_ptr`, a copy of the `vector`.  The heap is that of `Model/Alias`, so that the
copies, their destruction and what an assignment through `*it` reaches are explicit.  `Model/Graph` (`neighbors`) models the values read only.
-/

namespace Pigo.Alias

open Pigo.Life (HFault HM)

/-- `get_value_(s, i)` (pigo.hpp 705–752): element `i` of an array variable. -/
def elem (s : Slot) (i : Nat) (h : Heap) : HM Nat := do
  let (_, b, _) ← h.block s
  match b[i]? with
  | some x => .ok x
  | none => .error .badAccess

/-- An assignment to the reference that `get_value_<S, V&>(s, i)` returns (pigo.hpp 705–752). -/
def setElem (s : Slot) (i x : Nat) (h : Heap) : HM Heap := do
  let (p, b, c) ← h.block s
  if i < b.length then .ok (h.set p (some (b.set i x, c))) else .error .badAccess

/-- The constructors `EdgeIt(O, O, S s)`, `EdgeItT(S s, O)` (graph.hpp 34, 64–65): the parameter is a copy of the argument, the member `s` a
copy of the parameter, which is then destroyed. -/
def member (S : Stor) (s : Slot) (h : Heap) : HM (Slot × Heap) := do
  let (par, h) ← dup S s h
  let (mem, h) ← dup S par h
  let h ← drop S par h
  .ok (mem, h)

/-- `EdgeIt` (graph.hpp 49–71). -/
structure EdgeIt where
  begin_ : Nat
  end_ : Nat
  s : Slot

/-- `BaseGraph::neighbors(v)` (graph.hpp 135–138, `neighbor_start`, `neighbor_end`: impl/graph.impl.hpp 86–94): `endpoints_` is the first array
of a CSR, `offsets_` the second; labels of `lw` bits. -/
def edgesOf (lw : Nat) (S : Stor) (g : Obj) (v : Nat) (h : Heap) : HM (EdgeIt × Heap) := do
  let b ← elem (g.slots.getD 1 none) v h
  let e ← elem (g.slots.getD 1 none) (plusOne lw v) h
  let (s, h) ← member S (g.slots.getD 0 none) h
  .ok (⟨b, e, s⟩, h)

/-- `for (; b != e; ++b) { V& u = *b; … }` (`EdgeItT::operator!=`, `operator*`, `operator++`: graph.hpp 35–37, impl/graph.impl.hpp 83–84), with
ordinals of `ow` bits.  The body is given `u` and may assign to it at its end; its results are collected.  `fuel` bounds the iterations. -/
def edgeLoop {β : Type} (ow : Nat) (body : Nat → Heap → HM (Option Nat × β × Heap)) (s : Slot) : Nat → Nat → Nat → Heap → HM (List β × Heap)
  | 0, _, _, _ => .error .badAccess
  | fuel + 1, pos, stop, h =>
    if pos = stop then .ok ([], h) else do
      let u ← elem s pos h
      let (x, y, h) ← body u h
      let h ← match x with
        | some x => setElem s pos x h
        | none => .ok h
      let (ys, h) ← edgeLoop ow body s fuel ((pos + 1) % 2 ^ ow) stop h
      .ok (y :: ys, h)

/-- The range-for loop over an `EdgeIt` that exists: `auto b = r.begin(), e = r.end();` (graph.hpp 67–70), the loop, and the end of the lifetimes
of `e` and `b`. -/
def iterateOver {β : Type} (ow : Nat) (S : Stor) (body : Nat → Heap → HM (Option Nat × β × Heap)) (r : EdgeIt) (h : Heap) : HM (List β × Heap) := do
  let (b, h) ← member S r.s h
  let (e, h) ← member S r.s h
  let (ys, h) ← edgeLoop ow body b (2 ^ ow) r.begin_ r.end_ h
  let h ← drop S e h
  let h ← drop S b h
  .ok (ys, h)

/-- `for (auto& u : g.neighbors(v)) …`: the `EdgeIt` lives as long as the loop. -/
def forNeighbors {β : Type} (lw ow : Nat) (S : Stor) (body : Nat → Heap → HM (Option Nat × β × Heap)) (g : Obj) (v : Nat) (h : Heap) :
    HM (List β × Heap) := do
  let (r, h) ← edgesOf lw S g v h
  let (ys, h) ← iterateOver ow S body r h
  let h ← drop S r.s h
  .ok (ys, h)

/-- The body `u = f(u)` (where `f` gives something), collecting the values of `u`. -/
def assigning (f : Nat → Option Nat) (u : Nat) (h : Heap) : HM (Option Nat × Nat × Heap) := .ok (f u, u, h)

/-- `for (auto u : g.neighbors(v)) for (auto w : g.neighbors(u)) …`: the pairs `(u, w)`, by `u`. -/
def twoHop (lw ow : Nat) (S : Stor) (g : Obj) (v : Nat) (h : Heap) : HM (List (List (Nat × Nat)) × Heap) :=
  forNeighbors lw ow S (fun u h => do
    let (ws, h) ← forNeighbors lw ow S (fun w h => .ok (none, w, h)) g u h
    .ok (none, ws.map (fun w => (u, w)), h)) g v h

/-! ## Programs with loops -/

/-- The number of elements of an array variable. -/
def lengthOf (s : Slot) (h : Heap) : Nat :=
  match h.block s with
  | .ok (_, b, _) => b.length
  | .error _ => 0

/-- `v` is a vertex of the CSR `g` whose row lies in the endpoints, and the types can count it: what a program makes sure of. -/
def rowFits (lw ow : Nat) (g : Obj) (v : Nat) (h : Heap) : Bool :=
  match elem (g.slots.getD 1 none) v h, elem (g.slots.getD 1 none) (v + 1) h with
  | .ok s, .ok e => decide (s ≤ e ∧ e ≤ lengthOf (g.slots.getD 0 none) h ∧ (lw < 32 ∨ v + 1 < 2 ^ lw) ∧ e < 2 ^ ow)
  | _, _ => false

/-- The operations of `Model/Alias`, and `for (auto& u : g.neighbors(v)) …` over a Graph. -/
inductive Act
  | op (o : Op)
  /-- `u = f(u)` for the neighbors of `v` in object `i` (where `f` gives something) -/
  | loop (i v : Nat) (f : Nat → Option Nat)

/-- One action.  What is not part of any program is skipped, as in `step`. -/
def act (lw ow : Nat) (S : Stor) : Act → State → HM State
  | .op o, st => step S o st
  | .loop i v f, st =>
    match st.at i with
    | some g => match g.cls with
      | .csr _ =>
        if rowFits lw ow g v st.heap then do
          let (_, h) ← forNeighbors lw ow S (assigning f) g v st.heap
          .ok ⟨st.objs, h⟩
        else .ok st
      | _ => .ok st
    | none => .ok st

/-- A program: actions one after the other. -/
def acts (lw ow : Nat) (S : Stor) : List Act → State → HM State
  | [], st => .ok st
  | a :: as, st => do
    let st ← act lw ow S a st
    acts lw ow S as st

end Pigo.Alias
