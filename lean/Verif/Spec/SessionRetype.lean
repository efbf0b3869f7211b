import Verif.Model.SessionRetype
import Verif.Spec.Session

/-!
# Specification: what a program that changes the types computes
-/

namespace Pigo.Session

/-- The operation without a change of types. -/
def Conv.same : {k k' : Kind} → Conv k k' → Op k k'
  | _, _, .toCsr => .toCsr
  | _, _, .toGraph => .toGraph
  | _, _, .toMatrix => .toMatrix
  | _, _, .toCoo f => .toCoo f
  | _, _, .withoutDups => .withoutDups

namespace Spec

/-- The same edges, the weights converted (or dropped). -/
def reweigh {W V : Type} (wgt : Bool) (conv : W → V) (s : Net W) : Net V :=
  ⟨s.n, s.es.map (fun e => (e.1, e.2.1, if wgt then e.2.2.map conv else none))⟩

/-- What a program in parts does to the graph: each part what its operations do, each change of types what the operation does without
a change of types, and then the conversion of the weights. -/
def LDoes : {W V : Type} → {E : Types W} → {E' : Types V} → {k k' : Kind} → Long E E' k k' → Net W → Net V → Prop
  | _, _, E, _, _, _, .last p, s, s' => Does E.wlt p s s'
  | _, _, E, _, _, _, .change (E1 := E1) p _ op conv rest, s, s' =>
    ∃ s1 s2, Does E.wlt p s s1 ∧ Step E.wlt op.same s1 s2 ∧ LDoes rest (reweigh E1.wk.wgt conv s2) s'

/-- An upper bound for the number of edges after a program that starts with `m`. -/
def growth : {k k' : Kind} → Conv k k' → Nat
  | _, _, .toCoo .symmetric => 2
  | _, _, _ => 1

/-- A part of a program may be run on graphs with at most `N` vertices and `m` edges. -/
structure Part {W : Type} (E : Types W) {k k' : Kind} (p : Prog k k') (N m : Nat) : Prop where
  lb : 0 < E.lb ∧ E.lb < 256
  ob : E.ob < 256
  wlt : Pigo.Spec.StrictWeak E.wlt
  labels : N + 1 < 2 ^ (8 * E.lb)
  ordinals : peak p m < 2 ^ (8 * E.ob)
  fine : Fine p
  stor : Converts p → E.wk.wgt = true → E.stor ≠ .vector

/-- The operation exists for these types: all but `new_csr_without_dups` keep weights if there are any, and make none; that one may
also drop them (for weights from nothing see C102).  A CSR with `std::vector` weights is not converted to a COO (C68). -/
def Allowed {W V : Type} (E : Types W) (E' : Types V) : {k k' : Kind} → Conv k k' → Prop
  | _, _, .toCoo _ => E'.wk.wgt = E.wk.wgt ∧ (E.wk.wgt = true → E.stor ≠ .vector)
  | _, _, .withoutDups => E'.wk.wgt = true → E.wk.wgt = true
  | _, _, _ => E'.wk.wgt = E.wk.wgt

/-- Some part of the program writes text. -/
def LWrites : {W V : Type} → {E : Types W} → {E' : Types V} → {k k' : Kind} → Long E E' k k' → Prop
  | _, _, _, _, _, _, .last p => Writes p
  | _, _, _, _, _, _, .change p _ _ _ rest => Writes p ∨ LWrites rest

/-- Every part may be run, for graphs with at most `N` vertices and, at the start, `m` edges. -/
def Parts : {W V : Type} → {E : Types W} → {E' : Types V} → {k k' : Kind} → Long E E' k k' → Nat → Nat → Prop
  | _, _, E, _, _, _, .last p, N, m => Part E p N m
  | _, _, E, _, _, _, .change (E1 := E1) p T op _ rest, N, m =>
    Part E p N m ∧ 0 < T ∧ Allowed E E1 op ∧ growth op * peak p m < 2 ^ (8 * E1.ob) ∧ Parts rest N (growth op * peak p m)

/-- The edges are between vertices, and there is one if text is written. -/
structure Start {W V : Type} {E : Types W} {E' : Types V} {k k' : Kind} (p : Long E E' k k') (ok : W → Prop) (s : Net W) : Prop where
  ends : ∀ e ∈ s.es, e.1 < s.n ∧ e.2.1 < s.n
  weights : ∀ e ∈ s.es, ∀ w, e.2.2 = some w → ok w
  edges : LWrites p → s.es ≠ []
  parts : Parts p s.n s.es.length

end Spec
end Pigo.Session
