import Verif.Base.Basic

/-!
# Specification: the edges a cleaned graph has
-/

namespace Pigo.Spec

/-- The edge `a b` belongs to the graph with the edges `es` after: adding the mirror of every edge (`sym`), dropping the edges below the
diagonal (`ut`), dropping the self loops (`sl`). -/
def Cleaned (sym ut sl : Bool) (es : List (Nat × Nat)) (a b : Nat) : Prop :=
  ((a, b) ∈ es ∨ (sym = true ∧ (b, a) ∈ es)) ∧ (ut = true → a ≤ b) ∧ (sl = true → a ≠ b)

end Pigo.Spec
