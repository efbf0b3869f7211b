import Verif.Spec.GraphText
import Verif.Spec.Write

/-!
# Specification: text files of edges, ordered
-/

namespace Pigo.Spec

/-- The file of a list of edges: a line `x y` for each. -/
def edgeText (ps : List (Nat × Nat)) : List Byte :=
  ps.flatMap (fun p => showNat p.1 ++ str " " ++ showNat p.2 ++ str "\n")

/-- Ordered by the first, then the second vertex; no duplicates. -/
def LexSorted (ps : List (Nat × Nat)) : Prop := ps.Pairwise (fun p q => p.1 < q.1 ∨ (p.1 = q.1 ∧ p.2 < q.2))

/-- Ordered by the first, then the second vertex. -/
def LexWeak (ps : List (Nat × Nat)) : Prop := ps.Pairwise (fun p q => p.1 < q.1 ∨ (p.1 = q.1 ∧ p.2 ≤ q.2))

end Pigo.Spec
