import Verif.Spec.Text

/-!
# Reading two columns as three
-/

namespace Pigo.Spec

/-- What becomes of the edges of a file without weights when three numbers are read for each edge and the rest of the line
is skipped: the weight of an edge is the first label of the edge after it, which is lost. -/
def halved : List (Nat × Nat) → List (Nat × Nat × Nat)
  | (x, y) :: (z, _) :: es => (x, y, z) :: halved es
  | _ => []

end Pigo.Spec
