import Verif.Spec.Csr
import Verif.Spec.Text

/-!
# Specification: `.graph` files

A `.graph` (METIS-like) file: lines without data, a header line with the number of vertices and of edges, then one line per
vertex with its neighbours.
-/

namespace Pigo.Spec

/-- After lines without data comes the header, whose first two integers are the number of vertices `n` and of edges `m`;
`body` are the lines after it, `tail` the text after the last newline.  There are no comments after the header. -/
structure GraphFile (file : List Byte) (n m : Nat) (body : List (List Byte)) (tail : List Byte) : Prop where
  layout : ∃ pre hdr, lines file = pre ++ hdr :: (body ++ [tail]) ∧ (∀ l ∈ pre, ints l = []) ∧ ∃ t, ints hdr = n :: m :: t
  nocom : ∀ l ∈ body ++ [tail], ∀ b ∈ l, isComment b = false

/-- The adjacency lists written in the body: one per line. -/
noncomputable def adjacency (body : List (List Byte)) : List (List Nat) := body.map (fun l => (digitRuns l).map decimal)

/-- Vertices are numbered from 0: an integer `0` is written somewhere. -/
def ZeroBased (body : List (List Byte)) (tail : List Byte) : Prop := ∃ l ∈ body ++ [tail], [48] ∈ digitRuns l

end Pigo.Spec
