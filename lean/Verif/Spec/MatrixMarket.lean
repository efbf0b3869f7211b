import Verif.Spec.Edges

/-!
# Specification: Matrix Market coordinate files
-/

namespace Pigo.Spec

/-- The text every coordinate Matrix Market file starts with. -/
def banner : List Byte := str "%%MatrixMarket matrix coordinate"

/-- The file starts with the banner; after lines without data comes the size line, whose first three integers are
the number of rows `R`, of columns `C` and of entries `N`; `body` are the lines after it. -/
structure MmFile (file : List Byte) (R C N : Nat) (body : List (List Byte)) : Prop where
  banner : banner <+: file
  body_ne : body ≠ []
  layout : ∃ pre size, lines file = pre ++ size :: body ∧ (∀ l ∈ pre, ints l = []) ∧ ∃ t, ints size = R :: C :: N :: t

/-- The entries on a list of lines; lines without integers are skipped. -/
noncomputable def entriesOf {W : Type} (entry : List Byte → Option (Nat × Nat × W)) (ls : List (List Byte)) :
    List (Nat × Nat × W) :=
  ls.filterMap (fun l => if ints l = [] then none else entry l)

/-- Every line of the body is blank or has an entry; the text after the last newline is blank. -/
structure BodyOk {W : Type} (entry : List Byte → Option (Nat × Nat × W)) (body : List (List Byte)) : Prop where
  line : ∀ l ∈ body, ints l = [] ∨ (entry l).isSome
  last : ∀ l, body.getLast? = some l → ints l = []

end Pigo.Spec
