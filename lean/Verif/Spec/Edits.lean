import Verif.Spec.Text

/-!
# Specification: edits of an edge list that do not change its data

On the list of lines of the file.
-/

namespace Pigo.Spec

/-- An edit that should not matter. -/
inductive Edit : List (List Byte) → List (List Byte) → Prop
  /-- insert a line that has no data: blank, or text without integers outside its comment -/
  | insertLine (a b : List (List Byte)) (l : List Byte) (h : ints l = []) : Edit (a ++ b) (a ++ l :: b)
  /-- append a comment to a line -/
  | comment (a b : List (List Byte)) (l : List Byte) (c : Byte) (t : List Byte) (h : isComment c = true) :
      Edit (a ++ l :: b) (a ++ (l ++ c :: t) :: b)
  /-- append further columns (or any other text) to a line that already has an edge -/
  | columns (a b : List (List Byte)) (l : List Byte) (c : Byte) (t : List Byte) (h : isDigit c = false)
      (he : (edge l).isSome) : Edit (a ++ l :: b) (a ++ (l ++ c :: t) :: b)

/-- Any number of edits, in both directions (insertions and deletions). -/
inductive Edits : List (List Byte) → List (List Byte) → Prop
  | refl (a) : Edits a a
  | fwd {a b c} (h : Edit a b) (t : Edits b c) : Edits a c
  | bwd {a b c} (h : Edit b a) (t : Edits b c) : Edits a c

end Pigo.Spec
