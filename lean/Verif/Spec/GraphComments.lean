import Verif.Spec.GraphFile

/-!
# Specification: `.graph` files with comments in the body

Independent of the model.
-/

namespace Pigo.Spec

/-- The header and the lines after it, as in `GraphFile`; comments may be anywhere. -/
def GraphText (file : List Byte) (n m : Nat) (body : List (List Byte)) (tail : List Byte) : Prop :=
  ∃ pre hdr, lines file = pre ++ hdr :: (body ++ [tail]) ∧ (∀ l ∈ pre, ints l = []) ∧ ∃ t, ints hdr = n :: m :: t

/-- The comment of a line, with its sign. -/
def comment (line : List Byte) : List Byte := line.dropWhile (fun b => !isComment b)

/-- The line with a blank for every character of its comment. -/
def blankComment (line : List Byte) : List Byte := stripComment line ++ (comment line).map (fun _ => 32)

/-- No comment contains a digit or follows a digit directly; a line that starts with a comment sign does not come after a line
with a comment; no comment after the last newline. -/
structure QuietComments (body : List (List Byte)) (tail : List Byte) : Prop where
  nodigit : ∀ l ∈ body, ∀ b ∈ comment l, isDigit b = false
  apart : ∀ l ∈ body, comment l ≠ [] → ∀ b, (stripComment l).getLast? = some b → isDigit b = false
  single : ∀ i l l', body[i]? = some l → body[i + 1]? = some l' → comment l ≠ [] → ∀ b, l'.head? = some b → isComment b = false
  last : comment tail = []

end Pigo.Spec
