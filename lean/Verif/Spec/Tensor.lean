import Verif.Spec.Edges

/-!
# Specification: tensors in text files

A line holds blank separated words: the coordinates, written with digits, and the weight.
-/

namespace Pigo.Spec

variable {W : Type}

/-- The words of a line, comment left out. -/
noncomputable def words (line : List Byte) : List (List Byte) := tokens (stripComment line)

/-- The first `k` words, if they are written with digits. -/
def coords (k : Nat) (ts : List (List Byte)) : Option (List Nat) :=
  if k ≤ ts.length ∧ ∀ t ∈ ts.take k, t.all isDigit = true then some ((ts.take k).map decimal) else none

/-- A line without weight: `k` coordinates. -/
noncomputable def tensorEntry0 (k : Nat) (line : List Byte) : Option (List Nat × Unit) :=
  (coords k (words line)).map (fun xs => (xs, ()))

/-- A line with `k` coordinates and a weight understood by `parse`. -/
noncomputable def tensorEntryW (parse : List Byte → Option W) (k : Nat) (line : List Byte) : Option (List Nat × W) :=
  match coords k (words line), (words line)[k]? with
  | some xs, some t => (parse t).map (fun v => (xs, v))
  | _, _ => none

/-- An unsigned integer. -/
def parseUnsigned (t : List Byte) : Option Nat := if t.all isDigit = true then some (decimal t) else none

/-- The first data line of a file: the first one with a digit outside of comments. -/
noncomputable def firstData (file : List Byte) : Option (List Byte) := (lines file).find? (fun l => decide (ints l ≠ []))

/-- A word that is a number without exponent: anything without a digit (a sign, a dot), then a digit, then digits and
dots. -/
def plainNumber (t : List Byte) : Prop :=
  t.dropWhile (fun b => !isDigit b) ≠ [] ∧ ∀ b ∈ t.dropWhile (fun b => !isDigit b), isDigit b = true ∨ b.toNat = '.'.toNat

/-- A line made of plain numbers, with at most spaces (no tab, no carriage return) after the last of them. -/
structure PlainLine (line : List Byte) : Prop where
  numbers : ∀ t ∈ words line, plainNumber t
  ending : ∀ s, s <:+ stripComment line → (∀ b ∈ s, isBlank b = true) → ∀ b ∈ s, b.toNat = ' '.toNat

/-- A tensor file of order `k`: every line is blank or carries an entry, the text after the last newline is blank, and
the first data line consists of the `k` coordinates and the weight (if any) only, written plainly. -/
structure TensorOk (wgt : Bool) (entry : Nat → List Byte → Option (List Nat × W)) (k : Nat) (file : List Byte) : Prop where
  good : FileOk (entry k) file
  first : ∀ l, firstData file = some l → PlainLine l ∧ (words l).length = k + if wgt then 1 else 0

end Pigo.Spec
