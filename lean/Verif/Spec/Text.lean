import Verif.Base.Basic

/-!
# Specification: text files

What lines, comments, integers and edges of a text file are, independently of how PIGO scans it.
Nothing here refers to the model.
-/

namespace Pigo.Spec

/-- `'0' ≤ b ≤ '9'` -/
def isDigit (b : Byte) : Bool := decide ('0'.toNat ≤ b.toNat ∧ b.toNat ≤ '9'.toNat)

/-- a comment starts with `%` or `#` -/
def isComment (b : Byte) : Bool := decide (b.toNat = '%'.toNat ∨ b.toNat = '#'.toNat)

/-- blank, tab or carriage return -/
def isBlank (b : Byte) : Bool := decide (b.toNat = ' '.toNat ∨ b.toNat = '\t'.toNat ∨ b.toNat = '\r'.toNat)

/-- The lines of a file: the pieces between newlines.  The last piece is the text after the last newline
(empty if the file is newline-terminated). -/
noncomputable def lines (file : List Byte) : List (List Byte) := file.splitOn 10

theorem lines_ne_nil (file : List Byte) : lines file ≠ [] := List.splitOn_ne_nil _ _

/-- The part of a line before its comment. -/
def stripComment (line : List Byte) : List Byte := line.takeWhile (fun b => !isComment b)

/-- The maximal runs of digits of a piece of text. -/
noncomputable def digitRuns (text : List Byte) : List (List Byte) :=
  (text.splitOnP (fun b => !isDigit b)).filter (fun r => !r.isEmpty)

/-- The maximal runs of non-blank characters of a piece of text. -/
noncomputable def tokens (text : List Byte) : List (List Byte) :=
  (text.splitOnP isBlank).filter (fun r => !r.isEmpty)

/-- Decimal value of a list of digits, most significant first. -/
def decimal (ds : List Byte) : Nat := ds.foldl (fun a b => 10 * a + (b.toNat - '0'.toNat)) 0

/-- The integers written on a line, comments left out. -/
noncomputable def ints (line : List Byte) : List Nat := (digitRuns (stripComment line)).map decimal

/-- The edge of a line, if there is one: its first two integers. -/
noncomputable def edge (line : List Byte) : Option (Nat × Nat) :=
  match ints line with
  | x :: y :: _ => some (x, y)
  | _ => none

/-- The edges of an edge list file, in file order. -/
noncomputable def edges (file : List Byte) : List (Nat × Nat) := (lines file).filterMap edge

/-- A line is blank (no integer outside comments) or has an edge. -/
def LineOk (line : List Byte) : Prop := ints line = [] ∨ ∃ e, edge line = some e

/-- A well-formed edge list: every line is blank or has an edge, and the text after the last newline
has no integer (in particular the file may end with a newline or a comment). -/
structure EdgeListOk (file : List Byte) : Prop where
  line : ∀ l ∈ lines file, LineOk l
  last : ints ((lines file).getLast (lines_ne_nil file)) = []

end Pigo.Spec
