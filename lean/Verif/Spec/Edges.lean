import Verif.Spec.Text
import Verif.Spec.Fp

/-!
# Specification: what a COO stores for an entry of a file

For the template flags `sym` (make symmetric), `ut` (keep the upper triangle only) and `sl` (remove
self-loops) and an entry `(x, y, w)` of the file.
-/

namespace Pigo.Spec

variable {W : Type}

/-- The entries stored for one entry of the file. -/
def stored (sym ut sl : Bool) (e : Nat × Nat × W) : List (Nat × Nat × W) :=
  let (x, y, w) := e
  if sl ∧ x = y then []
  else match sym, ut with
    | false, false => [(x, y, w)]
    | false, true => if x ≤ y then [(x, y, w)] else []
    | true, true => [(min x y, max x y, w)]
    | true, false => if x = y then [(x, y, w)] else [(x, y, w), (y, x, w)]

/-- The entry the dimensions are computed from: the first one stored. -/
def primary (sym ut sl : Bool) (e : Nat × Nat × W) : Option (Nat × Nat × W) :=
  (stored sym ut sl e).head?

/-- Largest element, `0` for the empty list. -/
def maxOf (l : List Nat) : Nat := l.foldl max 0

end Pigo.Spec

namespace Pigo.Spec

/-! ## weighted lines -/

/-- A weighted line with unsigned weights: its first three integers. -/
noncomputable def entryU (line : List Byte) : Option (Nat × Nat × Nat) :=
  match ints line with
  | x :: y :: w :: _ => some (x, y, w)
  | _ => none

/-- A decimal integer with optional sign. -/
def parseSigned : List Byte → Option Int
  | [] => none
  | c :: ds =>
    if c.toNat = '-'.toNat then
      if ds ≠ [] ∧ ds.all isDigit then some (-(decimal ds : Int)) else none
    else if c.toNat = '+'.toNat then
      if ds ≠ [] ∧ ds.all isDigit then some (decimal ds : Int) else none
    else if (c :: ds).all isDigit then some (decimal (c :: ds) : Int) else none

/-- A line `x y w …` of blank separated words where `x`, `y` are written with digits and `w` is
understood by `parse`. -/
noncomputable def entryW {W : Type} (parse : List Byte → Option W) (line : List Byte) : Option (Nat × Nat × W) :=
  match tokens (stripComment line) with
  | x :: y :: w :: _ =>
    if x.all isDigit ∧ y.all isDigit then (parse w).map (fun v => (decimal x, decimal y, v)) else none
  | _ => none

/-- A line with a signed integer weight. -/
noncomputable def entryS (line : List Byte) : Option (Nat × Nat × Int) := entryW parseSigned line

/-- A line with a floating point weight; `val` is the value given to a literal. -/
noncomputable def entryF {W : Type} (val : Lit → W) (line : List Byte) : Option (Nat × Nat × W) :=
  entryW (fun t => (parseLit t).map val) line

/-! ### weights among other text

The labels are the first two integers of the line, whatever is written around them, and the weight is the first number after
them: text in between is passed over. -/

/-- The text after the first integer. -/
def afterInt (text : List Byte) : List Byte := (text.dropWhile (fun b => !isDigit b)).dropWhile isDigit

/-- The text of a line after its first two integers, the comment left out. -/
def afterLabels (line : List Byte) : List Byte := afterInt (afterInt (stripComment line))

/-- `+` or `-` -/
def isSignChar (b : Byte) : Bool := decide (b.toNat = '+'.toNat ∨ b.toNat = '-'.toNat)

/-- a character of a floating point literal -/
def isLitChar (b : Byte) : Bool := isDigit b || isSignChar b || decide (b.toNat = '.'.toNat ∨ b.toNat = 'e'.toNat ∨ b.toNat = 'E'.toNat)

/-- The first signed integer in a piece of text: at the first digit or sign, which the digits have to follow.  The text must not
start with a sign (in `1 2-5` the sign belongs to no weight). -/
def signedIn (text : List Byte) : Option Int :=
  if text.head?.any isSignChar then none
  else match text.dropWhile (fun b => !(isDigit b || isSignChar b)) with
    | [] => none
    | c :: t => parseSigned (c :: t.takeWhile isDigit)

/-- The first floating point literal in a piece of text: the characters from the first one that can be part of a literal to the
next one that cannot. -/
def litIn (text : List Byte) : Option Lit := parseLit ((text.dropWhile (fun b => !isLitChar b)).takeWhile isLitChar)

/-- The first two integers of a line and what `parse` finds in the text after them. -/
noncomputable def entryIn {W : Type} (parse : List Byte → Option W) (line : List Byte) : Option (Nat × Nat × W) :=
  match ints line with
  | x :: y :: _ => (parse (afterLabels line)).map (fun v => (x, y, v))
  | _ => none

/-- A line with a signed integer weight among other text. -/
noncomputable def entryInS (line : List Byte) : Option (Nat × Nat × Int) := entryIn signedIn line

/-- A line with a floating point weight among other text. -/
noncomputable def entryInF {W : Type} (val : Lit → W) (line : List Byte) : Option (Nat × Nat × W) :=
  entryIn (fun t => (litIn t).map val) line

/-- A line without weight. -/
noncomputable def entry0 (line : List Byte) : Option (Nat × Nat × Unit) :=
  (edge line).map (fun e => (e.1, e.2, ()))

/-- A well-formed list of entries: every line is blank or has an entry, the text after the last newline is
blank. -/
structure FileOk {E : Type} (entry : List Byte → Option E) (file : List Byte) : Prop where
  line : ∀ l ∈ lines file, ints l = [] ∨ (entry l).isSome
  last : ints ((lines file).getLast (lines_ne_nil file)) = []

/-- The entries of a file, in file order; lines without integers are skipped. -/
noncomputable def entries {E : Type} (entry : List Byte → Option E) (file : List Byte) : List E :=
  (lines file).filterMap (fun l => if ints l = [] then none else entry l)

end Pigo.Spec
