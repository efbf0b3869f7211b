import Verif.Spec.Text

/-!
# Specification: decimal floating point literals
-/

namespace Pigo.Spec

/-- An optional sign: `none` no sign, `some true` a minus, `some false` a plus. -/
abbrev Sign := Option Bool

def Sign.text : Sign → List Byte
  | none => []
  | some true => str "-"
  | some false => str "+"

def Sign.neg : Sign → Bool
  | some true => true
  | _ => false

/-- A literal `[sign]digits[.digits][(e|E)[sign]digits]`; the digits before or after the point may be
missing (not both). -/
structure Lit where
  sign : Sign := none
  int : List Byte
  frac : Option (List Byte) := none
  exp : Option (Bool × Sign × List Byte) := none
  deriving DecidableEq

namespace Lit

/-- `.digits`, if present. -/
def fracText : Option (List Byte) → List Byte
  | none => []
  | some f => str "." ++ f

/-- `(e|E)[sign]digits`, if present; the first component tells whether `E` is upper case. -/
def expText : Option (Bool × Sign × List Byte) → List Byte
  | none => []
  | some (up, s, ds) => str (if up then "E" else "e") ++ (s.text ++ ds)

/-- How the literal is written. -/
def text (l : Lit) : List Byte := l.sign.text ++ (l.int ++ (fracText l.frac ++ expText l.exp))

/-- Well-formed: only digits, at least one digit in the significand and one in the exponent. -/
def Ok (l : Lit) : Prop :=
  l.int.all isDigit ∧ (∀ f, l.frac = some f → f.all isDigit) ∧
  (l.int ≠ [] ∨ ∃ f, l.frac = some f ∧ f ≠ []) ∧
  (∀ u s ds, l.exp = some (u, s, ds) → ds.all isDigit ∧ ds ≠ [])

end Lit

/-- Splits off an optional sign. -/
def takeSign : List Byte → Sign × List Byte
  | [] => (none, [])
  | c :: t =>
    if c.toNat = '-'.toNat then (some true, t)
    else if c.toNat = '+'.toNat then (some false, t) else (none, c :: t)

/-- Splits off an optional `.digits`. -/
def takeFrac : List Byte → Option (List Byte) × List Byte
  | [] => (none, [])
  | c :: t => if c.toNat = '.'.toNat then (some (t.takeWhile isDigit), t.dropWhile isDigit) else (none, c :: t)

/-- Parses a literal. -/
def parseLit (t : List Byte) : Option Lit :=
  let s := takeSign t
  let a := s.2.takeWhile isDigit
  let f := takeFrac (s.2.dropWhile isDigit)
  if a = [] ∧ (f.1 = none ∨ f.1 = some []) then none
  else match f.2 with
    | [] => some ⟨s.1, a, f.1, none⟩
    | c :: u =>
      let x := takeSign u
      if (c.toNat = 'e'.toNat ∨ c.toNat = 'E'.toNat) ∧ x.2 ≠ [] ∧ x.2.all isDigit then
        some ⟨s.1, a, f.1, some (decide (c.toNat = 'E'.toNat), x.1, x.2)⟩
      else none

end Pigo.Spec
