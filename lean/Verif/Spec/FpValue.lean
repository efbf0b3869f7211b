import Verif.Spec.Fp
import Mathlib.Algebra.Order.Field.Rat
import Mathlib.Algebra.GroupWithZero.Basic

/-!
# Specification: the number a decimal literal denotes
-/

namespace Pigo.Spec

/-- The characters of decimal literals: digits, `e`, `E`, `-`, `+`, `.` -/
def isNumChar (b : Byte) : Bool :=
  isDigit b || decide (b.toNat = 'e'.toNat ∨ b.toNat = 'E'.toNat ∨ b.toNat = '-'.toNat ∨
    b.toNat = '+'.toNat ∨ b.toNat = '.'.toNat)

/-- `±1` -/
def Sign.factor (s : Sign) : ℚ := if s.neg then -1 else 1

/-- The integer a signed exponent denotes. -/
def expValue : Option (Bool × Sign × List Byte) → ℤ
  | none => 0
  | some (_, s, ds) => if s.neg then -(decimal ds : ℤ) else (decimal ds : ℤ)

/-- The digits after the point denote a fraction of `10 ^ (number of digits)`. -/
def fracValue : Option (List Byte) → ℚ
  | none => 0
  | some f => (decimal f : ℚ) / 10 ^ f.length

/-- The number a literal denotes: sign × (integer part + fractional part) × 10 ^ exponent. -/
def Lit.value (l : Lit) : ℚ :=
  l.sign.factor * ((decimal l.int : ℚ) + fracValue l.frac) * (10 : ℚ) ^ expValue l.exp

end Pigo.Spec
