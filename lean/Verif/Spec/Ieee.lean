import Mathlib.Algebra.Order.Field.Rat
import Mathlib.Algebra.Order.Field.Power
import Mathlib.Algebra.Order.Group.Unbundled.Abs
import Mathlib.Data.Rat.Floor

/-!
# Specification: IEEE 754 binary64 numbers and rounding to nearest
-/

namespace Pigo.Spec

/-- A finite double (normal, subnormal or zero; the largest exponent is left open): at most 53 bits times a power of two
not below `2^-1074`. -/
def IsDouble (x : ℚ) : Prop := ∃ m e : ℤ, |m| < 2 ^ 53 ∧ -1074 ≤ e ∧ x = m * (2 : ℚ) ^ e

/-- Rounding to nearest: the result is a double, and no double is closer.  How ties are broken is left open. -/
structure Rounding (rnd : ℚ → ℚ) : Prop where
  isDouble : ∀ x, IsDouble (rnd x)
  nearest : ∀ x y, IsDouble y → |rnd x - x| ≤ |y - x|

/-- What is assumed of `std::pow(10., x)`: powers of ten that are doubles are returned exactly, the others (in a range without
overflow and underflow) with an error of at most one unit in the last place. -/
structure PowOk (pow : ℚ → ℚ) : Prop where
  exact : ∀ k : Nat, k ≤ 22 → pow k = 10 ^ k
  close : ∀ x : ℤ, |x| ≤ 300 → |pow x - (10 : ℚ) ^ x| ≤ (10 : ℚ) ^ x / 2 ^ 52

end Pigo.Spec
