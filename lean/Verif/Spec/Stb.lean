import Verif.Spec.Ascii
import Mathlib.Algebra.Order.Field.Rat
import Mathlib.Algebra.Order.Floor.Semiring
import Mathlib.Data.Rat.Floor

/-!
# Specification: numbers with six decimals
-/

namespace Pigo.Spec

/-- The decimal digits of `N`, with leading zeros up to at least seven. -/
def atLeast7 (N : Nat) : List Byte := List.replicate (7 - (showNat N).length) 48 ++ showNat N

/-- `N / 10^6` in decimal: all digits of `N` but the last six (at least one), a point, the last six digits. -/
def fixed6 (N : Nat) : List Byte :=
  (atLeast7 N).take ((atLeast7 N).length - 6) ++ str "." ++ (atLeast7 N).drop ((atLeast7 N).length - 6)

/-- With a sign. -/
def signed6 (neg : Bool) (N : Nat) : List Byte := (if neg then str "-" else []) ++ fixed6 N

/-- Rounding half up. -/
def roundHalfUp (x : ℚ) : Nat := ⌊x + 1 / 2⌋₊

/-- The absolute value of the double with the 64 bit pattern `v` (IEEE 754 binary64, not infinite or NaN): sign in bit
63, biased exponent in bits 52–62, fraction in bits 0–51. -/
def dblAbs (v : Nat) : ℚ :=
  if v / 2 ^ 52 % 2048 = 0 then (v % 2 ^ 52 : Nat) * (2 : ℚ) ^ (-1074 : ℤ)
  else ((2 ^ 52 + v % 2 ^ 52 : Nat) : ℚ) * (2 : ℚ) ^ (((v / 2 ^ 52 % 2048 : Nat) : ℤ) - 1075)

/-- Neither infinite nor NaN. -/
def IsFinite (v : Nat) : Prop := v / 2 ^ 52 % 2048 ≠ 2047

end Pigo.Spec
