import Verif.Spec.Text

/-!
# Specification: files without large numbers
-/

namespace Pigo.Spec

/-- Every string of digits in the file denotes a number below `k`. -/
def NumbersBelow (k : Nat) (file : List Byte) : Prop :=
  ∀ t, t <:+: file → (∀ b ∈ t, isDigit b = true) → decimal t < k

/-- The numbers in the file, plus one, and four times the bytes the `T` threads read fit signed label and ordinal types of
`lw` and `ow` bits. -/
structure SignedFit (file : List Byte) (lw ow T : Nat) : Prop where
  numbers : ∃ k, NumbersBelow k file ∧ k + 1 < 2 ^ (lw - 1) ∧ 2 * k ≤ 2 ^ (ow - 1)
  ordinals : 4 * ((T + 1) * (file.length + 1)) < 2 ^ (ow - 1)

end Pigo.Spec
