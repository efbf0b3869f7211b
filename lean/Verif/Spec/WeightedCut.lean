import Verif.Spec.FpValue

/-!
# Lines that are cut
-/

namespace Pigo.Spec

/-- A line that ends within its entry or at the end of it: two labels, and after them nothing, or blanks and the beginning of a number
(or all of it). -/
def CutLine (line : List Byte) : Prop := ∃ a x b y c w, line = a ++ x ++ b ++ y ++ c ++ w ∧
  (∀ z ∈ a ++ b ++ c, isBlank z = true) ∧ (x ≠ [] ∧ ∀ z ∈ x, isDigit z = true) ∧ (y ≠ [] ∧ ∀ z ∈ y, isDigit z = true) ∧ b ≠ [] ∧
  (∀ z ∈ w, isNumChar z = true) ∧ (w = [] ∨ c ≠ [])

/-- The same for a signed integer weight: nothing, a sign, or a sign (or none) and digits. -/
def CutLineS (line : List Byte) : Prop := ∃ a x b y c sg ds, line = a ++ x ++ b ++ y ++ c ++ (sg ++ ds) ∧
  (∀ z ∈ a ++ b ++ c, isBlank z = true) ∧ (x ≠ [] ∧ ∀ z ∈ x, isDigit z = true) ∧ (y ≠ [] ∧ ∀ z ∈ y, isDigit z = true) ∧ b ≠ [] ∧
  (sg = [] ∨ sg = str "-" ∨ sg = str "+") ∧ (∀ z ∈ ds, isDigit z = true) ∧ (sg ++ ds = [] ∨ c ≠ [])

/-- Whatever digits are next to each other in the file, the number they make is less than `k`. -/
def DigitsBelow (k : Nat) (file : List Byte) : Prop := ∀ ds, ds <:+: file → (∀ z ∈ ds, isDigit z = true) → decimal ds < k

end Pigo.Spec
