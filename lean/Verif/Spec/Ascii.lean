import Verif.Spec.Text

/-!
# Specification: printed numbers
-/

namespace Pigo.Spec

/-- The decimal representation, as Lean prints it. -/
def showNat (n : Nat) : List Byte := str (toString n)

/-- The decimal representation with a minus sign for negative numbers. -/
def showInt (z : Int) : List Byte := if z < 0 then str "-" ++ showNat z.natAbs else showNat z.natAbs

end Pigo.Spec
