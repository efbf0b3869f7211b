import Verif.Base.Blocks
import Verif.Model.Reader

/-!
# Printing integers (impl/pigo.impl.hpp 188–293)

A write function is modelled by the list of byte stores it does, in program order, and the new file position.
-/

namespace Pigo

/-- The loop of `write_size` for an unsigned or non-negative value (impl/pigo.impl.hpp 247–250):
`do { obj /= 10; ++res; } while (obj != 0);` (counter: `obj + 1` iterations suffice) -/
def sizeLoop : Nat → Nat → Nat
  | 0, _ => 0
  | f+1, n => if n / 10 = 0 then 1 else sizeLoop f (n / 10) + 1

/-- `write_size(obj)` for unsigned `obj` (impl/pigo.impl.hpp 239–252, `neg_size` 188–194). -/
def writeSizeU (n : Nat) : Nat := sizeLoop (n + 1) n

/-- The loop of `write_size` for a signed value; `/` truncates towards zero. -/
def sizeLoopS : Nat → Int → Nat
  | 0, _ => 0
  | f+1, z => if z.tdiv 10 = 0 then 1 else sizeLoopS f (z.tdiv 10) + 1

/-- `write_size(obj)` for signed `obj` (impl/pigo.impl.hpp 239–252, `neg_size` 196–201). -/
def writeSizeS (z : Int) : Nat := (if z < 0 then 1 else 0) + sizeLoopS (z.natAbs + 1) z

/-- The digit loop of `write_ascii` (impl/pigo.impl.hpp 286–291): stores from the last digit to the first.
`p` is the position `fp+pos`. -/
def digitLoop : Nat → Nat → Nat → List (Nat × Byte)
  | 0, _, _ => []
  | f+1, p, n => (p, UInt8.ofNat (n % 10 + 48)) :: if n / 10 = 0 then [] else digitLoop f (p - 1) (n / 10)

/-- `write_ascii(fp, obj)` for unsigned `obj` (impl/pigo.impl.hpp 276–293). -/
def writeAsciiU (fp n : Nat) : List (Nat × Byte) × Nat :=
  (digitLoop (n + 1) (fp + (writeSizeU n - 1)) n, fp + writeSizeU n)

/-- `get_positive(obj)` for a signed type of `w` bits (impl/pigo.impl.hpp 220–226).  Negating the smallest value
overflows (for types narrower than `int` the C++ result wraps to the same negative value and garbage is printed;
also modelled as a fault). -/
def getPositive (w : Nat) (z : Int) : M Nat :=
  if z < 0 then (if z.natAbs < 2 ^ (w - 1) then .ok z.natAbs else .error .overflow) else .ok z.toNat

/-- `write_ascii(fp, obj)` for signed `obj` of `w` bits (impl/pigo.impl.hpp 276–293, `write_neg_ascii` 209–213). -/
def writeAsciiS (w fp : Nat) (z : Int) : M (List (Nat × Byte) × Nat) := do
  let neg : List (Nat × Byte) := if z < 0 then [(fp, 45)] else []
  let fp := if z < 0 then fp + 1 else fp
  let n ← getPositive w z
  let (acts, fp') := writeAsciiU fp n
  .ok (neg ++ acts, fp')

end Pigo
