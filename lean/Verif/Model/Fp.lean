import Verif.Model.Coo

/-!
# Reading floating point numbers (impl/pigo.impl.hpp 326–367) and floating point weights

The arithmetic of the floating point type is a parameter `FpOps`: the operations the code performs, each
with whatever rounding the hardware and `std::pow` do.
-/

namespace Pigo

/-- The floating point operations used by `read_fp` (impl/pigo.impl.hpp 326–367). -/
structure FpOps (V : Type) where
  /-- `0.0` (line 329, 350) -/
  zero : V
  /-- `res*10. + (T)(*d-'0')` (lines 344, 354) -/
  digit : V → Nat → V
  /-- `res += fraction / std::pow(10., fraction_count)` (line 358) -/
  addFrac : V → V → Nat → V
  /-- `res *= std::pow(10., exp)` (line 363) -/
  scale : V → V → V
  /-- `res *= -1` (line 365) -/
  neg : V → V

variable {V : Type} (μ : Mapping) (ops : FpOps V)

/-- The digit loops of `read_fp` (impl/pigo.impl.hpp 343–346, 353–357), also counting the digits. -/
def fpDigitsN : Nat → V → Nat → Reader → M (V × Nat × Reader)
  | 0, res, k, r => .ok (res, k, r)
  | n+1, res, k, r =>
    if r.d < r.e then do
      let b ← μ.get r.d
      if isDigit b then fpDigitsN n (ops.digit res (digitVal b)) (k+1) r.adv
      else .ok (res, k, r)
    else .ok (res, k, r)

/-- `if (*d == '-') { positive = false; ++d; } else if (*d == '+') ++d;` (impl/pigo.impl.hpp 334–337);
the load is unguarded.  Returns whether the sign is negative. -/
def fpSign (r : Reader) : M (Bool × Reader) := do
  let b ← μ.get r.d
  if b == 45 then .ok (true, r.adv) else if b == 43 then .ok (false, r.adv) else .ok (false, r)

/-- The fractional part (impl/pigo.impl.hpp 348–359); the load is unguarded. -/
def fpFrac (res : V) (r : Reader) : M (V × Reader) := do
  let b ← μ.get r.d
  if b == 46 then do
    let r := r.adv
    let (fr, k, r) ← fpDigitsN μ ops (r.e - r.d) ops.zero 0 r
    .ok (ops.addFrac res fr k, r)
  else .ok (res, r)

/-- `read_fp<T>()` (impl/pigo.impl.hpp 326–367).  The recursion for the exponent (line 362) is bounded by
the counter; every recursive call is preceded by `++d`. -/
def readFpN : Nat → Reader → M (V × Reader)
  | 0, _ => .error .fuel
  | n+1, r => do
    let r ← scan μ (fun b => !isFp b) r
    let (neg, r) ← fpSign μ r
    let (res, _, r) ← fpDigitsN μ ops (r.e - r.d) ops.zero 0 r
    let (res, r) ← fpFrac μ ops res r
    let b ← μ.get r.d
    let (res, r) ← if b == 101 || b == 69 then do
        let (ex, r) ← readFpN n r.adv
        .ok (ops.scale res ex, r)
      else .ok (res, r)
    .ok (if neg then ops.neg res else res, r)

/-- `read_fp<T>()` (impl/pigo.impl.hpp 326–367) -/
def readFp (r : Reader) : M (V × Reader) := readFpN μ ops (r.e - r.d + 2) r

/-- Floating point weights (impl/coo.impl.hpp 182–201). -/
def wFp : WKind V where
  wgt := true
  count := fun μ r => do
    let r ← moveToFp μ r
    moveToNonFp μ r
  read := fun μ r => do
    let r ← moveToFp μ r
    let (v, r) ← readFp μ ops r
    let r ← moveToNonFp μ r
    .ok (v, r)

end Pigo
