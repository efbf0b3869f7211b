import Verif.Model.Fp
import Verif.Spec.Ieee

/-!
# The arithmetic of `read_fp<double>` (impl/pigo.impl.hpp 326–367)

Rationals stand for doubles (zeros are not distinguished by sign); `rnd` rounds after every operation, `pow x` is what
`std::pow(10., x)` returns.
-/

namespace Pigo

/-- The operations of `read_fp<double>` (impl/pigo.impl.hpp 326–367): `res*10. + digit` (344, 354) rounds the product and the
sum, `res += fraction / std::pow(10., fraction_count)` (358) the quotient and the sum, `res *= std::pow(10., exp)` (363) and
`res *= -1` (365) the product.  The largest exponent is left open (no overflow to infinity). -/
def doubleOps (rnd pow : ℚ → ℚ) : FpOps ℚ where
  zero := 0
  digit r d := rnd (rnd (r * 10) + d)
  addFrac r f k := rnd (r + rnd (f / pow k))
  scale r x := rnd (r * pow x)
  neg r := rnd (r * (-1))

end Pigo
