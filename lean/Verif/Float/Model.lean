import Verif.MinSupp.FloatModel

/-!
# Rounding to double precision, with a sign

The rounding of C128 for negative numbers too.
-/

set_option autoImplicit false

namespace Verif.Float

/-- Round to nearest double, ties to even (IEEE 754). Simplification: exponents are unbounded, there are neither subnormal numbers nor overflow. -/
def fl (x : ℚ) : ℚ := if x < 0 then -MinSupp.dbl (-x) else MinSupp.dbl x

end Verif.Float
