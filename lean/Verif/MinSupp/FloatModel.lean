import Mathlib.Data.Int.Log
import Mathlib.Algebra.Order.Ring.Rat
import Mathlib.Data.Rat.Floor

/-!
# Rounding to double precision

The numbers of Python's `float`, as far as the relative threshold of `LCM` needs them.
-/

set_option autoImplicit false

namespace Verif.MinSupp

/-- The nearest integer, ties to the even one. -/
def halfEven (y : ℚ) : ℤ :=
  if y - ⌊y⌋ < 1 / 2 then ⌊y⌋ else if 1 / 2 < y - ⌊y⌋ then ⌊y⌋ + 1 else if ⌊y⌋ % 2 = 0 then ⌊y⌋ else ⌊y⌋ + 1

/-- The spacing of doubles around `x`: 53 significant bits. -/
def ulp (x : ℚ) : ℚ := (2 : ℚ) ^ (Int.log 2 x - 52)

/-- Round to nearest double, ties to even (IEEE 754), for `x ≥ 0`. Simplification: exponents are unbounded, there are neither subnormal numbers nor overflow; the numbers of `relThreshold` are between `2 ^ -53` and `2 ^ 53`. -/
def dbl (x : ℚ) : ℚ := if 0 < x then halfEven (x / ulp x) * ulp x else 0

/-- `self.min_supp * n_transactions_`, `/repo/skmine/itemsets/lcm.py:121-122`, for `min_supp = s / n` and `n` transactions: Python rounds the quotient of integers and the product to the nearest double; `n` itself is a double when `n < 2 ^ 53`. -/
def relThreshold (s n : ℕ) : ℚ := dbl (dbl (s / n) * n)

end Verif.MinSupp
