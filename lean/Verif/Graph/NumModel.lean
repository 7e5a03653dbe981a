import Mathlib.Data.Nat.Log
import Mathlib.Data.Nat.Choose.Basic
import Mathlib.Algebra.Field.Rat
import Mathlib.Algebra.Order.Ring.Rat

/-!
# Numeric helpers of GraphMDL: model

Source: `/repo/skmine/graph/graphmdl/utils.py:119-166`.
-/

set_option autoImplicit false

namespace Verif.Graph

/-- `binomial`, `utils.py:119-136`. `k > n / 2` is `2 * k > n`. The Python code computes with floats as soon as it divides: `rnd` is the rounding applied to the product `n * binomial(n - 1, k - 1)` and to the quotient; it is an
arbitrary function here. The arguments are natural numbers: for a negative `k` the Python recursion does not end. -/
def binomial (rnd : ℚ → ℚ) (n k : ℕ) : Except String ℚ :=
  if k > n then .error "ValueError"
  else if k = 0 then .ok 1
  else if 2 * k > n then binomial rnd n (n - k)
  else (binomial rnd (n - 1) (k - 1)).map (fun b => rnd (rnd (n * b) / k))
termination_by (n, k)
decreasing_by
  · exact Prod.Lex.right _ (by omega)
  · exact Prod.Lex.left _ _ (by omega)

/-- `universal_integer_encoding`, `utils.py:139-151`. The logarithms are exact: `math.floor(math.log2(x))` is the integer logarithm for `x < 2 ^ 48`, beyond which the float logarithm may round up to the next integer. -/
def universalInt (x : ℤ) : Except String ℕ :=
  if x < 1 then .error "ValueError"
  else .ok (Nat.log 2 x.toNat + 2 * Nat.log 2 (Nat.log 2 x.toNat + 1) + 1)

/-- `universal_integer_encoding_with0`, `utils.py:154-166`. -/
def universalInt0 (x : ℤ) : Except String ℕ :=
  if x < 0 then .error "ValueError"
  else universalInt (x + 1)

end Verif.Graph
