import Mathlib.Algebra.Order.Ring.Rat
import Mathlib.Data.Int.Notation

/-!
# Model of the validation of supports and growth rates

Source: `/repo/skmine/utils.py` and `/repo/skmine/itemsets/lcm.py`.
-/

set_option autoImplicit false

namespace Verif.MinSupp

/-- A Python `float`. Finite values are modelled by the rational they denote. -/
inductive PyFloat where
  | nan
  | negInf
  | posInf
  | fin (q : ℚ)

/-- `x < y` for floats and a finite right operand: false on `nan`. -/
def PyFloat.ltQ : PyFloat → ℚ → Bool
  | nan, _ => false
  | negInf, _ => true
  | posInf, _ => false
  | fin q, y => q < y

/-- `x > y` for floats and a finite right operand: false on `nan`. -/
def PyFloat.gtQ : PyFloat → ℚ → Bool
  | nan, _ => false
  | negInf, _ => false
  | posInf, _ => true
  | fin q, y => y < q

/-- A Python value given as minimum support. `bool` is a subclass of `int` and counts as `int`; numpy integers are not
instances of `int` and count as `other`. -/
inductive PyVal where
  | int (z : ℤ)
  | float (f : PyFloat)
  | other

/-- The exceptions raised. -/
inductive PyErr where
  | valueError
  | typeError
  deriving DecidableEq

/-- `_check_min_supp`, `/repo/skmine/utils.py:26-36`. -/
def checkMinSupp (v : PyVal) (acceptAbsolute : Bool := true) : Except PyErr Unit :=
  match v with
  | .int z =>
    if !acceptAbsolute then .error .valueError
    else if z < 1 then .error .valueError
    else .ok ()
  | .float f => if f.ltQ 0 || f.gtQ 1 then .error .valueError else .ok ()
  | .other => .error .typeError

/-- `_check_growth_rate`, `/repo/skmine/utils.py:39-43`, on numbers: `not gr > 1` raises. -/
def checkGrowthRate (v : PyVal) : Except PyErr PyVal :=
  match v with
  | .int z => if ¬ (z > 1) then .error .valueError else .ok v
  | .float f => if !f.gtQ 1 then .error .valueError else .ok v
  | .other => .error .typeError

/-- `x * n` for a float and an integer, rounded by `rnd` when finite. -/
def PyFloat.mulNat (rnd : ℚ → ℚ) : PyFloat → ℕ → PyFloat
  | nan, _ => nan
  | negInf, n => if n = 0 then nan else negInf
  | posInf, n => if n = 0 then nan else posInf
  | fin q, n => fin (rnd (q * n))

/-- `self.min_supp_` computed in `LCM.fit` after the check, `/repo/skmine/itemsets/lcm.py:120-124`. `rnd` is the rounding of
the floating point product. -/
def threshold (rnd : ℚ → ℚ) (v : PyVal) (nTransactions : ℕ) : Except PyErr PyVal := do
  checkMinSupp v
  match v with
  | .float f => pure (.float (f.mulNat rnd nTransactions))
  | v => pure v

end Verif.MinSupp
