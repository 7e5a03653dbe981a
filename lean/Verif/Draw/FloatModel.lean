import Verif.MinSupp.FloatModel
import Verif.Display.Model

/-!
# Dates and durations computed in floating point (C129)

Source: `/repo/skmine/periodic/pattern.py`, `/repo/skmine/periodic/cycles.py`. Times are nanoseconds, at least 0.
-/

set_option autoImplicit false

namespace Verif.Draw

open Verif.MinSupp

/-- `timedelta(microseconds=x / 1000)`, `/repo/skmine/periodic/pattern.py:915,923` and `/repo/skmine/periodic/cycles.py:461,468`: the quotient is a float; `timedelta` rounds it half to even (library function of Python). -/
def floatDelta (x : ℕ) : ℤ := halfEven (dbl (x / 1000))

/-- `datetime.utcfromtimestamp(x / 1_000_000_000)`, `/repo/skmine/periodic/cycles.py:475`, in microseconds: the quotient is a float; its fraction is multiplied by a million in floating point and rounded half to even (library function of
Python). -/
def floatStart (x : ℕ) : ℤ :=
  let d := dbl (x / 10 ^ 9)
  ⌊d⌋ * 10 ^ 6 + halfEven (dbl ((d - ⌊d⌋) * 10 ^ 6))

end Verif.Draw
