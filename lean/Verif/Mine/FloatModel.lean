import Verif.Mine.Model
import Verif.Float.Model
import Mathlib.Algebra.Order.Floor.Defs
import Mathlib.Data.Rat.Floor

/-!
# The period of a cycle in floating point (C142)
-/

set_option autoImplicit false

namespace Verif.Mine

open Verif.Float (fl)

/-- `computePeriodDiffs`, `/repo/skmine/periodic/class_patterns.py:28-45`, on integers of type `int64`: `numpy.median` converts the middle value, or the middle two, to doubles and takes their mean in doubles; `numpy.floor`, then `int`. -/
def periodFloat (ds : List ℤ) : Option ℤ :=
  let s := ds.insertionSort (· ≤ ·)
  if s.length % 2 = 1 then s[s.length / 2]?.map (fun x : ℤ => ⌊fl (x : ℚ)⌋)
  else
    match s[s.length / 2 - 1]?, s[s.length / 2]? with
    | some a, some b => some ⌊fl (fl (fl a + fl b) / 2)⌋
    | _, _ => none

/-- `computePeriod`, `/repo/skmine/periodic/class_patterns.py:48-67`, unsorted, with the median in doubles. The differences are exact (`int64`). -/
def computePeriodFloat (occs : List ℤ) : Option ℤ := periodFloat (diff occs)

end Verif.Mine
