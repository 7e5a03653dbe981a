import Mathlib.Data.Int.Notation
import Mathlib.Data.Nat.Notation
import Mathlib.Data.List.Count
import Mathlib.Algebra.Order.Group.Int
import Mathlib.Algebra.Order.Group.Abs
import Mathlib.Algebra.BigOperators.Group.List.Basic

/-!
# Medians and errors

Written without reference to the model.
-/

set_option autoImplicit false

namespace Verif.Mine

/-- The smallest value that at least half of the list does not exceed. -/
def LowerMedian (ds : List ℤ) (x : ℤ) : Prop := x ∈ ds ∧ 2 * ds.countP (· < x) < ds.length ∧ ds.length ≤ 2 * ds.countP (· ≤ x)

/-- The largest value that at least half of the list reaches. -/
def UpperMedian (ds : List ℤ) (x : ℤ) : Prop := x ∈ ds ∧ 2 * ds.countP (x < ·) < ds.length ∧ ds.length ≤ 2 * ds.countP (x ≤ ·)

/-- Sum of the distances to `q`. -/
def err (ds : List ℤ) (q : ℤ) : ℤ := (ds.map (fun d => |d - q|)).sum

/-- Gaps between consecutive times. -/
def gaps (occs : List ℤ) : List ℤ := (occs.zip occs.tail).map (fun x => x.2 - x.1)

end Verif.Mine
