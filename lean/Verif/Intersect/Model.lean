import Verif.Util.SortSet
import Mathlib.Data.Finset.Dedup

/-!
# Model of `intersect2d`

Source: `/repo/skmine/utils.py:155-192`. Values are in a linear order (no `NaN`). Both arrays have the same, positive, number of columns: a
row is its first value and the list of the others.
-/

set_option autoImplicit false

namespace Verif.Intersect

variable {α : Type*} [LinearOrder α]

/-- A row with at least one column. -/
abbrev Row (α : Type*) := α × List α

/-- First index of a value of the first column, as returned by `np.unique(..., return_index=True)`. -/
def firstIdx (ar : List (Row α)) (v : α) : ℕ := ar.findIdx (fun r => r.1 = v)

/-- `np.intersect1d(ar1[:, 0], ar2[:, 0], return_indices=True)`, `/repo/skmine/utils.py:183`: the sorted common values with the
index of their first occurrences. -/
def intersect1d (ar1 ar2 : List (Row α)) : List (ℕ × ℕ) :=
  (sortSet ((ar1.map Prod.fst).toFinset ∩ (ar2.map Prod.fst).toFinset)).map (fun v => (firstIdx ar1 v, firstIdx ar2 v))

/-- `intersect2d`, `/repo/skmine/utils.py:155-192`, as a list of (row of `ar1`, index in `ar1`, index in `ar2`). -/
def intersect2d (ar1 ar2 : List (Row α)) : List (Row α × ℕ × ℕ) :=
  (intersect1d ar1 ar2).filterMap (fun p =>
    match ar1[p.1]?, ar2[p.2]? with
    | some x, some y => if x = y then some (x, p) else none
    | _, _ => none)

end Verif.Intersect
