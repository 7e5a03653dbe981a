import Mathlib.Data.Finset.Card
import Mathlib.Data.List.Sort

/-!
# Model of `filter_maximal` and `filter_minimal`

Source: `/repo/skmine/utils.py`.
-/

set_option autoImplicit false

namespace Verif.Filter

variable {α : Type*}

/-- `SortedList(key=len).add(x)` (library `sortedcontainers`, used in `/repo/skmine/utils.py:58,64,81,87`):
`x` is inserted after every element whose key is less than or equal to its own (bisect right).
Simplification: the list of lists used internally by `SortedList` is a flat list. -/
def sortedAdd (x : Finset α) : List (Finset α) → List (Finset α)
  | [] => [x]
  | y :: ys => if x.card < y.card then x :: y :: ys else y :: sortedAdd x ys

/-- Loop body of `filter_maximal`, `/repo/skmine/utils.py:60-64`. `maximals.irange(itemset_set)` enumerates the
elements whose key (length) is at least the length of `itemset_set`. -/
def maximalStep [DecidableEq α] (maximals : List (Finset α)) (itemset : Finset α) : List (Finset α) :=
  let gts := maximals.filter (fun e => itemset.card ≤ e.card)
  if gts.any (fun e => itemset ⊂ e) then maximals else sortedAdd itemset maximals

/-- `filter_maximal`, `/repo/skmine/utils.py:46-66`. `sorted(itemsets, key=len, reverse=True)` is a stable sort by
decreasing length: any stable sort gives the same list, insertion sort is used here. Itemsets are sets, so that
Python's `>` is strict inclusion (it is called with sets in `lcm.py:363` and `mbdldorber.py:68`). -/
def filterMaximal [DecidableEq α] (itemsets : List (Finset α)) : List (Finset α) :=
  (itemsets.insertionSort (fun a b => b.card ≤ a.card)).foldl maximalStep []

/-- Loop body of `filter_minimal`, `/repo/skmine/utils.py:83-87`. `minimals.irange(None, iset)` enumerates the elements
whose key (length) is at most the length of `iset`. -/
def minimalStep [DecidableEq α] (minimals : List (Finset α)) (iset : Finset α) : List (Finset α) :=
  let lts := minimals.filter (fun e => e.card ≤ iset.card)
  if lts.any (fun e => e ⊂ iset) then minimals else sortedAdd iset minimals

/-- `filter_minimal`, `/repo/skmine/utils.py:69-89`. Simplifications as for `filterMaximal`. -/
def filterMinimal [DecidableEq α] (itemsets : List (Finset α)) : List (Finset α) :=
  (itemsets.insertionSort (fun a b => a.card ≤ b.card)).foldl minimalStep []

end Verif.Filter
