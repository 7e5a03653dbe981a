import Mathlib.Data.List.Dedup
import Mathlib.Data.List.Sort
import Mathlib.Data.Rat.Defs
import Mathlib.Data.Int.Notation
import Mathlib.Algebra.Order.Ring.Int
import Mathlib.Algebra.Order.Ring.Rat

/-!
# Descriptions of datasets (C168, C169)

Source: `/repo/skmine/datasets/utils.py`. Means are exact rationals (floats in the code, durations of pandas for dates); a missing number is `none`.
-/

set_option autoImplicit false

namespace Verif.Describe

/-- `Series.mean()`: not a number on no values. -/
def mean (l : List ℚ) : Option ℚ := if l = [] then none else some (l.sum / l.length)

/-- What `describe` returns, `/repo/skmine/datasets/utils.py:36-41`. -/
structure Desc where
  nItems : ℕ
  avgSize : Option ℚ
  nTransactions : ℕ
  density : Option ℚ
  deriving DecidableEq

/-- `describe(D)`, `/repo/skmine/datasets/utils.py:33-41`. The quotient is one of numpy floats: `0 / 0` is not a number and does not raise; another number is never divided by 0 here. -/
def describe {α : Type*} [DecidableEq α] (D : List (List α)) : Desc :=
  let avg := mean (D.map (fun t => (t.length : ℚ)))
  let n := D.flatten.dedup.length
  ⟨n, avg, D.length, avg.bind (fun a => if n = 0 then none else some (a / n))⟩

variable {α : Type*} [LinearOrder α]

/-- `D.groupby(D.values)`, `/repo/skmine/datasets/utils.py:68`: the events in order with their times; rows without event are dropped (`dropna=True`). A series is the list of its rows, the time (the index) and the event. -/
def groups (S : List (ℤ × Option α)) : List (α × List ℤ) :=
  ((S.filterMap Prod.snd).dedup.insertionSort (· ≤ ·)).map (fun e => (e, (S.filter (fun r => r.2 = some e)).map Prod.fst))

/-- `df.index.max() - df.index.min()`, `/repo/skmine/datasets/utils.py:69`; a group is never empty. -/
def spanOf : List ℤ → ℤ
  | [] => 0
  | t :: ts => ts.foldl max t - ts.foldl min t

/-- What `describe_logs` returns, `/repo/skmine/datasets/utils.py:72-76`. -/
structure LogDesc where
  nEvents : ℕ
  avgDelta : ℚ
  avgPoints : ℚ
  deriving DecidableEq

/-- `describe_logs(D)`, `/repo/skmine/datasets/utils.py:68-76`; `none` when there is no event, a case which depends on what pandas does with no groups and is not modelled. -/
def describeLogs (S : List (ℤ × Option α)) : Option LogDesc :=
  let gb := groups S
  match mean (gb.map (fun g => (spanOf g.2 : ℚ))), mean (gb.map (fun g => (g.2.length : ℚ))) with
  | some d, some p => some ⟨gb.length, d, p⟩
  | _, _ => none

end Verif.Describe
