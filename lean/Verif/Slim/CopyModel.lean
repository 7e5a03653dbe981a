import Verif.Slim.TableModel

/-!
# Copies of SLIM objects and the time limit (C159)

Source: `/repo/skmine/itemsets/slim.py:135-138` (constructor), `782-783` (`__copy__`), `189-190` (the time limit of `fit`).
-/

set_option autoImplicit false

namespace Verif.Slim

variable {α V : Type*} [LinearOrder α] [LinearOrder V]

/-- The constructor arguments of `SLIM`, `/repo/skmine/itemsets/slim.py:135-138`; `items` is `[]` for `None`. -/
structure Args (α : Type*) where
  pruning : Bool := true
  maxTime : ℚ := -1
  items : List α := []

/-- `__copy__`, `/repo/skmine/itemsets/slim.py:782-783`: `SLIM(items=self.items, pruning=self.pruning)`. -/
def Args.copy (a : Args α) : Args α := { items := a.items, pruning := a.pruning }

/-- The test `self.max_time != -1 and time.time() - start > self.max_time`, `/repo/skmine/itemsets/slim.py:189`, in place of the outcome of the time
test; `elapsed i` are the seconds since the start at the end of turn `i`. -/
def timed (a : Args α) (elapsed : ℕ → ℚ) (O : Oracle α) : Oracle α :=
  { O with timeUp := fun i => decide (a.maxTime ≠ -1 ∧ a.maxTime < elapsed i) }

/-- `fit(D)` on a new object with the arguments `a`, `/repo/skmine/itemsets/slim.py:147-194`. -/
def fitArgs (a : Args α) (iter : Finset α → List α) (total : Table α → V) (initTotal : Sct α → V) (O : Oracle α) (elapsed : ℕ → ℚ) (fuel : ℕ)
    (D : List (List α)) : Option (Except Err (State α V)) :=
  fitLists ⟨a.items, a.pruning, iter, total, initTotal⟩ (timed a elapsed O) fuel D

end Verif.Slim
