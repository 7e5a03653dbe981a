import Mathlib.Data.Int.Notation
import Mathlib.Algebra.Order.Ring.Int

/-!
# The best entries of an ordered list (C171)

Source: `/repo/skmine/periodic/run_mine.py:344-363`. An entry is a key and a number; floats and infinite keys are left out.
-/

set_option autoImplicit false

namespace Verif.TopP

/-- `occ_ordc[i][0]` for `i` within the list. -/
def key (l : List (ℤ × ℤ)) (i : ℕ) : ℤ := (l.getD i (0, 0)).1

/-- `occ_ordc[i][1]` for `i` within the list. -/
def num (l : List (ℤ × ℤ)) (i : ℕ) : ℤ := (l.getD i (0, 0)).2

/-- The loop, `/repo/skmine/periodic/run_mine.py:359-360`. -/
def lastTie (l : List (ℤ × ℤ)) (n : ℕ) : ℕ :=
  if n + 1 < l.length ∧ key l n = key l (n + 1) then lastTie l (n + 1) else n
termination_by l.length - n

/-- `get_top_p(occ_ordc)`, `/repo/skmine/periodic/run_mine.py:356-363`. -/
def getTopP (l : List (ℤ × ℤ)) : ℤ × ℤ × ℤ :=
  if 2 < l.length ∧ key l 1 = key l 2 then
    let n := lastTie l 2
    if |num l 0 - num l n| > |num l 0 - num l 1| then (0, n, 1) else (0, 1, n)
  else (0, 1, -1)

end Verif.TopP
