import Verif.Graph.SearchModel
import Mathlib.Data.Rat.Defs
import Mathlib.Algebra.Order.Ring.Rat

/-!
# The search of GraphMDL with the readings of its clock: model

Source: `/repo/skmine/graph/graphmdl/graph_mdl.py:67-180`. `SearchModel` takes the check at the head of the loop for a new reading of the clock; here it is the variable `current` of the code, which keeps the last reading.
-/

set_option autoImplicit false

namespace Verif.Graph

variable {C K : Type} [DecidableEq C] [LinearOrder K]

/-- `current` at the head of the loop, `graph_mdl.py:98, 111, 121`: 0 before the first reading, then the last reading. After an end of the search that sets `stop` it is not read any more. -/
def lastReading (clock : ℕ → ℚ) (ticks : ℕ) : ℚ := if ticks = 0 then 0 else clock (ticks - 1)

/-- `_anytime_graph_mdl_with_timeout`, `graph_mdl.py:91-160`. `clock k` is the `k`-th value of `time.time() - begin`, `limit` is `_timeout`, `_stop_by_time` (`graph_mdl.py:162-180`) compares them. Without a timeout the clock is
not read, the model counts the readings all the same. The first argument bounds the number of steps, `none` when it is too small. -/
def clockSearch (env : SEnv C K) (clock : ℕ → ℚ) (limit : ℚ) : ℕ → SState C K → Option (Except String (SState C K))
  | 0, _ => none
  | n + 1, s =>
    if s.timeout && decide (limit < lastReading clock s.ticks) then some (.ok s)
    else
      let cands := env.gen s
      if s.timeout && decide (limit ≤ clock s.ticks) then some (.ok (searchEnd env { s with ticks := s.ticks + 1 }))
      else if cands = [] then some (.ok (searchEnd env { s with ticks := s.ticks + 1 }))
      else match testAll env (fun k => decide (limit ≤ clock k)) n cands cands { s with ticks := s.ticks + 1 } with
        | none => none
        | some (.error e) => some (.error e)
        | some (.ok (s2, true)) => some (.ok s2)
        | some (.ok (s2, false)) => clockSearch env clock limit n s2

/-- `fit`, `graph_mdl.py:67-89`. `_timeout` is only assigned if a timeout other than 0 is given. -/
def clockFit (env : SEnv C K) (clock : ℕ → ℚ) (limit : ℚ) (fuel : ℕ) (timeout : Bool) (s : SState C K) : Option (Except String (SState C K)) :=
  clockSearch env clock limit fuel (searchInit env timeout s)

end Verif.Graph
