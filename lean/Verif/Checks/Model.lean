import Mathlib.Data.List.Basic

/-!
# The checks of tables (C158)

Source: `/repo/skmine/utils.py:110-135`. A table is the list of its columns. Of a value only matters whether it is missing, infinite or neither.
`pd.options.mode.use_inf_as_na` is a global option of pandas that every program of the process sees.
-/

set_option autoImplicit false

namespace Verif.Checks

/-- A value of a table. -/
inductive Cell where
  | value
  | infinite
  | missing
  deriving DecidableEq

/-- A column: whether its dtype is `object`, and its values. -/
structure Column where
  isObject : Bool
  cells : List Cell

/-- The outcomes of a check. -/
inductive Verdict where
  | accepted
  | typeError
  | valueError
  deriving DecidableEq

/-- `isnull` of one value, given the global option: infinite values count as missing when it is set (documentation of pandas). -/
def isnull (option : Bool) : Cell → Bool
  | .value => false
  | .infinite => option
  | .missing => true

/-- `D.isnull().values.any()`, `/repo/skmine/utils.py:118`. -/
def anyNull (option : Bool) (tab : List Column) : Bool := tab.any (fun c => c.cells.any (isnull option))

/-- `_check_D_sklearn(D)`, `/repo/skmine/utils.py:110-120`: the verdict and the option afterwards. The option is set before the test for missing
values, and taken back after it, which is not reached when the test raises. -/
def checkTable (option : Bool) (tab : List Column) : Verdict × Bool :=
  if tab.any (fun c => c.isObject) then (.typeError, option)
  else if tab.length = 0 then (.valueError, option)
  else if anyNull true tab then (.valueError, true)
  else (.accepted, false)

/-- What a program does: it sets the option, or gives a table to `fit` or `cover` (`/repo/skmine/itemsets/slim.py:462, 631`). -/
inductive Call where
  | setOption (b : Bool)
  | check (tab : List Column)

/-- One call: the option afterwards, and the verdict of a check. -/
def call (option : Bool) : Call → Bool × Option Verdict
  | .setOption b => (b, none)
  | .check tab => ((checkTable option tab).2, some (checkTable option tab).1)

/-- The option after some calls, and the verdicts of the checks in their order. -/
def run (option : Bool) : List Call → Bool × List Verdict
  | [] => (option, [])
  | c :: cs =>
    let r := call option c
    let rest := run r.1 cs
    (rest.1, r.2.toList ++ rest.2)

end Verif.Checks
