import Verif.PTree.Spec
import Verif.Util.Text

/-!
# The table of patterns returned by `PeriodicPatternMiner.transform` (C104)

Source: `/repo/skmine/periodic/pattern.py`, `/repo/skmine/periodic/pattern_collection.py` and `/repo/skmine/periodic/cycles.py`. Times are integers. Every inner node of a pattern has its repetition and its period.
-/

set_option autoImplicit false

namespace Verif.Display

open Verif.PTree Verif.Text

variable {α : Type}

/-- `"[r=%s p=%s]" % (r, p)`, `/repo/skmine/periodic/pattern.py:911-916`; `tm` prints a time. -/
def rp (tm : ℤ → List Char) (r : ℕ) (p : ℤ) : List Char := '[' :: 'r' :: '=' :: (showNat r ++ ' ' :: 'p' :: '=' :: (tm p ++ [']']))

mutual
/-- `Pattern.__str__`, `/repo/skmine/periodic/pattern.py:886-933`: `name` is the printed name of an event, `tm` prints a time, `lf` is `leaves_first`. -/
def text (lf : Bool) (name : α → List Char) (tm : ℤ → List Char) : PTree.Tree α → List Char
  | .leaf ev => name ev
  | .node r p ch => if lf then '(' :: (textF lf name tm true ch ++ ')' :: rp tm r p) else rp tm r p ++ '(' :: (textF lf name tm true ch ++ [')'])
/-- The loop over the children, `/repo/skmine/periodic/pattern.py:918-925`; the flag is `ni == 0`. -/
def textF (lf : Bool) (name : α → List Char) (tm : ℤ → List Char) : Bool → Forest α → List Char
  | _, .nil => []
  | first, .cons d t rest => (if first then [] else ' ' :: '[' :: 'd' :: '=' :: (tm d ++ [']', ' '])) ++ (text lf name tm t ++ textF lf name tm false rest)
end

/-- `timedelta(microseconds=x / 1000)`, `/repo/skmine/periodic/pattern.py:914-915, 922-923`: the number of microseconds, rounded half to even (library function of Python). The division is exact here, a float in the code. -/
def micro (x : ℤ) : ℤ :=
  let q := x / 1000
  let m := x % 1000
  if m < 500 then q else if 500 < m then q + 1 else if q % 2 = 0 then q else q + 1

/-- `"%0wd" % n` for `n < 10 ^ w` (library function of Python). -/
def pad : ℕ → ℕ → List Char
  | 0, _ => []
  | w + 1, n => pad w (n / 10) ++ [digitChar (n % 10)]

/-- The days of a printed duration (library function of Python). -/
def dayText (d : ℤ) : List Char :=
  if d = 0 then [] else showInt d ++ (if d = 1 ∨ d = -1 then [' ', 'd', 'a', 'y', ',', ' '] else [' ', 'd', 'a', 'y', 's', ',', ' '])

/-- The microseconds of a printed duration (library function of Python). -/
def fracText (f : ℕ) : List Char := if f = 0 then [] else '.' :: pad 6 f

/-- `str` of a `timedelta` of so many microseconds (library function of Python). -/
def deltaText (us : ℤ) : List Char :=
  let d := us / 86400000000
  let rest := (us % 86400000000).toNat
  let s := rest / 1000000
  dayText d ++ (showNat (s / 3600) ++ ':' :: (pad 2 (s / 60 % 60) ++ ':' :: (pad 2 (s % 60) ++ fracText (rest % 1000000))))

/-- How times are printed, `/repo/skmine/periodic/pattern.py:913-916, 921-924`: durations when the index has dates, after multiplication by the factor `k` taken out by the scaling; otherwise the integers of the pattern as they are. -/
def timeText (dates : Bool) (k : ℤ) (x : ℤ) : List Char := if dates then deltaText (micro (x * k)) else showInt x

/-- A selected pattern with its start and its corrections, `/repo/skmine/periodic/pattern_collection.py:205`, in the unit of the mining. -/
structure Mined (α : Type) where
  r : ℕ
  p : ℤ
  ch : Forest α
  t0 : ℤ
  E : List ℤ

/-- The tree of the pattern, `/repo/skmine/periodic/pattern.py:160-180`. -/
def Mined.tree (m : Mined α) : PTree.Tree α := .node m.r m.p m.ch

/-- A row of the table. -/
structure TRow where
  t0 : ℤ
  pattern : List Char
  rep : ℕ
  period : ℤ
  E : List ℤ
  deriving DecidableEq

/-- A row before it is rescaled, `output_pattern_list_and_cost`, `/repo/skmine/periodic/pattern_collection.py:205-228`; `k` is `10 ** n_zeros * div_nb_sec`. The column with the tree is dropped by `transform`. -/
def baseRow (dates : Bool) (k : ℤ) (name : α → List Char) (m : Mined α) : TRow := ⟨m.t0, text true name (timeText dates k) m.tree, m.r, m.p, m.E⟩

/-- The rescaling of a row, `/repo/skmine/periodic/cycles.py:212-222`. -/
def rescale (dates : Bool) (k : ℤ) (x : TRow) : TRow := { x with t0 := x.t0 * k, period := x.period * k, E := if dates then x.E.map (· * k) else x.E }

/-- `transform` with `dE_sum=False` and `chronological_order=False` after a fit with `auto_time_scale=True`, `/repo/skmine/periodic/cycles.py:201-233`, on the selected patterns. -/
def transform (dates : Bool) (k : ℤ) (name : α → List Char) (ms : List (Mined α)) : List TRow := ms.map (fun m => rescale dates k (baseRow dates k name m))

/-- The column `sum_E`, `/repo/skmine/periodic/cycles.py:223-225`. -/
def TRow.sumE (x : TRow) : ℤ := (x.E.map (fun e => (e.natAbs : ℤ))).sum

end Verif.Display
