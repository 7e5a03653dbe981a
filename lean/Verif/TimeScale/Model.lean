import Mathlib.Data.Int.Notation
import Mathlib.Data.Nat.Notation

/-!
# Model of the automatic time scaling (C33)

Source: `/repo/skmine/periodic/cycles.py:483-561`. Timestamps are integers; division and remainder by a positive number round down as in
numpy. The 64-bit bound plays no role since values only shrink.
-/

set_option autoImplicit false

namespace Verif.TimeScale

/-- Loop of `_shift_from_nano_to_sec`, `/repo/skmine/periodic/cycles.py:558-560`. The first argument is `9 - n_unit_shifted`. -/
def shiftLoop : ℕ → List ℤ → ℕ → List ℤ × ℕ
  | 0, ts, n => (ts, n)
  | k + 1, ts, n => if ts.all (fun t => t % 10 == 0) then shiftLoop k (ts.map (· / 10)) (n + 1) else (ts, n)

/-- `_shift_from_nano_to_sec`, `/repo/skmine/periodic/cycles.py:545-561`. -/
def shiftNano (ts : List ℤ) : List ℤ × ℕ := shiftLoop 9 ts 0

/-- Names of the units. -/
inductive Unit | underSecond | second | minute | hour | day
  deriving DecidableEq

/-- `shift_from_sec_to_upper_unit`, `/repo/skmine/periodic/cycles.py:520-542`. The last branch of the code is always taken when reached. -/
def shiftUpper (ts : List ℤ) : List ℤ × ℕ × Unit :=
  if ts.any (fun t => t % 60 != 0) then (ts.map (· / 1), 1, .second)
  else if ts.all (fun t => t % (24 * 3600) == 0) then (ts.map (· / (24 * 3600)), 24 * 3600, .day)
  else if ts.all (fun t => t % 3600 == 0) then (ts.map (· / 3600), 3600, .hour)
  else (ts.map (· / 60), 60, .minute)

/-- `autoscale_time_unit`, `/repo/skmine/periodic/cycles.py:483-517`: converted times, number of digits, divisor and unit. -/
def autoscale (ts : List ℤ) : List ℤ × ℕ × ℕ × Unit :=
  let s := shiftNano ts
  if s.2 < 9 then (s.1, s.2, 1, .underSecond)
  else
    let u := shiftUpper s.1
    (u.1, s.2, u.2.1, u.2.2)

/-- The restoration of a time, `/repo/skmine/periodic/cycles.py:341,399`: `occ * 10 ** n_zeros_ * div_nb_sec_`. -/
def restore (n d : ℕ) (t : ℤ) : ℤ := t * 10 ^ n * d

end Verif.TimeScale
