import Mathlib.Data.Int.Notation
import Mathlib.Data.Nat.Notation
import Mathlib.Data.List.Sort

/-!
# Smartphone logs (UbiqLog): model

Source: `/repo/skmine/datasets/periodic.py:219-335`. The regular expression and the date parser are not modelled: a line that matches is a record with a user, a process name and its two dates in seconds, `none` if a date cannot be parsed.
A text is the list of its character codes. The files are their header date and their rows; printing and reading the numbers and dates is exact. Not modelled: what pandas does with names such as `NA` and names with a tab.
-/

set_option autoImplicit false

namespace Verif.Ubiq

/-- A text: character codes. -/
abbrev Str := List ℕ

/-- A line of the log that matches the expression, `periodic.py:287-288`. -/
structure Rec where
  user : ℕ
  process : Str
  dates : Option (ℤ × ℤ)

/-- `"%s_I" % process` with its variants, `periodic.py:306-308`; the last character is `I` (73), `S` (83) or `E` (69), `_` is 95. -/
def mark (p : Str) (c : ℕ) : Str := p ++ [95, c]

/-- The events of a line, `periodic.py:304-308`. -/
def evsOf (p : Str) (a b : ℤ) : List (ℤ × Str) := if b - a < 60 then [(a, mark p 73)] else [(a, mark p 83), (b, mark p 69)]

/-- `users[user]`. -/
structure UserData where
  ev : List (ℤ × Str)
  counts : List (Str × ℕ)

/-- The variables `users` and `users_drop`. -/
structure St where
  users : List (ℕ × UserData)
  drop : List ℕ

/-- `d[k] = v`. -/
def setKey {κ ν : Type} [DecidableEq κ] (d : List (κ × ν)) (k : κ) (v : ν) : List (κ × ν) :=
  if k ∈ d.map Prod.fst then d.map (fun x => if x.1 = k then (k, v) else x) else d ++ [(k, v)]

/-- The body of the loop over the events of a line, `periodic.py:309-311`. -/
def addEv (d : UserData) (e : ℤ × Str) : UserData := ⟨d.ev ++ [e], setKey d.counts e.2 ((d.counts.lookup e.2).getD 0 + 1)⟩

/-- The body of the loop over the lines, `periodic.py:289-311`. -/
def step (st : St) (r : Rec) : St :=
  if r.user ∈ st.drop then st
  else match r.dates with
    | none => { st with drop := st.drop ++ [r.user] }
    | some (a, b) => { st with users := setKey st.users r.user ((evsOf r.process a b).foldl addEv ((st.users.lookup r.user).getD ⟨[], []⟩)) }

/-- The loop over the lines, `periodic.py:279-311`. -/
def run (log : List Rec) : St := log.foldl step ⟨[], []⟩

/-- Comparison of texts. -/
def strLe : Str → Str → Bool
  | [], _ => true
  | _ :: _, [] => false
  | a :: s, b :: t => decide (a < b) || (decide (a = b) && strLe s t)

/-- Comparison of pairs of a time and a text. -/
def pairLe (x y : ℤ × Str) : Bool := decide (x.1 < y.1) || (decide (x.1 = y.1) && strLe x.2 y.2)

/-- `sorted`. -/
def sorted (l : List (ℤ × Str)) : List (ℤ × Str) := l.insertionSort (fun x y => pairLe x y = true)

/-- The loop writing pairs different from the previous one, `periodic.py:321-325`. -/
def dropRepeats : Option (ℤ × Str) → List (ℤ × Str) → List (ℤ × Str)
  | _, [] => []
  | prev, x :: l => if some x ≠ prev then x :: dropRepeats (some x) l else dropRepeats prev l

/-- `s.split("_")[-1]`. -/
def lastPart (s : Str) : Str := (s.reverse.takeWhile (fun c => decide (c ≠ 95))).reverse

/-- `"_".join(s.split("_")[:-1])`. -/
def butLast (s : Str) : Str := (s.reverse.dropWhile (fun c => decide (c ≠ 95))).tail.reverse

/-- The rows of the second file before repeats are dropped, `periodic.py:330-332`. -/
def isRows (evs : List (ℤ × Str)) : List (ℤ × Str) :=
  evs.filterMap (fun e => if lastPart e.2 = [73] ∨ lastPart e.2 = [83] then some (e.1, butLast e.2) else none)

/-- The two files of a user: the date in the header, the rows of `_ISE_data.dat`, the rows of `_IS_data.dat`. -/
structure Files where
  start : ℤ
  ise : List (ℤ × Str)
  is : List (ℤ × Str)

/-- The events kept, `periodic.py:316`. -/
def kept (minOcc : ℕ) (d : UserData) : List (ℤ × Str) := d.ev.filter (fun e => decide (minOcc < (d.counts.lookup e.2).getD 0))

/-- The offsets, `periodic.py:319`: `int(seconds / 60)`, of numbers that are not negative. -/
def offsets (start : ℤ) (evs : List (ℤ × Str)) : List (ℤ × Str) := sorted (evs.map (fun e => ((e.1 - start).tdiv 60, e.2)))

/-- The body of the loop over the users, `periodic.py:316-335`. -/
def filesOf (minOcc : ℕ) (d : UserData) : Option Files :=
  if minOcc < (kept minOcc d).length then
    match sorted (kept minOcc d) with
    | [] => none
    | x :: l => some ⟨x.1, dropRepeats none (offsets x.1 (x :: l)), dropRepeats none (isRows (offsets x.1 (x :: l)))⟩
  else none

/-- `parse_all_user`, `periodic.py:259-335`: the files written, per user. -/
def parseAll (minOcc : ℕ) (log : List Rec) : List (ℕ × Files) :=
  (run log).users.filterMap (fun u => if u.1 ∈ (run log).drop then none else (filesOf minOcc u.2).map (fun f => (u.1, f)))

/-- `read_ubiq_user` on a file `_ISE_data.dat`, `periodic.py:248-249`: `start_time + timedelta(seconds=x)`. -/
def readISE (f : Files) : List (ℤ × Str) := f.ise.map (fun e => (f.start + e.1, e.2))

/-- `read_ubiq_user` on a file `_IS_data.dat`, `periodic.py:246-247`: the times are the row numbers, the header being row 0. -/
def readIS (f : Files) : List (ℕ × Str) := (f.is.zipIdx 1).map (fun e => (e.2, e.1.2))

end Verif.Ubiq
