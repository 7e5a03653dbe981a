import Verif.Util.Text

/-!
# Files of logs (C163)

Source: `/repo/skmine/datasets/periodic.py:17-50`.

`pandas.read_csv(sep=..., header=None, dtype="string", skipinitialspace=True)` is modelled after its documentation on texts without quotation marks, tabulators and carriage returns: lines that are empty or hold only spaces are
skipped, leading spaces of a field are skipped, the first line gives the number of columns, shorter lines are filled up with missing values and longer ones raise, and the documented words for missing values are read as
missing. `pandas.to_datetime` is a parameter; `none` is its `ValueError`.
-/

set_option autoImplicit false

namespace Verif.Logs

open Verif.Text

/-- The values read as missing by default (documentation of `read_csv`, `na_values`). -/
def naWords : List (List Char) :=
  ["", "#N/A", "#N/A N/A", "#NA", "-1.#IND", "-1.#QNAN", "-NaN", "-nan", "1.#IND", "1.#QNAN", "<NA>", "N/A", "NA", "NULL", "NaN", "None", "n/a", "nan", "null"].map String.toList

/-- A line that `read_csv` skips. -/
def isBlank (line : List Char) : Bool := line.all (fun c => decide (c = ' '))

/-- A field: leading spaces are skipped, the words for missing values are missing. -/
def field (w : List Char) : Option (List Char) :=
  let w := w.dropWhile (fun c => decide (c = ' '))
  if w ∈ naWords then none else some w

/-- The exceptions. -/
inductive Err where
  | emptyData
  | parserError
  | valueError
  deriving DecidableEq

/-- `pd.read_csv(...)`, `/repo/skmine/datasets/periodic.py:41`: the rows and the number of columns. -/
def readCsv (sep : Char) (text : List Char) : Except Err (List (List (Option (List Char))) × ℕ) :=
  let rows := ((splitOn '\n' text).filter (fun l => !isBlank l)).map (fun l => (splitOn sep l).map field)
  match rows with
  | [] => .error .emptyData
  | r :: _ => if rows.any (fun x => decide (r.length < x.length)) then .error .parserError
    else .ok (rows.map (fun x => x ++ List.replicate (r.length - x.length) none), r.length)

/-- The index of a series. -/
inductive Index (T : Type) where
  /-- `0, 1, …` -/
  | positions (n : ℕ)
  | dates (ds : List T)
  | ints (is : List ℤ)
  deriving DecidableEq

/-- The series: its index and its events; `none` is a missing event. -/
structure Series (T : Type) where
  index : Index T
  events : List (Option (List Char))
  deriving DecidableEq

variable {T : Type}

/-- `fetch_file(filepath, separator, format)`, `/repo/skmine/datasets/periodic.py:41-50`, on the text of the file; `toDate` is `pd.to_datetime(·, format=format)`. The names of the series and of its index are left out. `squeeze` makes a
series of a single column only. -/
def fetchFile (toDate : List (Option (List Char)) → Option (List T)) (sep : Char) (text : List Char) : Except Err (Series T) :=
  match readCsv sep text with
  | .error e => .error e
  | .ok (rows, width) =>
    if width = 1 then .ok ⟨.positions rows.length, rows.map (fun r => r.getD 0 none)⟩
    else
      let times := rows.map (fun r => r.getD 0 none)
      let events := rows.map (fun r => r.getD 1 none)
      match toDate times with
      | some ds => .ok ⟨.dates ds, events⟩
      | none =>
        match times.mapM (fun t => t.bind parseInt) with
        | some is => .ok ⟨.ints is, events⟩
        | none => .error .valueError

end Verif.Logs
