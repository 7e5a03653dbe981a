import Verif.Datasets.Model

/-!
# Files of transactions given by their path (C173)

Source: `/repo/skmine/datasets/fimi.py:53-77`. Paths are those of Linux. The file exists and has the given text; the check for binary files is left out.
-/

set_option autoImplicit false

namespace Verif.Datasets

/-- `os.path.basename`, called at `/repo/skmine/datasets/fimi.py:75`: what follows the last slash. -/
def basename (path : List Char) : List Char := (path.reverse.takeWhile (· ≠ '/')).reverse

/-- The first part of `os.path.splitext` for a name without slash, called at `/repo/skmine/datasets/fimi.py:75`: what precedes the last dot, unless there is nothing but dots before it. -/
def rootOf (name : List Char) : List Char :=
  if '.' ∈ name then
    let pre := ((name.reverse.dropWhile (· ≠ '.')).drop 1).reverse
    if pre.all (· = '.') then name else pre
  else name

/-- `fetch_file(filepath, separator, int_values)`, `/repo/skmine/datasets/fimi.py:53-77`: the name of the series and the transactions. -/
def fetchFile {β : Type*} (parse : List Char → Option β) (sep : Char) (path text : List Char) : Option (List Char × List (List β)) :=
  (readDat parse sep text).map (fun D => (rootOf (basename path), D))

end Verif.Datasets
