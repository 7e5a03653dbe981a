import Verif.LCM.Model
import Verif.Util.SortSet
import Verif.Util.Text

/-!
# Model of the file output of `LCM.transform`

Source: `/repo/skmine/itemsets/lcm.py`.
-/

set_option autoImplicit false

namespace Verif.LCM

open Verif.Text

variable {α : Type*}

/-- The first line written for a row, `/repo/skmine/itemsets/lcm.py:297`: `(support) item1 item2 ...`. `str` is Python's
`str` on items. -/
def itemLine (str : α → List Char) (r : Row α) : List Char :=
  '(' :: showNat r.support ++ [')', ' '] ++ join ' ' (r.itemset.map str)

/-- The second line, `/repo/skmine/itemsets/lcm.py:299`. Bitmaps are iterated in increasing order. -/
def tidsLine (r : Row α) : List Char := join ' ' ((sortSet r.tids).map showNat)

/-- `write_df_tofile`, `/repo/skmine/itemsets/lcm.py:294-299`: the text of the file. -/
def writeRows (str : α → List Char) (returnTids : Bool) : List (Row α) → List Char
  | [] => []
  | r :: rs => itemLine str r ++ '\n' :: ((if returnTids then tidsLine r ++ ['\n'] else []) ++
      writeRows str returnTids rs)

/-- Whitespace removed by `str.strip` (ASCII part). -/
def isSpace (c : Char) : Bool := c ∈ [' ', '\t', '\n', '\r', '\x0b', '\x0c', '\x1c', '\x1d', '\x1e', '\x1f']

/-- The loop `for line in infile: if line.strip(): outfile.write(line)`, `/repo/skmine/itemsets/lcm.py:235-237`. `cur` is the
current line, reversed. The last line may lack its newline. Simplification: only `\n` ends a line (text mode also
translates carriage returns, which matters only if the text of an item contains one). -/
def copyLines (cur : List Char) : List Char → List Char
  | [] => if cur.all isSpace then [] else cur.reverse
  | c :: cs =>
    if c = '\n' then
      (if cur.all isSpace then [] else cur.reverse ++ ['\n']) ++ copyLines [] cs
    else copyLines (c :: cur) cs

variable [LinearOrder α]

/-- `LCM.transform` with an output file, `/repo/skmine/itemsets/lcm.py:220-240`: one temporary file per root, then
concatenation in root order without blank lines. The temporary directory is not modelled. -/
def transformFile (F : Fitted α) (m : ℚ) (o : Opts) (str : α → List Char) (returnTids : Bool) : List Char :=
  (List.range F.tids.length).flatMap (fun k => copyLines [] (writeRows str returnTids (exploreRoot F m o k)))

end Verif.LCM
