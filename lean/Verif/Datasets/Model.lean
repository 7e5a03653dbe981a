import Verif.Util.Text
import Mathlib.Algebra.Order.Floor.Semiring
import Mathlib.Data.Rat.Floor

/-!
# Model of the dataset helpers (C31, C32)

Sources: `/repo/skmine/datasets/_samples_generator.py`, `/repo/skmine/datasets/fimi.py`.

The random generator is a parameter: the binomial draws `sizes` and one permutation of the population per transaction
(`RandomState.choice(..., replace=False)` returns the first elements of a random permutation). Float products are
rationals. File decoding is not modelled (the text is a list of characters), and neither is the pandas container.
-/

set_option autoImplicit false

namespace Verif.Datasets

open Verif.Text

/-- Exceptions. -/
inductive Err | value | assertion
  deriving DecidableEq

/-- The clipping of the sizes, `/repo/skmine/datasets/_samples_generator.py:75-78`. `np.clip(x, lo, hi)` is `minimum(maximum(x, lo), hi)`. -/
def clipSizes (nItems : ℕ) (sizes : List ℕ) (hne : sizes ≠ []) : List ℕ :=
  let maxSize := sizes.max hne
  if nItems < maxSize then sizes.map (fun x => min (max x (sizes.min hne + (maxSize - nItems))) nItems) else sizes

/-- One transaction, `/repo/skmine/datasets/_samples_generator.py:80`: `choice` without replacement from `arange(start, start + n)`; raises when the
size exceeds the population. `perm` is the random permutation of positions. -/
def choice (start nItems size : ℕ) (perm : List ℕ) : Except Err (List ℕ) :=
  if nItems < size then .error .value else .ok ((perm.take size).map (fun p => start + p))

/-- The list comprehension of line 80. -/
def drawAll (start nItems : ℕ) : List ℕ → List (List ℕ) → Except Err (List (List ℕ))
  | size :: sizes, perm :: perms =>
    match choice start nItems size perm with
    | .error e => .error e
    | .ok t =>
      match drawAll start nItems sizes perms with
      | .error e => .error e
      | .ok ts => .ok (t :: ts)
  | _, _ => .ok []

/-- `make_transactions`, `/repo/skmine/datasets/_samples_generator.py:10-81`. `sizes` are the binomial draws, one per transaction; the maximum of no
draw raises (line 75). -/
def makeTransactions (nItems : ℕ) (density : ℚ) (start : ℕ) (sizes : List ℕ) (perms : List (List ℕ)) :
    Except Err (List (List ℕ)) :=
  if 0 < density ∧ density < 1 then
    if hne : sizes = [] then .error .value
    else drawAll start nItems (clipSizes nItems sizes hne) perms
  else .error .value

/-- One class of `make_classification`: its density and its random draws. -/
structure ClassDraw where
  density : ℚ
  sizes : List ℕ
  perms : List (List ℕ)

/-- Loop over the classes, `/repo/skmine/datasets/_samples_generator.py:151-175`: class `c` draws items from `padding`, then `padding` grows by `step`, the
integer of line 167. The frames are concatenated in class order. -/
def classLoop (nItems step : ℕ) : ℕ → ℕ → List ClassDraw → Except Err (List (List ℕ × ℕ))
  | _, _, [] => .ok []
  | padding, c, d :: ds =>
    match makeTransactions nItems d.density padding d.sizes d.perms with
    | .error e => .error e
    | .ok ts =>
      match classLoop nItems step (padding + step) (c + 1) ds with
      | .error e => .error e
      | .ok rest => .ok (ts.map (fun t => (t, c)) ++ rest)

/-- Number of samples of a class, `/repo/skmine/datasets/_samples_generator.py:155`: `int(weights[_class] * n_samples)`, `rnd` being the float rounding of
the product. -/
def classCount (rnd : ℚ → ℚ) (nSamples : ℕ) (w : ℚ) : ℕ := ⌊rnd (w * nSamples)⌋₊

/-- `make_classification`, `/repo/skmine/datasets/_samples_generator.py:84-180`, with the checks of lines 140-149 (`assert_almost_equal` to two
decimals). `draws c` are the random draws of class `c`, whose number of sizes is `classCount`; `shuffle` reorders the rows. -/
def makeClassification (nItems step nClasses : ℕ) (weights densities : List ℚ) (sep : ℚ) (draws : ℕ → List ℕ × List (List ℕ))
    (shuffle : List (List ℕ × ℕ) → List (List ℕ × ℕ)) : Except Err (List (List ℕ × ℕ)) :=
  if 0 < nClasses ∧ weights.length = densities.length ∧ densities.length = nClasses ∧ 0 ≤ sep ∧ sep ≤ 1 ∧
      (1 - weights.sum) < 3 / 200 ∧ (weights.sum - 1) < 3 / 200 then
    match classLoop nItems step 0 0 (densities.zipIdx.map (fun dc => ⟨dc.1, (draws dc.2).1, (draws dc.2).2⟩)) with
    | .error e => .error e
    | .ok rows => .ok (shuffle rows)
  else .error .assertion

/-! ### FIMI files -/

/-- The line boundaries of `str.splitlines` (without the carriage return, translated when the file is read in text mode). -/
def isBreak (c : Char) : Bool :=
  c ∈ ['\n', '\x0b', '\x0c', '\x1c', '\x1d', '\x1e', '\x85', Char.ofNat 0x2028, Char.ofNat 0x2029]

/-- Whitespace removed by `str.rstrip`. -/
def isSpace (c : Char) : Bool :=
  isBreak c || c ∈ [' ', '\t', '\r', '\x1f', '\xa0', Char.ofNat 0x1680, Char.ofNat 0x202f, Char.ofNat 0x205f, Char.ofNat 0x3000] ||
    (0x2000 ≤ c.toNat && c.toNat ≤ 0x200a)

/-- Text mode: `\r\n` and `\r` become `\n`. -/
def universalNewlines : List Char → List Char
  | '\r' :: '\n' :: cs => '\n' :: universalNewlines cs
  | '\r' :: cs => '\n' :: universalNewlines cs
  | c :: cs => c :: universalNewlines cs
  | [] => []

/-- `str.splitlines`, called at `/repo/skmine/datasets/fimi.py:39,42`; `cur` is the current line, reversed. -/
def splitlines (cur : List Char) : List Char → List (List Char)
  | [] => if cur = [] then [] else [cur.reverse]
  | c :: cs => if isBreak c then cur.reverse :: splitlines [] cs else splitlines (c :: cur) cs

/-- `str.rstrip`. -/
def rstrip (s : List Char) : List Char := (s.reverse.dropWhile isSpace).reverse

/-- One line, `/repo/skmine/datasets/fimi.py:48`; `parse` is `int` (failing) or the identity. -/
def readLine {β : Type*} (parse : List Char → Option β) (sep : Char) (line : List Char) : Option (List β) :=
  (splitOn sep (rstrip line)).mapM parse

/-- `_read_dat`, `/repo/skmine/datasets/fimi.py:17-50`, on the text of the file; `none` is the `ValueError` of `int`. -/
def readDat {β : Type*} (parse : List Char → Option β) (sep : Char) (text : List Char) : Option (List (List β)) :=
  (splitlines [] (universalNewlines text)).mapM (readLine parse sep)

end Verif.Datasets
