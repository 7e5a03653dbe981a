import Verif.Slim.SessModel
import Verif.Slim.CodeLength

/-!
# SLIM on binary tables (C156, C157)

Source: `/repo/skmine/itemsets/slim.py:147-194` (`fit`), `614-703` (`prefit`), `195-242` (`get_code_length`), and `/repo/skmine/utils.py:92-107`
(`supervised_to_unsupervised`). A table is the list of its columns, each with its name and its values read as booleans (what `np.where` sees),
together with its number of rows. The checks of `_check_D` (dtypes, missing values, no column) are not modelled.
-/

set_option autoImplicit false

namespace Verif.Slim

variable {α κ V R : Type*} [LinearOrder α] [LinearOrder κ] [LinearOrder V] [LinearOrder R] [AddCommMonoid R]

/-- `np.where(D[k])[0]` as a bitmap, `/repo/skmine/itemsets/slim.py:634`. `D[k]` is a frame when several columns are named `k`; then the positions
of all of them are returned. -/
def whereTrue (tab : List (α × List Bool)) (n : ℕ) (k : α) : Finset ℕ :=
  (Finset.range n).filter (fun t => tab.any (fun c => decide (c.1 = k) && c.2.getD t false) = true)

/-- `{k: Bitmap(np.where(D[k])[0]) for k in D.columns}`, `/repo/skmine/itemsets/slim.py:634`: columns without any true value are kept, names
written twice make one entry. -/
def tableVertical (tab : List (α × List Bool)) (n : ℕ) : Sct α :=
  (tab.map Prod.fst).foldl (fun d k => dictSet d k (whereTrue tab n k)) []

/-- `supervised_to_unsupervised(D, y)`, `/repo/skmine/utils.py:104-107`: the rows at the positions of the non-zero labels. `D.iloc` raises
`IndexError` on a position out of range. -/
def supervised (y : List ℤ) (tab : List (α × List Bool)) (n : ℕ) : Except Err (List (α × List Bool) × ℕ) :=
  let mask := (List.range y.length).filter (fun t => decide (y.getD t 0 ≠ 0))
  if mask.all (fun t => decide (t < n)) then .ok (tab.map (fun c => (c.1, mask.map (fun t => c.2.getD t false))), mask.length)
  else .error .indexError

/-- `fit(X, y)` on a table by an object without stored results, `/repo/skmine/itemsets/slim.py:147-194` and `631-634`. The sort key of the code
table is `_standard_cover_order` on the new standard code table. -/
def fitTable (S : Settings α V) (O : Oracle α) (fuel : ℕ) (tab : List (α × List Bool)) (n : ℕ) (y : Option (List ℤ)) :
    Option (Except Err (State α V)) :=
  match (match y with | none => .ok (tab, n) | some y => supervised y tab n : Except Err (List (α × List Bool) × ℕ)) with
  | .error e => some (.error e)
  | .ok (tab, n) =>
    let vert := tableVertical tab n
    let sct := vert ++ (S.items.dedup.filter (fun i => i ∉ vert.map Prod.fst)).map (fun i => (i, ∅))
    let P := S.params sct []
    fitLoop P O fuel 0 (prefitVertical P S.items vert)

/-- `fit(X, y)` on transactions by an object without stored results, `/repo/skmine/itemsets/slim.py:147-194` and `635-637`; `y` is not looked at. -/
def fitLists (S : Settings α V) (O : Oracle α) (fuel : ℕ) (D : List (List α)) : Option (Except Err (State α V)) :=
  fit (S.params (sctOf S.items D) []) O S.items fuel D

/-- `cover(D)` on a table, `/repo/skmine/itemsets/slim.py:461-475`: only the known columns. -/
def coverTable (st : State α V) (tab : List (α × List Bool)) (n : ℕ) : Except Err (List (Finset α) × List (List Bool)) :=
  coverMatrix st (tableVertical (tab.filter (fun c => c.1 ∈ st.sct.map Prod.fst)) n) n

/-- `get_code_length(D)` on a table, `/repo/skmine/itemsets/slim.py:231-242`. -/
def codeLengthTable (code : ℕ → ℕ → R) (st : State α V) (tab : List (α × List Bool)) (n : ℕ) : Except Err (List (WithTop R)) :=
  match coverTable st tab n with
  | .error e => .error e
  | .ok (cols, mat) => .ok (mat.map (fun row =>
      let s := ((marked cols row).map (codeOf code st)).sum
      if s = 0 then ⊤ else (s : WithTop R)))

end Verif.Slim
