import Verif.Util.SortSet
import Mathlib.Algebra.Order.Ring.Rat
import Mathlib.Data.Finset.Dedup

/-!
# Model of the MDLP discretizer (C27, C28)

Source: `/repo/skmine/preprocessing/mdlp_discretizer.py`.

Simplifications: values are rationals, so midpoints are exact (no overflow, no infinities, no NaN). Entropies are not computed:
the weighted entropy of a cut (lines 46-52) is an arbitrary function `score` into a linear order, the MDL test of `evaluate`
(lines 77-94) is an arbitrary Boolean `better`. Both may depend on the whole label vector, since they are quantified after it.
-/

set_option autoImplicit false

namespace Verif.Mdlp

/-- The exceptions of this file. -/
inductive Err | zeroDivision | index | value
  deriving DecidableEq

variable {E : Type*} [LinearOrder E]

/-- Loop body of `generate_cut_point`, `/repo/skmine/preprocessing/mdlp_discretizer.py:42-56`: `best` is `(k, ent)`, `none` standing for
`(-1, inf)`. -/
def cutStep (y : List ℕ) (score : ℕ → E) (best : Option (ℕ × E)) (idx : ℕ) : Option (ℕ × E) :=
  if y[idx - 1]? = y[idx]? then best
  else
    match best with
    | none => some (idx, score idx)
    | some b => if score idx < b.2 then some (idx, score idx) else some b

/-- `generate_cut_point`, `/repo/skmine/preprocessing/mdlp_discretizer.py:28-58`; `none` is the return value `-1`. -/
def generateCut (y : List ℕ) (score : ℕ → ℕ → ℕ → E) (start stop : ℕ) : Option ℕ :=
  ((List.range' (start + 1) (stop - (start + 1))).foldl (cutStep y (score start stop)) none).map Prod.fst

/-- Front and back cut points of a final interval, `/repo/skmine/preprocessing/mdlp_discretizer.py:125-131`. -/
def ends (X : List ℚ) (start stop : ℕ) : List ℚ :=
  (if start = 0 then [] else [(X.getD (start - 1) 0 + X.getD start 0) / 2]) ++
  (if stop = X.length then [] else [(X.getD (stop - 1) 0 + X.getD stop 0) / 2])

/-- The work-list loop, `/repo/skmine/preprocessing/mdlp_discretizer.py:117-134`. The head of `stack` is the end of `search_intervals`; the
depth is not kept since it is never read. `1 / N` (line 89) raises on an empty interval. `none`: out of fuel. -/
def loop (y : List ℕ) (score : ℕ → ℕ → ℕ → E) (better : ℕ → ℕ → ℕ → Bool) (X : List ℚ) :
    ℕ → List (ℕ × ℕ) → List ℚ → Option (Except Err (List ℚ))
  | _, [], acc => some (.ok acc)
  | 0, _ :: _, _ => none
  | fuel + 1, (start, stop) :: stack, acc =>
    if stop - start = 0 then some (.error .zeroDivision)
    else
      match generateCut y score start stop with
      | none => loop y score better X fuel stack (acc ++ ends X start stop)
      | some k =>
        if better start stop k then loop y score better X fuel ((k, stop) :: (start, k) :: stack) acc
        else loop y score better X fuel stack (acc ++ ends X start stop)

/-- `MDLPVectDiscretizer.fit`, `/repo/skmine/preprocessing/mdlp_discretizer.py:96-137`, on the samples already ordered by `argsort` (lines
111-113). -/
def fitSorted (score : ℕ → ℕ → ℕ → E) (better : ℕ → ℕ → ℕ → Bool) (fuel : ℕ) (s : List (ℚ × ℕ)) :
    Option (Except Err (List ℚ)) :=
  (loop (s.map Prod.snd) score better (s.map Prod.fst) fuel [(0, s.length)] []).map
    (fun r => r.map (fun acc => sortSet acc.toFinset))

/-- `np.searchsorted(cuts, v)` (side left), called at `/repo/skmine/preprocessing/mdlp_discretizer.py:246`: binary search between `lo` and `hi`. -/
def searchSorted (cuts : List ℚ) (v : ℚ) (lo hi : ℕ) : ℕ :=
  if h : lo < hi then
    if cuts.getD ((lo + hi) / 2) 0 < v then searchSorted cuts v ((lo + hi) / 2 + 1) hi
    else searchSorted cuts v lo ((lo + hi) / 2)
  else lo
termination_by hi - lo
decreasing_by all_goals omega

/-- `transform` on an array, `/repo/skmine/preprocessing/mdlp_discretizer.py:245-251`: one code per fitted column, by position. `width` is the
number of columns of the array (`_X[:, idx]` raises when it is missing). -/
def transformArray (cuts : List (List ℚ)) (width : ℕ) (rows : List (List ℚ)) : Except Err (List (List ℕ)) :=
  if cuts.length ≤ width then
    .ok (rows.map (fun r => cuts.zipIdx.map (fun c => searchSorted c.1 (r.getD c.2 0) 0 c.1.length)))
  else .error .index

/-- `transform` on a data frame, `/repo/skmine/preprocessing/mdlp_discretizer.py:241-256`; `fitted` is the dict `cut_points_` in insertion order.
The result has the column names of the input, which raises if the number of columns differs (line 254). -/
def transformFrame {ν : Type*} [DecidableEq ν] (fitted : List (ν × List ℚ)) (names : List ν) (rows : List (List ℚ)) :
    Except Err (List ν × List (List ℕ)) :=
  if (fitted.map Prod.fst).toFinset = names.toFinset then
    match transformArray (fitted.map Prod.snd) names.length rows with
    | .error e => .error e
    | .ok out => if fitted.length = names.length then .ok (names, out) else .error .value
  else .error .value

end Verif.Mdlp
