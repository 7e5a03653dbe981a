import Verif.Mdlp.Model
import Mathlib.Analysis.SpecialFunctions.Log.Base

/-!
# The entropies of the MDLP discretizer: model (C96, C97)

Source: `/repo/skmine/preprocessing/mdlp_discretizer.py:18-94, 186-226`.

Simplifications: floating point numbers are exact reals. Labels are natural numbers (`np.bincount` raises for others).
-/

set_option autoImplicit false

namespace Verif.Mdlp

/-- `np.bincount(y)`, `/repo/skmine/preprocessing/mdlp_discretizer.py:24`: the number of occurrences of 0, 1, … up to the largest label. -/
def bincount (y : List ℕ) : List ℕ := if y = [] then [] else (List.range (y.foldr max 0 + 1)).map (fun l => y.count l)

/-- A term of `scipy.stats.entropy`. -/
noncomputable def entr (p : ℝ) : ℝ := if 0 < p then -(p * Real.log p) else 0

/-- The entropy of `get_entropy_nb_ones`, `/repo/skmine/preprocessing/mdlp_discretizer.py:18-25`. The normalisation done by `entropy` has no effect since the sum is one. -/
noncomputable def entropyOf (y : List ℕ) : ℝ := ((bincount y).map (fun c : ℕ => entr ((c : ℝ) / (y.length : ℝ)))).sum / Real.log 2

/-- The number of labels of `get_entropy_nb_ones`, `/repo/skmine/preprocessing/mdlp_discretizer.py:25`. -/
def nbOnes (y : List ℕ) : ℕ := (bincount y).countP (fun c => c ≠ 0)

/-- `y[start:stop]`. -/
def slice (y : List ℕ) (start stop : ℕ) : List ℕ := (y.drop start).take (stop - start)

/-- The entropy of a cut, `/repo/skmine/preprocessing/mdlp_discretizer.py:46-52`. -/
noncomputable def scoreOf (y : List ℕ) (start stop idx : ℕ) : ℝ :=
  entropyOf (slice y start idx) * (((idx - start : ℕ) : ℝ) / ((stop - start : ℕ) : ℝ)) + entropyOf (slice y idx stop) * (((stop - idx : ℕ) : ℝ) / ((stop - start : ℕ) : ℝ))

/-- Overflow of 64 bit integers. -/
def int64 (z : ℤ) : ℤ := (z + 2 ^ 63) % 2 ^ 64 - 2 ^ 63

/-- `evaluate`, `/repo/skmine/preprocessing/mdlp_discretizer.py:77-94`, for a cut point inside the interval. The exponent of `pow(3, k0)` is a 64 bit integer of NumPy, so the power overflows; the logarithm of a negative number
is NaN and the comparison is false. -/
noncomputable def betterOf (y : List ℕ) (start stop cut : ℕ) : Bool :=
  let e1 := entropyOf (slice y start cut)
  let k1 : ℝ := nbOnes (slice y start cut)
  let e2 := entropyOf (slice y cut stop)
  let k2 : ℝ := nbOnes (slice y cut stop)
  let e0 := entropyOf (slice y start stop)
  let k0 : ℝ := nbOnes (slice y start stop)
  let n : ℝ := (stop - start : ℕ)
  let part1 := 1 / n * (((cut - start : ℕ) : ℝ) * e1 + ((stop - cut : ℕ) : ℝ) * e2)
  let w := int64 (3 ^ nbOnes (slice y start stop)) - 2
  if w ≤ 0 then false
  else
    let delta := Real.logb 2 (w : ℝ) - (k0 * e0 - k1 * e1 - k2 * e2)
    haveI := Classical.propDecidable (e0 - part1 > 1 / n * (Real.logb 2 (n - 1) + delta))
    decide (e0 - part1 > 1 / n * (Real.logb 2 (n - 1) + delta))

/-- `MDLPVectDiscretizer.fit`, `/repo/skmine/preprocessing/mdlp_discretizer.py:96-137`, on samples ordered by value. -/
noncomputable def fitColumn (fuel : ℕ) (s : List (ℚ × ℕ)) : Option (Except Err (List ℚ)) := fitSorted (scoreOf (s.map Prod.snd)) (betterOf (s.map Prod.snd)) fuel s

/-- `MDLPDiscretizer.fit`, `/repo/skmine/preprocessing/mdlp_discretizer.py:186-226`: rows and labels are shuffled together, then every column is treated on its own. A row has a value for each column. `perm` is the shuffle, `order`
the result of `np.argsort` on the shuffled column (any sorting of ties). The result is the list of cut points of the columns. -/
noncomputable def fitAll (fuel width : ℕ) (perm : List (List ℚ × ℕ) → List (List ℚ × ℕ)) (order : List (ℚ × ℕ) → List (ℚ × ℕ)) (rows : List (List ℚ × ℕ)) : Option (Except Err (List (List ℚ))) :=
  ((List.range width).mapM (fun j => fitColumn fuel (order ((perm rows).map (fun r => (r.1.getD j 0, r.2)))))).map (fun l => l.mapM id)

end Verif.Mdlp
