import Verif.Mdlp.EntropyModel

/-!
# Fitting a discretizer on a data frame (C155)

Source: `/repo/skmine/preprocessing/mdlp_discretizer.py:186-260`.
-/

set_option autoImplicit false

namespace Verif.Mdlp

/-- `_X[permutation]`, `/repo/skmine/preprocessing/mdlp_discretizer.py:203-208`: the rows at these positions. -/
def shuffle (π : List ℕ) (rows : List (List ℚ × ℕ)) : List (List ℚ × ℕ) := π.filterMap (fun i => rows[i]?)

/-- `d[k] = v` on a `dict`: the position of an existing key is kept, a new key goes last. -/
def setKey {ν : Type*} [DecidableEq ν] (d : List (ν × List ℚ)) (k : ν) (v : List ℚ) : List (ν × List ℚ) :=
  if k ∈ d.map Prod.fst then d.map (fun e => if e.1 = k then (k, v) else e) else d ++ [(k, v)]

/-- `dict(zip(X.columns, cut_points))`, `/repo/skmine/preprocessing/mdlp_discretizer.py:219-220`. -/
def cutDict {ν : Type*} [DecidableEq ν] (names : List ν) (cuts : List (List ℚ)) : List (ν × List ℚ) := (names.zip cuts).foldl (fun d e => setKey d e.1 e.2) []

/-- `MDLPDiscretizer.fit` on a data frame, `/repo/skmine/preprocessing/mdlp_discretizer.py:186-226`: the dictionary `cut_points_`. `π` is the random permutation, `order` the result of `np.argsort`. -/
noncomputable def fitFrame {ν : Type*} [DecidableEq ν] (fuel : ℕ) (π : List ℕ) (order : List (ℚ × ℕ) → List (ℚ × ℕ)) (names : List ν) (rows : List (List ℚ × ℕ)) : Option (Except Err (List (ν × List ℚ))) :=
  (fitAll fuel names.length (shuffle π) order rows).map (fun r => r.map (cutDict names))

end Verif.Mdlp
