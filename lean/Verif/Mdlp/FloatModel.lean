import Verif.Mdlp.Model
import Verif.Float.Model

/-!
# The discretizer with midpoints computed in floating point (C131)

Source: `/repo/skmine/preprocessing/mdlp_discretizer.py:96-137`. The same loop as in `Mdlp/Model.lean`, with the midpoints rounded.
-/

set_option autoImplicit false

namespace Verif.Mdlp

open Verif.Float (fl)

variable {E : Type*} [LinearOrder E]

/-- `(X[start - 1] + X[start]) / 2`, `/repo/skmine/preprocessing/mdlp_discretizer.py:125-126`, on values of type `float64`: the sum is rounded, and the quotient. For integers of type `int64` the sum is exact (it must not overflow) and rounded when it is
converted for the division, with the same result. -/
def midFloat (a b : ℚ) : ℚ := fl (fl (a + b) / 2)

/-- Front and back cut points of a final interval, `/repo/skmine/preprocessing/mdlp_discretizer.py:125-131`. -/
def endsFloat (X : List ℚ) (start stop : ℕ) : List ℚ :=
  (if start = 0 then [] else [midFloat (X.getD (start - 1) 0) (X.getD start 0)]) ++
  (if stop = X.length then [] else [midFloat (X.getD (stop - 1) 0) (X.getD stop 0)])

/-- The work-list loop, `/repo/skmine/preprocessing/mdlp_discretizer.py:117-134`, see `loop`. -/
def loopFloat (y : List ℕ) (score : ℕ → ℕ → ℕ → E) (better : ℕ → ℕ → ℕ → Bool) (X : List ℚ) :
    ℕ → List (ℕ × ℕ) → List ℚ → Option (Except Err (List ℚ))
  | _, [], acc => some (.ok acc)
  | 0, _ :: _, _ => none
  | fuel + 1, (start, stop) :: stack, acc =>
    if stop - start = 0 then some (.error .zeroDivision)
    else
      match generateCut y score start stop with
      | none => loopFloat y score better X fuel stack (acc ++ endsFloat X start stop)
      | some k =>
        if better start stop k then loopFloat y score better X fuel ((k, stop) :: (start, k) :: stack) acc
        else loopFloat y score better X fuel stack (acc ++ endsFloat X start stop)

/-- `MDLPVectDiscretizer.fit`, `/repo/skmine/preprocessing/mdlp_discretizer.py:96-137`, on the samples already ordered by `argsort`. -/
def fitFloat (score : ℕ → ℕ → ℕ → E) (better : ℕ → ℕ → ℕ → Bool) (fuel : ℕ) (s : List (ℚ × ℕ)) : Option (Except Err (List ℚ)) :=
  (loopFloat (s.map Prod.snd) score better (s.map Prod.fst) fuel [(0, s.length)] []).map
    (fun r => r.map (fun acc => sortSet acc.toFinset))

end Verif.Mdlp
