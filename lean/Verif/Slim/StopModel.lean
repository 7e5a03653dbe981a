import Verif.Slim.CopyModel

/-!
# `SLIMVectorizer.fit` (C166)

Source: `/repo/skmine/feature_extraction/slim_vectorizer.py:14-16, 82-85` and `/repo/skmine/itemsets/slim.py:147-194`. `_validate_data` of scikit-learn is modelled after its source: a generator becomes an array without dimension,
which has no number of samples, a `TypeError`; a list must not be empty, a `ValueError`. (Without that check `X.shape`, line 168, would be an `AttributeError`.)
-/

set_option autoImplicit false

namespace Verif.Slim

variable {α V : Type*} [LinearOrder α] [LinearOrder V]

/-- What is given to `SLIM.fit`: a list of transactions, or a generator that would yield them. -/
inductive Given (α : Type*) where
  | lists (D : List (List α))
  | generator (D : List (List α))

/-- The exceptions of `fit`. -/
inductive FitErr where
  | typeError
  | valueError
  | inside (e : Err)
  deriving DecidableEq

/-- `SLIM.fit(X)`, `/repo/skmine/itemsets/slim.py:166-194`. -/
def fitGiven (a : Args α) (iter : Finset α → List α) (total : Table α → V) (initTotal : Sct α → V) (O : Oracle α) (elapsed : ℕ → ℚ) (fuel : ℕ) :
    Given α → Option (Except FitErr (State α V))
  | .generator _ => some (.error .typeError)
  | .lists [] => some (.error .valueError)
  | .lists (d :: D) => (fitArgs a iter total initTotal O elapsed fuel (d :: D)).map (fun r => match r with
    | .ok st => .ok st
    | .error e => .error (.inside e))

/-- `_filter_stop_items(D, stop_items)`, `/repo/skmine/feature_extraction/slim_vectorizer.py:14-16`: what the generator would yield. A set is listed here in the order of the transaction. -/
def filterStop (stop : Finset α) (D : List (List α)) : List (List α) := D.map (fun t => t.filter (fun x => x ∉ stop))

/-- `SLIMVectorizer.fit(D)`, `/repo/skmine/feature_extraction/slim_vectorizer.py:82-85`; `stop` is the argument `stop_items`. -/
def vectFit (a : Args α) (iter : Finset α → List α) (total : Table α → V) (initTotal : Sct α → V) (O : Oracle α) (elapsed : ℕ → ℚ) (fuel : ℕ)
    (stop : Option (Finset α)) (D : List (List α)) : Option (Except FitErr (State α V)) :=
  fitGiven a iter total initTotal O elapsed fuel (match stop with
    | some s => .generator (filterStop s D)
    | none => .lists D)

end Verif.Slim
