import Verif.Classify.Props
import Verif.Slim.TableModel

/-!
# `SlimClassifier` on arrays (C160)

Source: `/repo/skmine/itemsets/slim_classifier.py:46-94`, `/repo/skmine/itemsets/slim.py:461-463` (`cover`) and `/repo/skmine/utils.py:123-135`
(`_check_D`). An array of integers is the list of its rows, all of length `k`.
-/

set_option autoImplicit false

namespace Verif.Classify

variable {L S I V R : Type*} [LinearOrder L] [LinearOrder S] [LinearOrder V] [LinearOrder R] [AddCommMonoid R]

/-- `fit(X, y)` on an array, `/repo/skmine/itemsets/slim_classifier.py:64-77`: `zip(X, y)` runs over the rows, every row is a transaction whose items
are its values. -/
def fitArray (train : SlimArgs I → List (List ℕ) → Slim.State ℕ V) (a : ClfArgs I) (X : List (List ℕ)) (y : List L) :
    Clf L (List ℕ) (Slim.State ℕ V) I :=
  fit train a X y

/-- `pd.DataFrame(X)`, `/repo/skmine/utils.py:127`, as `np.where` sees it: the columns are named `0, 1, …` and a value is true when it is not zero. -/
def arrayTable (X : List (List ℕ)) (k : ℕ) : List (ℕ × List Bool) :=
  (List.range k).map (fun j => (j, X.map (fun row => decide (row.getD j 0 ≠ 0))))

/-- `decision_function(X)` of a SLIM model on an array, `/repo/skmine/itemsets/slim.py:272-275`: `cover` takes an array of two dimensions for a binary
table. -/
def decisionArray (code : ℕ → ℕ → R) (f : WithTop R → S) (k : ℕ) (m : Slim.State ℕ V) (X : List (List ℕ)) : List S :=
  match Slim.codeLengthTable code m (arrayTable X k) X.length with
  | .ok ls => ls.map f
  | .error _ => []

/-- `predict(X)` on an array with `k` columns, `/repo/skmine/itemsets/slim_classifier.py:91-94`. -/
def predictArray (code : ℕ → ℕ → R) (f : WithTop R → S) (k : ℕ) (clf : Clf L (List ℕ) (Slim.State ℕ V) I) (X : List (List ℕ)) : Option (List L) :=
  predict (decisionArray code f k) clf X

end Verif.Classify
