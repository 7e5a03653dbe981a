import Verif.Classify.Props
import Verif.Slim.TableModel
import Mathlib.Data.List.Lex

/-!
# `SlimClassifier` on data frames (C162)

Source: `/repo/skmine/itemsets/slim_classifier.py:46-94`, `/repo/skmine/itemsets/slim.py:147-175` (`fit`) and `461-463` (`cover`). A binary data frame is the list of its columns, each with its name, and the number of its rows. A name is a
string, that is the list of its code points; strings are compared letter by letter.
-/

set_option autoImplicit false

namespace Verif.Classify

variable {L S V R : Type*} [LinearOrder L] [LinearOrder S] [LinearOrder V] [LinearOrder R] [AddCommMonoid R]

/-- A string. -/
abbrev Name := List ℕ

/-- What a loop over a string yields: its letters, as strings of length one. -/
def letters (s : Name) : List Name := s.map (fun c => [c])

/-- `fit(X, y)` on a data frame, `/repo/skmine/itemsets/slim_classifier.py:64-77`: `zip(X, y)` runs over the names of the columns, and a name given to `SLIM.fit` as a transaction is the collection of its letters. `SLIM.fit` asks for one
transaction at least (`ensure_min_samples=1`, `/repo/skmine/itemsets/slim.py:166-167`). -/
def fitFrame (train : SlimArgs (List Name) → List (List Name) → Slim.State Name V) (a : ClfArgs (List Name)) (tab : List (Name × List Bool)) (y : List L) :
    Except Slim.Err (Clf L (List Name) (Slim.State Name V) (List Name)) :=
  let clf := fit train a (tab.map (fun c => letters c.1)) y
  if clf.classesX.any (fun D => D.isEmpty) then .error .valueError else .ok clf

/-- `decision_function(X)` of a SLIM model on a data frame with `n` rows, `/repo/skmine/itemsets/slim.py:272-275`. -/
def decisionFrame (code : ℕ → ℕ → R) (f : WithTop R → S) (tab : List (Name × List Bool)) (n : ℕ) (m : Slim.State Name V) : List S :=
  match Slim.codeLengthTable code m tab n with
  | .ok ls => ls.map f
  | .error _ => []

/-- `predict(X)` on a data frame with `n` rows, `/repo/skmine/itemsets/slim_classifier.py:91-94`. Of the samples only their number is looked at beside the scores. -/
def predictFrame (code : ℕ → ℕ → R) (f : WithTop R → S) (clf : Clf L (List Name) (Slim.State Name V) (List Name)) (tab : List (Name × List Bool)) (n : ℕ) : Option (List L) :=
  predict (fun m _ => decisionFrame code f tab n m) clf (List.replicate n [])

end Verif.Classify
