import Verif.Slim.CodeLength

/-!
# Model of `SlimClassifier`

Source: `/repo/skmine/itemsets/slim_classifier.py`.
-/

set_option autoImplicit false

namespace Verif.Classify

variable {L T M S I : Type*} [LinearOrder L] [LinearOrder S]

/-- The constructor arguments of a SLIM model that matter here, `/repo/skmine/itemsets/slim.py:135-138` (`max_time` is left at its default). -/
structure SlimArgs (I : Type*) where
  items : I
  pruning : Bool

/-- `SLIM(items=...)`: `pruning` takes its default `True`, `/repo/skmine/itemsets/slim.py:135`. -/
def slimDefault (items : I) : SlimArgs I := { items := items, pruning := true }

/-- The constructor arguments of the classifier, `/repo/skmine/itemsets/slim_classifier.py:37-39`. -/
structure ClfArgs (I : Type*) where
  items : I
  pruning : Bool

/-- The fitted attributes `classes_`, `classes_X_` and `models_`. The constructor arguments of each model are kept. -/
structure Clf (L T M I : Type*) where
  classes : List L
  classesX : List (List T)
  args : List (SlimArgs I)
  models : List M

/-- `fit`, `/repo/skmine/itemsets/slim_classifier.py:64-77`, without input validation. `train` is the fit of one SLIM model. `np.unique` sorts. -/
def fit (train : SlimArgs I → List T → M) (a : ClfArgs I) (X : List T) (y : List L) : Clf L T M I :=
  let classes := sortSet y.toFinset
  let classesX := classes.map (fun c => ((X.zip y).filter (fun p => p.2 = c)).map Prod.fst)
  let args := classes.map (fun _ => slimDefault a.items)
  { classes := classes, classesX := classesX, args := args, models := (args.zip classesX).map (fun p => train p.1 p.2) }

/-- `argmax` of a row: the index of the first maximum, with it; `none` on an empty row (an error in numpy). -/
def argmax : List S → Option (ℕ × S)
  | [] => none
  | s :: l =>
    match argmax l with
    | none => some (0, s)
    | some (i, m) => if m ≤ s then some (0, s) else some (i + 1, m)

/-- `predict`, `/repo/skmine/itemsets/slim_classifier.py:91-94`. `decision m X` is the list of scores of the transactions of `X`.
`none` when there is no class or when a model does not return one score per transaction. -/
def predict (decision : M → List T → List S) (clf : Clf L T M I) (X : List T) : Option (List L) :=
  (List.range X.length).mapM (fun t =>
    (clf.models.mapM (fun m => (decision m X)[t]?)).bind (fun scores => (argmax scores).bind (fun i => clf.classes[i.1]?)))

end Verif.Classify
