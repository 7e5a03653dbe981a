import Verif.LCM.Model
import Verif.MinSupp.Model

/-!
# LCM and LCMMax objects used again and again: model (C110)

Source: `/repo/skmine/itemsets/lcm.py:78-240, 358-380`, `/repo/skmine/base.py:145-160`.

The data are lists of transactions or pandas Series of transactions. `min_supp` is an integer or a finite float (C06 has the other values). The output to a file is C49.
-/

set_option autoImplicit false

namespace Verif.LCM

open Verif.MinSupp

variable {α : Type*}

/-- The data given to a method: a Python list or a Series. -/
structure Data (α : Type*) where
  series : Bool
  rows : List (List α)

/-- A value of `min_supp`. -/
inductive Supp
  | int (z : ℤ)
  | float (q : ℚ)
  deriving DecidableEq

/-- As a Python value. -/
def Supp.val : Supp → PyVal
  | .int z => .int z
  | .float q => .float (.fin q)

/-- The exceptions. -/
inductive SErr
  | value
  | notFitted
  | index
  | attribute
  deriving DecidableEq

/-- The number kept as `n_features_in_`, `/repo/skmine/itemsets/lcm.py:140, 205`: `D.shape[-1]` of a Series is its length, for a list it is the length of its last transaction. -/
def Data.features (D : Data α) : Except SErr ℕ :=
  if D.series then .ok D.rows.length
  else match D.rows.getLast? with
    | some t => .ok t.length
    | none => .error .index

/-- An object: `min_supp`, and after a fit `item_to_tids_` with `ord_item_freq_`, `min_supp_`, `n_features_in_`. -/
structure Obj (α : Type*) where
  minSupp : Supp
  fitted : Option (Fitted α × ℚ × ℕ)

/-- `LCM(min_supp=...)`, `/repo/skmine/itemsets/lcm.py:78-81`. -/
def Obj.new (v : Supp) : Obj α := ⟨v, none⟩

/-- `min_supp_`, `/repo/skmine/itemsets/lcm.py:121-124`; `rnd` rounds the product of floats. -/
def absolute (rnd : ℚ → ℚ) (v : Supp) (n : ℕ) : ℚ :=
  match v with
  | .int z => z
  | .float q => rnd (q * n)

/-- `LCM.fit`, `/repo/skmine/itemsets/lcm.py:110-142`. `_validate_data` refuses data without transaction; the attributes are set after the check of `min_supp`. -/
def Obj.fit [DecidableEq α] (rnd : ℚ → ℚ) (o : Obj α) (D : Data α) : Except SErr Unit × Obj α :=
  if D.rows = [] then (.error .value, o)
  else
    match checkMinSupp o.minSupp.val with
    | .error _ => (.error .value, o)
    | .ok _ =>
      match D.features with
      | .error e => (.error e, o)
      | .ok n => (.ok (), { o with fitted := some (LCM.fit (absolute rnd o.minSupp D.rows.length) D.rows, absolute rnd o.minSupp D.rows.length, n) })

/-- The options `lexicographic_order` and `max_length` of a call, as far as they are given. -/
structure Given where
  lexicographic : Option Bool
  maxLength : Option ℤ

/-- The options in force, `/repo/skmine/itemsets/lcm.py:144`: named ones, positional ones, defaults. A name and a position for the same option is a `TypeError`, not modelled. -/
def Given.opts (pos named : Given) (setOrder : Finset ℕ → List ℕ) : Opts :=
  ⟨(named.maxLength.or pos.maxLength).getD (-1), (named.lexicographic.or pos.lexicographic).getD true, setOrder⟩

variable [LinearOrder α]

/-- `LCM.transform`, `/repo/skmine/itemsets/lcm.py:199-218`. -/
def Obj.transform (o : Obj α) (D : Data α) (pos named : Given) (setOrder : Finset ℕ → List ℕ) : Except SErr (List (Row α)) :=
  match o.fitted with
  | none => .error .notFitted
  | some (F, m, n) =>
    match D.features with
    | .error e => .error e
    | .ok k => if k ≠ n then .error .value else .ok (LCM.transform F m (pos.opts named setOrder))

/-- `LCMMax.transform`, `/repo/skmine/itemsets/lcm.py:358-380`: the positional options are dropped (line 361); without data, `D.shape` raises (line 205). -/
def Obj.transformMax (o : Obj α) (D : Option (Data α)) (_pos named : Given) (setOrder : Finset α → List α) : Except SErr (List (Row α)) :=
  match o.fitted with
  | none => .error .notFitted
  | some (F, m, n) =>
    match D with
    | none => .error .attribute
    | some D =>
      match D.features with
      | .error e => .error e
      | .ok k => if k ≠ n then .error .value else .ok (LCM.transformMax F m (named.maxLength.getD (-1)) (named.lexicographic.getD true) setOrder)

/-- The calls. -/
inductive Op (α : Type*)
  | setMinSupp (v : Supp)
  | fit (D : Data α)
  | ask (D : Data α)

/-- The object after a call. `transform` sets only the options of the call. -/
def Obj.step (rnd : ℚ → ℚ) (o : Obj α) : Op α → Obj α
  | .setMinSupp v => { o with minSupp := v }
  | .fit D => (o.fit rnd D).2
  | .ask _ => o

/-- Calls one after the other. -/
def Obj.run (rnd : ℚ → ℚ) (o : Obj α) (ops : List (Op α)) : Obj α := ops.foldl (Obj.step rnd) o

/-- `fit_transform`, `/repo/skmine/base.py:145-160`. -/
def Obj.fitTransform (rnd : ℚ → ℚ) (o : Obj α) (D : Data α) (named : Given) (setOrder : Finset ℕ → List ℕ) : Except SErr (List (Row α)) :=
  match o.fit rnd D with
  | (.error e, _) => .error e
  | (.ok _, o') => o'.transform D ⟨none, none⟩ named setOrder

end Verif.LCM
