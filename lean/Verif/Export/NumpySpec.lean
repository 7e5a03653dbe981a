import Verif.Export.NumpyModel

/-!
# Plain values (C145)
-/

set_option autoImplicit false

namespace Verif.Export

mutual
/-- `json.dumps` accepts the value: there is no numpy integer in it, at any depth. -/
inductive Plain : NVal → Prop
  | none : Plain .none
  | int (n : ℤ) : Plain (.int n)
  | list (l : List NVal) : PlainL l → Plain (.list l)
  | tup (l : List NVal) : PlainL l → Plain (.tup l)
  | dict (d : List (Key × NVal)) : PlainD d → Plain (.dict d)
/-- All items are plain. -/
inductive PlainL : List NVal → Prop
  | nil : PlainL []
  | cons (v : NVal) (l : List NVal) : Plain v → PlainL l → PlainL (v :: l)
/-- All values of a dictionary are plain. -/
inductive PlainD : List (Key × NVal) → Prop
  | nil : PlainD []
  | cons (k : Key) (v : NVal) (d : List (Key × NVal)) : Plain v → PlainD d → PlainD ((k, v) :: d)
end

mutual
/-- The value, whatever the types of its integers. -/
def forget : NVal → Val
  | .none => .none
  | .int n => .int n
  | .np n => .int n
  | .list l => .list (forgetL l)
  | .tup l => .tup (forgetL l)
  | .dict d => .dict (forgetD d)
/-- The items of a list. -/
def forgetL : List NVal → List Val
  | [] => []
  | v :: l => forget v :: forgetL l
/-- The values of a dictionary. -/
def forgetD : NDict → Dict
  | [] => []
  | (k, v) :: d => (k, forget v) :: forgetD d
end

end Verif.Export
