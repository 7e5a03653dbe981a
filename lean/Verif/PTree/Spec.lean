import Verif.PTree.Model

/-!
# What a pattern tree generates

Source: `/repo/skmine/periodic/pattern.py`; independent of the functions of `Verif/PTree/Model.lean`.
-/

set_option autoImplicit false

namespace Verif.PTree

variable {α : Type}

/- The timestamped events generated from a start time: each repetition shifts by the period, each child starts at its distance from the start of the previous child. -/
mutual
/-- The events generated by a tree. -/
def gen : Tree α → ℤ → List (ℤ × α)
  | .leaf ev, time => [(time, ev)]
  | .node r p ch, time => (List.range r).flatMap (fun i : ℕ => genF ch (time + (i : ℤ) * p))
/-- The events generated by successive children. -/
def genF : Forest α → ℤ → List (ℤ × α)
  | .nil, _ => []
  | .cons d t rest, time => gen t (time + d) ++ genF rest (time + d)
end

/-- The first distance in a list of children (`0` when there is none). -/
def Forest.firstDist : Forest α → ℤ
  | .nil => 0
  | .cons d _ _ => d

/-- There is at least one child. -/
def Forest.NonEmpty : Forest α → Prop
  | .nil => False
  | .cons _ _ _ => True

/- Trees whose inner nodes repeat at least once and have children, the first at distance 0. -/
mutual
/-- A regular tree. -/
def Tree.Regular : Tree α → Prop
  | .leaf _ => True
  | .node r _ ch => 1 ≤ r ∧ ch.NonEmpty ∧ ch.firstDist = 0 ∧ ch.Regular
/-- All the children are regular. -/
def Forest.Regular : Forest α → Prop
  | .nil => True
  | .cons _ t rest => t.Regular ∧ rest.Regular
end

end Verif.PTree
