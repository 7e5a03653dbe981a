import Mathlib.Algebra.BigOperators.Group.List.Basic
import Mathlib.Algebra.Order.Group.Defs
import Mathlib.Data.Nat.Notation

/-!
# Specification of segmentations (C39)
-/

set_option autoImplicit false

namespace Verif.Cycles

variable {C : Type*} [AddCommGroup C]

/-- The segments `(first, last)` follow each other from position `a` to position `e` excluded. -/
def Covers : ℕ → List (ℕ × ℕ) → ℕ → Prop
  | a, [], e => a = e
  | a, s :: l, e => s.1 = a ∧ s.1 ≤ s.2 ∧ Covers (s.2 + 1) l e

/-- Cost of a segment: the cost of a cycle from three occurrences on, otherwise each occurrence is a residual. -/
def segCost (cyc : ℕ → ℕ → C) (res : C) (s : ℕ × ℕ) : C := if s.1 + 2 ≤ s.2 then cyc s.1 s.2 else (s.2 + 1 - s.1) • res

/-- Cost of a segmentation. -/
def cost (cyc : ℕ → ℕ → C) (res : C) (l : List (ℕ × ℕ)) : C := (l.map (segCost cyc res)).sum

end Verif.Cycles
