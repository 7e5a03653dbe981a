import Mathlib.Data.Finset.Basic

/-!
# What maximal and minimal members of a collection of sets are
-/

set_option autoImplicit false

namespace Verif.Filter

variable {α : Type*} [DecidableEq α]

/-- No member of the collection strictly contains `x`. -/
def NoStrictSuperset (l : List (Finset α)) (x : Finset α) : Prop := ∀ y ∈ l, ¬ x ⊂ y

/-- No member of the collection is strictly contained in `x`. -/
def NoStrictSubset (l : List (Finset α)) (x : Finset α) : Prop := ∀ y ∈ l, ¬ y ⊂ x

instance (l : List (Finset α)) : DecidablePred (NoStrictSuperset l) :=
  fun x => inferInstanceAs (Decidable (∀ y ∈ l, ¬ x ⊂ y))

instance (l : List (Finset α)) : DecidablePred (NoStrictSubset l) :=
  fun x => inferInstanceAs (Decidable (∀ y ∈ l, ¬ y ⊂ x))

end Verif.Filter
