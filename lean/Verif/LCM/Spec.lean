import Mathlib.Data.Finset.Card
import Mathlib.Data.Finset.Union
import Mathlib.Data.Rat.Defs
import Mathlib.Algebra.Order.Ring.Rat
import Mathlib.Data.Rat.Cast.Order

/-!
# Frequent, closed and maximal itemsets of a transaction list

This file does not mention the algorithm. A database is a list of transactions, a transaction is a list of items
(possibly with repetitions, possibly empty).
-/

set_option autoImplicit false

namespace Verif.LCM

variable {α : Type*} [DecidableEq α]

/-- The items occurring in the database. -/
def itemsOf (D : List (List α)) : Finset α := D.flatten.toFinset

/-- The positions of the transactions that contain every item of `X`. -/
def tidsOf (D : List (List α)) (X : Finset α) : Finset ℕ :=
  (Finset.range D.length).filter (fun i => ∀ x ∈ X, x ∈ D.getD i [])

/-- `X` is a non-empty set of items of `D` contained in at least `m` transactions. -/
def Frequent (D : List (List α)) (m : ℚ) (X : Finset α) : Prop :=
  X.Nonempty ∧ X ⊆ itemsOf D ∧ m ≤ ((tidsOf D X).card : ℚ)

/-- `X` is closed in `D`: every strict superset made of items of `D` has a strictly smaller support. -/
def Closed (D : List (List α)) (X : Finset α) : Prop :=
  ∀ Y, Y ⊆ itemsOf D → X ⊂ Y → (tidsOf D Y).card < (tidsOf D X).card

/-- `X` is a maximal frequent itemset: it is frequent and no strict superset is. -/
def MaximalFrequent (D : List (List α)) (m : ℚ) (X : Finset α) : Prop :=
  Frequent D m X ∧ ∀ Y, X ⊂ Y → ¬ Frequent D m Y

end Verif.LCM
