import Mathlib.Data.Finset.Card
import Mathlib.Data.Finset.Union
import Mathlib.Data.Finset.Prod

/-!
# Covers of a transaction list by itemsets

This file does not mention the algorithm. A code table is a list of pairs (itemset, transactions it covers).
-/

set_option autoImplicit false

namespace Verif.Slim

variable {α : Type*}

/-- Item `a` occurs in transaction number `t` of `D`. -/
def Occurs (D : List (List α)) (a : α) (t : ℕ) : Prop := ∃ tr, D[t]? = some tr ∧ a ∈ tr

/-- The table `tab` is a lossless cover of the item occurrences given by `T`: every occurrence is covered by exactly one
itemset of the table, nothing else is covered, and no itemset is listed twice. -/
structure Lossless (T : α → ℕ → Prop) (tab : List (Finset α × Finset ℕ)) : Prop where
  /-- no itemset is listed twice -/
  nodup : (tab.map Prod.fst).Nodup
  /-- every occurrence is covered -/
  complete : ∀ a t, T a t → ∃ e ∈ tab, a ∈ e.1 ∧ t ∈ e.2
  /-- only occurrences are covered -/
  sound : ∀ e ∈ tab, ∀ a ∈ e.1, ∀ t ∈ e.2, T a t
  /-- no occurrence is covered twice -/
  unique : ∀ e ∈ tab, ∀ e' ∈ tab, ∀ a ∈ e.1, ∀ t ∈ e.2, a ∈ e'.1 → t ∈ e'.2 → e = e'

/-- The pairs (element, later element) of a list, in order. -/
def orderedPairs {β : Type*} : List β → List (β × β)
  | [] => []
  | x :: l => l.map (fun y => (x, y)) ++ orderedPairs l

end Verif.Slim
