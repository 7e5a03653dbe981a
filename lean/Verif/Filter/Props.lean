import Verif.Filter.Lemmas

/-!
# C07, C08: `filter_maximal` and `filter_minimal`
-/

set_option autoImplicit false

namespace Verif.Filter

variable {α : Type*} [DecidableEq α]

/-- C07. `filter_maximal` returns exactly the members of the input with no strict superset in the input, with
their multiplicity. -/
theorem filterMaximal_exact (l : List (Finset α)) :
    (filterMaximal l).Perm (l.filter (NoStrictSuperset l)) := by
  have h := (filterMaximal_inv l).1
  have hp := List.perm_insertionSort (fun a b : Finset α => b.card ≤ a.card) l
  refine h.trans ((List.Perm.of_eq (List.filter_congr ?_)).trans (hp.filter (NoStrictSuperset l)))
  intro x _
  refine decide_eq_decide.2 ?_
  exact ⟨fun h y hy => h y (hp.mem_iff.2 hy), fun h y hy => h y (hp.mem_iff.1 hy)⟩

/-- C07. The result is ordered by increasing length. -/
theorem filterMaximal_sorted (l : List (Finset α)) :
    (filterMaximal l).Pairwise (fun a b => a.card ≤ b.card) := (filterMaximal_inv l).2.2

/-- C08. `filter_minimal` returns exactly the members of the input with no strict subset in the input, with their
multiplicity. -/
theorem filterMinimal_exact (l : List (Finset α)) :
    (filterMinimal l).Perm (l.filter (NoStrictSubset l)) := by
  have h := (filterMinimal_inv l).1
  have hp := List.perm_insertionSort (fun a b : Finset α => a.card ≤ b.card) l
  refine h.trans ((List.Perm.of_eq (List.filter_congr ?_)).trans (hp.filter (NoStrictSubset l)))
  intro x _
  refine decide_eq_decide.2 ?_
  exact ⟨fun h y hy => h y (hp.mem_iff.2 hy), fun h y hy => h y (hp.mem_iff.1 hy)⟩

/-- C08. The result is ordered by increasing length. -/
theorem filterMinimal_sorted (l : List (Finset α)) :
    (filterMinimal l).Pairwise (fun a b => a.card ≤ b.card) := (filterMinimal_inv l).2.2

/-- A collection with a repeated maximal member and a dominated one. -/
example : filterMaximal [{1, 2}, {1}, {3}, {1, 2}, ({2} : Finset ℕ)] = [{3}, {1, 2}, {1, 2}] := by decide

example : filterMinimal [{1, 2}, {1}, {3}, {1, 2}, ({2, 3} : Finset ℕ)] = [{1}, {3}] := by decide

end Verif.Filter
