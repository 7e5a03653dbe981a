import Mathlib.Data.Finset.Max
import Verif.Filter.Props

/-!
# Borders of collections of itemsets (C176)

Source: `/repo/skmine/utils.py:46-89`. The models are those of C07 and C08.
-/

set_option autoImplicit false
set_option linter.unusedSectionVars false

namespace Verif.Filter

variable {α : Type*} [DecidableEq α]

/-- C176. Every itemset is included in one of the itemsets that `filter_maximal` keeps. -/
theorem maximal_above (l : List (Finset α)) (x : Finset α) (hx : x ∈ l) : ∃ y ∈ filterMaximal l, x ⊆ y := by
  obtain ⟨y, hy, hmax⟩ := (l.toFinset.filter (fun y => x ⊆ y)).exists_max_image Finset.card ⟨x, Finset.mem_filter.2 ⟨List.mem_toFinset.2 hx, Finset.Subset.refl x⟩⟩
  obtain ⟨hy, hxy⟩ := Finset.mem_filter.1 hy
  refine ⟨y, (filterMaximal_exact l).mem_iff.2 (List.mem_filter.2 ⟨List.mem_toFinset.1 hy, decide_eq_true ?_⟩), hxy⟩
  intro z hz hyz
  have := hmax z (Finset.mem_filter.2 ⟨List.mem_toFinset.2 hz, hxy.trans hyz.1⟩)
  exact absurd (Finset.card_lt_card hyz) (not_lt.2 this)

/-- C176. Filtering a part first changes nothing: a collection can be filtered in pieces, in any order. -/
theorem maximal_pieces (l k k' : List (Finset α)) (h : k.Perm k') : (filterMaximal (filterMaximal l ++ k)).Perm (filterMaximal (l ++ k')) := by
  have hA := filterMaximal_exact l
  have hiff : ∀ x, NoStrictSuperset (filterMaximal l ++ k) x ↔ NoStrictSuperset (l ++ k') x := by
    intro x
    constructor
    · intro hn y hy hxy
      rcases List.mem_append.1 hy with hy | hy
      · obtain ⟨z, hz, hyz⟩ := maximal_above l y hy
        exact hn z (List.mem_append_left _ hz) (lt_of_lt_of_le hxy hyz)
      · exact hn y (List.mem_append_right _ (h.mem_iff.2 hy)) hxy
    · intro hn y hy hxy
      rcases List.mem_append.1 hy with hy | hy
      · exact hn y (List.mem_append_left _ (List.mem_filter.1 (hA.mem_iff.1 hy)).1) hxy
      · exact hn y (List.mem_append_right _ (h.mem_iff.1 hy)) hxy
  refine (filterMaximal_exact _).trans (List.Perm.trans ?_ (filterMaximal_exact _).symm)
  have e : ∀ L : List (Finset α), L.filter (NoStrictSuperset (filterMaximal l ++ k)) = L.filter (NoStrictSuperset (l ++ k')) := fun L => List.filter_congr (fun x _ => decide_eq_decide.2 (hiff x))
  rw [e, List.filter_append, List.filter_append]
  refine List.Perm.append ((hA.filter _).trans (List.Perm.of_eq ?_)) (h.filter _)
  rw [List.filter_filter]
  refine List.filter_congr (fun x _ => ?_)
  by_cases hx : NoStrictSuperset (l ++ k') x
  · have : NoStrictSuperset l x := fun y hy => hx y (List.mem_append_left _ hy)
    simp [hx, this]
  · simp [hx]

/-- C176. Every itemset includes one of the itemsets that `filter_minimal` keeps. -/
theorem minimal_above (l : List (Finset α)) (x : Finset α) (hx : x ∈ l) : ∃ y ∈ filterMinimal l, y ⊆ x := by
  obtain ⟨y, hy, hmax⟩ := (l.toFinset.filter (fun y => y ⊆ x)).exists_min_image Finset.card ⟨x, Finset.mem_filter.2 ⟨List.mem_toFinset.2 hx, Finset.Subset.refl x⟩⟩
  obtain ⟨hy, hxy⟩ := Finset.mem_filter.1 hy
  refine ⟨y, (filterMinimal_exact l).mem_iff.2 (List.mem_filter.2 ⟨List.mem_toFinset.1 hy, decide_eq_true ?_⟩), hxy⟩
  intro z hz hyz
  have := hmax z (Finset.mem_filter.2 ⟨List.mem_toFinset.2 hz, hyz.1.trans hxy⟩)
  exact absurd (Finset.card_lt_card hyz) (not_lt.2 this)

/-- C176. Filtering a part first changes nothing: a collection can be filtered in pieces, in any order. -/
theorem minimal_pieces (l k k' : List (Finset α)) (h : k.Perm k') : (filterMinimal (filterMinimal l ++ k)).Perm (filterMinimal (l ++ k')) := by
  have hA := filterMinimal_exact l
  have hiff : ∀ x, NoStrictSubset (filterMinimal l ++ k) x ↔ NoStrictSubset (l ++ k') x := by
    intro x
    constructor
    · intro hn y hy hxy
      rcases List.mem_append.1 hy with hy | hy
      · obtain ⟨z, hz, hyz⟩ := minimal_above l y hy
        exact hn z (List.mem_append_left _ hz) (lt_of_le_of_lt hyz hxy)
      · exact hn y (List.mem_append_right _ (h.mem_iff.2 hy)) hxy
    · intro hn y hy hxy
      rcases List.mem_append.1 hy with hy | hy
      · exact hn y (List.mem_append_left _ (List.mem_filter.1 (hA.mem_iff.1 hy)).1) hxy
      · exact hn y (List.mem_append_right _ (h.mem_iff.1 hy)) hxy
  refine (filterMinimal_exact _).trans (List.Perm.trans ?_ (filterMinimal_exact _).symm)
  have e : ∀ L : List (Finset α), L.filter (NoStrictSubset (filterMinimal l ++ k)) = L.filter (NoStrictSubset (l ++ k')) := fun L => List.filter_congr (fun x _ => decide_eq_decide.2 (hiff x))
  rw [e, List.filter_append, List.filter_append]
  refine List.Perm.append ((hA.filter _).trans (List.Perm.of_eq ?_)) (h.filter _)
  rw [List.filter_filter]
  refine List.filter_congr (fun x _ => ?_)
  by_cases hx : NoStrictSubset (l ++ k') x
  · have : NoStrictSubset l x := fun y hy => hx y (List.mem_append_left _ hy)
    simp [hx, this]
  · simp [hx]

/-- Filtering twice is filtering once, and the order of the collection does not matter. -/
theorem filter_again (l l' : List (Finset α)) (h : l.Perm l') : (filterMaximal (filterMaximal l)).Perm (filterMaximal l) ∧ (filterMaximal l).Perm (filterMaximal l') ∧
    (filterMinimal (filterMinimal l)).Perm (filterMinimal l) ∧ (filterMinimal l).Perm (filterMinimal l') := by
  refine ⟨by simpa using maximal_pieces l [] [] (List.Perm.refl _), by simpa [filterMaximal] using maximal_pieces [] l l' h, by simpa using minimal_pieces l [] [] (List.Perm.refl _), by simpa [filterMinimal] using minimal_pieces [] l l' h⟩

/-- Two pieces with a common itemset, which is kept twice. -/
example : filterMaximal (filterMaximal [{1}, {1, 2}, ({3} : Finset ℕ)] ++ [{1, 2}, {3, 4}]) = [{1, 2}, {1, 2}, {3, 4}] ∧ filterMaximal ([{1}, {1, 2}, ({3} : Finset ℕ)] ++ [{3, 4}, {1, 2}]) = [{1, 2}, {3, 4}, {1, 2}] ∧
    filterMinimal (filterMinimal [{1}, {1, 2}, ({3} : Finset ℕ)] ++ [{1, 2}, {4}]) = [{1}, {3}, {4}] := by decide

end Verif.Filter
