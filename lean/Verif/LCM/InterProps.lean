import Verif.LCM.SplitProps

/-!
# The itemsets of LCM are intersections of transactions (C178)

Source: `/repo/skmine/itemsets/lcm.py`. The models are those of C01 to C04.
-/

set_option autoImplicit false
set_option linter.unusedSectionVars false

namespace Verif.LCM

variable {α : Type*} [LinearOrder α]

theorem tid_iff (D : List (List α)) (X : Finset α) (i : ℕ) : i ∈ tidsOf D X ↔ i < D.length ∧ ∀ x ∈ X, x ∈ D.getD i [] := by
  rw [tidsOf, Finset.mem_filter, Finset.mem_range]

theorem mem_items_of (D : List (List α)) (i : ℕ) (hi : i < D.length) (x : α) (hx : x ∈ D.getD i []) : x ∈ itemsOf D := by
  rw [List.getD_eq_getElem?_getD, List.getElem?_eq_getElem hi, Option.getD_some] at hx
  exact List.mem_toFinset.2 (List.mem_flatten.2 ⟨_, List.getElem_mem hi, hx⟩)

/-- C178. LCM returns exactly the non-empty intersections of one or more transactions that are frequent. -/
theorem lcm_intersections (m : ℚ) (hm : 0 < m) (o : Opts) (ho : OrderOk o.setOrder) (hmax : o.maxLength = -1) (D : List (List α)) (X : Finset α) :
    (∃ r ∈ lcm m o D, r.itemset.toFinset = X) ↔ X.Nonempty ∧ m ≤ ((tidsOf D X).card : ℚ) ∧ ∃ I : Finset ℕ, I.Nonempty ∧ (∀ i ∈ I, i < D.length) ∧ ∀ x, x ∈ X ↔ ∀ i ∈ I, x ∈ D.getD i [] := by
  rw [lcm_exact m o ho hmax D X]
  constructor
  · rintro ⟨⟨h1, h2, h3⟩, hc⟩
    have hpos : 0 < (tidsOf D X).card := by exact_mod_cast hm.trans_le h3
    obtain ⟨j, hj⟩ := Finset.card_pos.1 hpos
    refine ⟨h1, h3, tidsOf D X, ⟨j, hj⟩, fun i hi => ((tid_iff D X i).1 hi).1, fun x => ⟨fun hx i hi => ((tid_iff D X i).1 hi).2 x hx, fun h => ?_⟩⟩
    refine (closed_iff D X h2).1 hc x (mem_items_of D j ((tid_iff D X j).1 hj).1 x (h j hj)) (fun i hi => (tid_iff D _ i).2 ⟨((tid_iff D X i).1 hi).1, fun y hy => ?_⟩)
    rw [Finset.mem_singleton.1 hy]
    exact h i hi
  · rintro ⟨h1, h3, I, ⟨j, hj⟩, hI, hX⟩
    have h2 : X ⊆ itemsOf D := fun x hx => mem_items_of D j (hI j hj) x ((hX x).1 hx j hj)
    refine ⟨⟨h1, h2, h3⟩, (closed_iff D X h2).2 (fun y _ hy => (hX y).2 (fun i hi => ?_))⟩
    have hi' : i ∈ tidsOf D X := (tid_iff D X i).2 ⟨hI i hi, fun x hx => (hX x).1 hx i hi⟩
    exact ((tid_iff D _ i).1 (hy hi')).2 y (Finset.mem_singleton_self y)

/-- C178. What two itemsets of the result have in common is in the result too, with a support at least as large as theirs. -/
theorem lcm_common (m : ℚ) (hm : 0 < m) (o : Opts) (ho : OrderOk o.setOrder) (hmax : o.maxLength = -1) (D : List (List α)) (r s : Row α) (hr : r ∈ lcm m o D) (hs : s ∈ lcm m o D) (h : ∃ x ∈ r.itemset, x ∈ s.itemset) :
    ∃ q ∈ lcm m o D, (∀ x, x ∈ q.itemset ↔ x ∈ r.itemset ∧ x ∈ s.itemset) ∧ r.support ≤ q.support ∧ s.support ≤ q.support := by
  obtain ⟨-, h1, I, hI, hI', hIX⟩ := (lcm_intersections m hm o ho hmax D r.itemset.toFinset).1 ⟨r, hr, rfl⟩
  obtain ⟨-, -, J, -, hJ', hJX⟩ := (lcm_intersections m hm o ho hmax D s.itemset.toFinset).1 ⟨s, hs, rfl⟩
  have hle : m ≤ ((tidsOf D (r.itemset.toFinset ∩ s.itemset.toFinset)).card : ℚ) := h1.trans (by exact_mod_cast Finset.card_le_card (tidsOf_anti D Finset.inter_subset_left))
  obtain ⟨q, hq, e⟩ := (lcm_intersections m hm o ho hmax D (r.itemset.toFinset ∩ s.itemset.toFinset)).2 ⟨by
      obtain ⟨x, hx, hy⟩ := h
      exact ⟨x, Finset.mem_inter.2 ⟨List.mem_toFinset.2 hx, List.mem_toFinset.2 hy⟩⟩, hle, I ∪ J, hI.mono Finset.subset_union_left, fun i hi => (Finset.mem_union.1 hi).elim (hI' i) (hJ' i), fun x => by
      rw [Finset.mem_inter, hIX, hJX]
      exact ⟨fun hx i hi => (Finset.mem_union.1 hi).elim (hx.1 i) (hx.2 i), fun hx => ⟨fun i hi => hx i (Finset.mem_union_left _ hi), fun i hi => hx i (Finset.mem_union_right _ hi)⟩⟩⟩
  refine ⟨q, hq, fun x => by rw [← List.mem_toFinset, e, Finset.mem_inter, List.mem_toFinset, List.mem_toFinset], ?_, ?_⟩
  · rw [(lcm_rows m o ho D q hq).2.2.2.2.1, (lcm_rows m o ho D r hr).2.2.2.2.1, e]
    exact Finset.card_le_card (tidsOf_anti D Finset.inter_subset_left)
  · rw [(lcm_rows m o ho D q hq).2.2.2.2.1, (lcm_rows m o ho D s hs).2.2.2.2.1, e]
    exact Finset.card_le_card (tidsOf_anti D Finset.inter_subset_right)

theorem tid_of_transaction (D : List (List α)) (t : List α) (ht : t ∈ D) (X : Finset α) (hX : X ⊆ t.toFinset) : 1 ≤ (tidsOf D X).card := by
  obtain ⟨i, hi, rfl⟩ := List.getElem_of_mem ht
  refine Finset.card_pos.2 ⟨i, (tid_iff D X i).2 ⟨hi, fun x hx => ?_⟩⟩
  rw [List.getD_eq_getElem?_getD, List.getElem?_eq_getElem hi, Option.getD_some]
  exact List.mem_toFinset.1 (hX hx)

/-- C178. With the threshold of one transaction, every transaction that is not empty is in the result. -/
theorem lcm_transactions (m : ℚ) (hm : 0 < m) (hm1 : m ≤ 1) (o : Opts) (ho : OrderOk o.setOrder) (hmax : o.maxLength = -1) (D : List (List α)) (t : List α) (ht : t ∈ D) (hne : t ≠ []) :
    ∃ r ∈ lcm m o D, ∀ x, x ∈ r.itemset ↔ x ∈ t := by
  obtain ⟨i, hi, e⟩ := List.getElem_of_mem ht
  have hle : m ≤ ((tidsOf D t.toFinset).card : ℚ) := hm1.trans (by exact_mod_cast tid_of_transaction D t ht _ (Finset.Subset.refl _))
  obtain ⟨r, hr, e'⟩ := (lcm_intersections m hm o ho hmax D t.toFinset).2 ⟨by rwa [List.toFinset_nonempty_iff], hle, {i}, Finset.singleton_nonempty i, fun j hj => by rw [Finset.mem_singleton.1 hj]; exact hi, fun x => by
    simp only [Finset.mem_singleton, forall_eq]
    rw [List.getD_eq_getElem?_getD, List.getElem?_eq_getElem hi, Option.getD_some, e, List.mem_toFinset]⟩
  exact ⟨r, hr, fun x => by rw [← List.mem_toFinset, e', List.mem_toFinset]⟩

/-- C178. With the threshold of one transaction, LCMMax returns exactly the transactions, as sets, that are not empty and not included in a larger one. -/
theorem lcmMax_transactions (m : ℚ) (hm : 0 < m) (hm1 : m ≤ 1) (lex : Bool) (so : Finset α → List α) (hso : OrderOk so) (D : List (List α)) (X : Finset α) :
    (∃ r ∈ lcmMax m (-1) lex so D, r.itemset.toFinset = X) ↔ X.Nonempty ∧ (∃ t ∈ D, t.toFinset = X) ∧ ∀ t ∈ D, ¬ X ⊂ t.toFinset := by
  have hf : ∀ Y, Frequent D m Y ↔ Y.Nonempty ∧ ∃ t ∈ D, Y ⊆ t.toFinset := by
    intro Y
    constructor
    · rintro ⟨h1, -, h3⟩
      have hpos : 0 < (tidsOf D Y).card := by exact_mod_cast hm.trans_le h3
      obtain ⟨i, hi⟩ := Finset.card_pos.1 hpos
      obtain ⟨hi, hY⟩ := (tid_iff D Y i).1 hi
      refine ⟨h1, D[i], List.getElem_mem hi, fun y hy => ?_⟩
      have := hY y hy
      rw [List.getD_eq_getElem?_getD, List.getElem?_eq_getElem hi, Option.getD_some] at this
      exact List.mem_toFinset.2 this
    · rintro ⟨h1, t, ht, hY⟩
      have := tid_of_transaction D t ht Y hY
      exact ⟨h1, items_of_pos this, hm1.trans (by exact_mod_cast this)⟩
  rw [lcmMax_exact m lex so hso D X]
  unfold MaximalFrequent
  simp only [hf]
  constructor
  · rintro ⟨⟨h1, t, ht, hX⟩, h2⟩
    have hall : ∀ t ∈ D, ¬ X ⊂ t.toFinset := fun u hu hXu => h2 u.toFinset hXu ⟨h1.mono hXu.1, u, hu, Finset.Subset.refl _⟩
    exact ⟨h1, ⟨t, ht, by by_contra hn; exact hall t ht (lt_of_le_of_ne hX (fun e => hn e.symm))⟩, hall⟩
  · rintro ⟨h1, ⟨t, ht, rfl⟩, h2⟩
    exact ⟨⟨h1, t, ht, Finset.Subset.refl _⟩, fun Y hY hn => by
      obtain ⟨-, u, hu, hYu⟩ := hn
      exact h2 u hu (lt_of_lt_of_le hY hYu)⟩

/-! ### Examples -/

/-- Three transactions, one of them empty: both others are in the result, and the item they have in common. -/
example : (lcm 1 ⟨-1, true, sortSet⟩ [[1, 2], [], [3, 2]]).map (fun r => (r.itemset, r.support)) = [([2], 2), ([1, 2], 1), ([2, 3], 1)] ∧
    (lcmMax 1 (-1) true sortSet [[1, 2], [], [3, 2], [3]]).map (fun r => r.itemset) = [[2, 3], [1, 2]] := by decide

end Verif.LCM
