import Verif.LCM.GrowProps
import Verif.Filter.Props

/-!
# Data over separate items, and the maximal itemsets among the closed ones (C175)

Source: `/repo/skmine/itemsets/lcm.py`, `/repo/skmine/utils.py:46-66`. The models are those of C01 to C04 and of C07.
-/

set_option autoImplicit false
set_option linter.unusedSectionVars false

namespace Verif.LCM

variable {α : Type*} [LinearOrder α]

section Lemmas

theorem tidsOf_append_eq (D E : List (List α)) (X : Finset α) : tidsOf (D ++ E) X = tidsOf D X ∪ (tidsOf E X).image (· + D.length) := by
  ext i
  simp only [tidsOf, Finset.mem_union, Finset.mem_image, Finset.mem_filter, Finset.mem_range, List.length_append]
  by_cases hi : i < D.length
  · rw [List.getD_eq_getElem?_getD, List.getElem?_append_left hi, ← List.getD_eq_getElem?_getD]
    constructor
    · rintro ⟨-, h⟩; exact Or.inl ⟨hi, h⟩
    · rintro (⟨-, h⟩ | ⟨j, -, e⟩)
      · exact ⟨by omega, h⟩
      · omega
  · rw [List.getD_eq_getElem?_getD, List.getElem?_append_right (by omega), ← List.getD_eq_getElem?_getD]
    constructor
    · rintro ⟨h1, h⟩; exact Or.inr ⟨i - D.length, ⟨by omega, h⟩, by omega⟩
    · rintro (⟨h, -⟩ | ⟨j, ⟨h1, h⟩, e⟩)
      · omega
      · have : i - D.length = j := by omega
        rw [this]; exact ⟨by omega, h⟩

theorem tidsOf_separate {D E : List (List α)} (h : Disjoint (itemsOf D) (itemsOf E)) {X : Finset α} (hX : X.Nonempty) (hs : X ⊆ itemsOf D) : tidsOf E X = ∅ :=
  tidsOf_foreign E X (fun hE => by
    obtain ⟨x, hx⟩ := hX
    exact Finset.disjoint_left.1 h (hs hx) (hE hx))

theorem closed_above_iff {D : List (List α)} {X : Finset α} (hpos : 0 < (tidsOf D X).card) : Closed D X ↔ ∀ Y, X ⊂ Y → (tidsOf D Y).card < (tidsOf D X).card := by
  constructor
  · intro h Y hY
    by_cases hs : Y ⊆ itemsOf D
    · exact h Y hs hY
    · rw [tidsOf_foreign D Y hs, Finset.card_empty]; exact hpos
  · intro h Y _ hY; exact h Y hY

theorem items_of_pos {D : List (List α)} {X : Finset α} (hpos : 0 < (tidsOf D X).card) : X ⊆ itemsOf D := by
  by_contra h
  rw [tidsOf_foreign D X h] at hpos
  simp at hpos

/-- If the transactions of `E` do not count for `X` and the sets above it, `X` is frequent and closed in a list with the same counts exactly if it is in `D`. -/
theorem same_counts {D F : List (List α)} {m : ℚ} (hm : 0 < m) {X : Finset α} (h : ∀ Y, X ⊆ Y → (tidsOf F Y).card = (tidsOf D Y).card) : (Frequent F m X ∧ Closed F X) ↔ (Frequent D m X ∧ Closed D X) := by
  have hX := h X (Finset.Subset.refl X)
  constructor
  · rintro ⟨⟨h1, -, h3⟩, h4⟩
    have hpos : 0 < (tidsOf F X).card := by exact_mod_cast hm.trans_le h3
    rw [closed_above_iff hpos] at h4
    rw [hX] at h3 hpos
    refine ⟨⟨h1, items_of_pos hpos, h3⟩, (closed_above_iff hpos).2 (fun Y hY => ?_)⟩
    rw [← h Y hY.1, ← hX]; exact h4 Y hY
  · rintro ⟨⟨h1, -, h3⟩, h4⟩
    have hpos : 0 < (tidsOf D X).card := by exact_mod_cast hm.trans_le h3
    rw [closed_above_iff hpos] at h4
    rw [← hX] at h3 hpos
    refine ⟨⟨h1, items_of_pos hpos, h3⟩, (closed_above_iff hpos).2 (fun Y hY => ?_)⟩
    rw [h Y hY.1, hX]; exact h4 Y hY

/-- In data over separate items, a frequent set belongs to one of the parts. -/
theorem side_of {D E : List (List α)} {m : ℚ} (hm : 0 < m) {X : Finset α} (h : Frequent (D ++ E) m X) : X ⊆ itemsOf D ∨ X ⊆ itemsOf E := by
  have hpos : 0 < (tidsOf (D ++ E) X).card := by exact_mod_cast hm.trans_le h.2.2
  rw [card_tidsOf_append] at hpos
  rcases Nat.eq_zero_or_pos (tidsOf D X).card with h0 | h0
  · exact Or.inr (items_of_pos (by omega))
  · exact Or.inl (items_of_pos h0)

end Lemmas

/-- C175 (separate items). If no item of `D` occurs in `E`, then with the same absolute threshold LCM returns for both together what it returns for `D`, and what it returns for `E` with the transaction ids moved by the number of transactions of `D`; nothing else and nothing twice. -/
theorem lcm_separate (m : ℚ) (hm : 0 < m) (o : Opts) (ho : OrderOk o.setOrder) (D E : List (List α)) (hd : ∀ t ∈ D, ∀ u ∈ E, ∀ x ∈ t, x ∉ u) :
    ((lcm m o (D ++ E)).map content).Perm ((lcm m o D).map content ++ (lcm m o E).map (fun r => (r.itemset.toFinset, r.support, r.tids.image (· + D.length)))) := by
  have hdis : Disjoint (itemsOf D) (itemsOf E) := by
    rw [Finset.disjoint_left]
    intro x h1 h2
    obtain ⟨t, ht, hx⟩ := List.mem_flatten.1 (List.mem_toFinset.1 h1)
    obtain ⟨u, hu, hy⟩ := List.mem_flatten.1 (List.mem_toFinset.1 h2)
    exact hd t ht u hu x hx hy
  have nd : ∀ (l : List (Row α)) (g : Row α → ℕ × Finset ℕ), (l.map (fun r => r.itemset.toFinset)).Nodup → (l.map (fun r => (r.itemset.toFinset, g r))).Nodup := by
    intro l g h
    refine List.Nodup.of_map Prod.fst ?_
    rw [List.map_map]
    exact h
  have inD : ∀ X : Finset α, X.Nonempty → X ⊆ itemsOf D → ∀ Y, X ⊆ Y → (tidsOf (D ++ E) Y).card = (tidsOf D Y).card := by
    intro X hX hs Y hY
    have h0 : tidsOf E Y = ∅ := Finset.subset_empty.1 ((tidsOf_anti E hY).trans (tidsOf_separate hdis hX hs).subset)
    rw [card_tidsOf_append, h0]; rfl
  have inE : ∀ X : Finset α, X.Nonempty → X ⊆ itemsOf E → ∀ Y, X ⊆ Y → (tidsOf (D ++ E) Y).card = (tidsOf E Y).card := by
    intro X hX hs Y hY
    have h0 : tidsOf D Y = ∅ := Finset.subset_empty.1 ((tidsOf_anti D hY).trans (tidsOf_separate hdis.symm hX hs).subset)
    rw [card_tidsOf_append, h0]; simp
  have memE : ∀ c : Finset α × ℕ × Finset ℕ, c ∈ (lcm m o E).map (fun r => (r.itemset.toFinset, r.support, r.tids.image (· + D.length))) ↔
      (Frequent E m c.1 ∧ Closed E c.1) ∧ c.2.1 = (tidsOf E c.1).card ∧ c.2.2 = (tidsOf E c.1).image (· + D.length) ∧ (o.maxLength ≠ -1 → (c.1.card : ℤ) ≤ o.maxLength) := by
    rintro ⟨X, s, t⟩
    constructor
    · intro h
      obtain ⟨r, hr, he⟩ := List.mem_map.1 h
      obtain ⟨h1, h3, h4, h5⟩ := (mem_lcm m o ho E (content r)).1 (List.mem_map_of_mem hr)
      simp only [content, Prod.mk.injEq] at he h1 h3 h4 h5
      obtain ⟨rfl, rfl, rfl⟩ := he
      exact ⟨h1, h3, by rw [h4], h5⟩
    · rintro ⟨h1, h3, h4, h5⟩
      obtain ⟨r, hr, he⟩ := List.mem_map.1 ((mem_lcm m o ho E (X, (tidsOf E X).card, tidsOf E X)).2 ⟨h1, rfl, rfl, h5⟩)
      simp only [content, Prod.mk.injEq] at he h3 h4
      exact List.mem_map.2 ⟨r, hr, by rw [he.1, he.2.1, he.2.2, h3, h4]⟩
  have hapart : ∀ c : Finset α × ℕ × Finset ℕ, Frequent D m c.1 → ¬ Frequent E m c.1 := by
    rintro c ⟨⟨x, hx⟩, h1, -⟩ ⟨-, h2, -⟩
    exact Finset.disjoint_left.1 hdis (h1 hx) (h2 hx)
  refine (List.perm_ext_iff_of_nodup (nd _ (fun r => (r.support, r.tids)) (lcm_nodup m o ho _)) (List.nodup_append'.2 ⟨nd _ (fun r => (r.support, r.tids)) (lcm_nodup m o ho D), nd _ (fun r => (r.support, r.tids.image (· + D.length))) (lcm_nodup m o ho E),
    fun c h1 h2 => hapart c ((mem_lcm m o ho D c).1 h1).1.1 ((memE c).1 h2).1.1⟩)).2 ?_
  intro c
  change c ∈ (lcm m o (D ++ E)).map content ↔ c ∈ (lcm m o D).map content ++ _
  rw [List.mem_append, mem_lcm m o ho, mem_lcm m o ho, memE]
  constructor
  · rintro ⟨h1, h3, h4, h5⟩
    rcases side_of hm h1.1 with hs | hs
    · have h0 := tidsOf_separate hdis h1.1.1 hs
      refine Or.inl ⟨(same_counts hm (inD _ h1.1.1 hs)).1 h1, ?_, ?_, h5⟩
      · rw [h3, inD _ h1.1.1 hs _ (Finset.Subset.refl _)]
      · rw [h4, tidsOf_append_eq, h0]; simp
    · have h0 := tidsOf_separate hdis.symm h1.1.1 hs
      refine Or.inr ⟨(same_counts hm (inE _ h1.1.1 hs)).1 h1, ?_, ?_, h5⟩
      · rw [h3, inE _ h1.1.1 hs _ (Finset.Subset.refl _)]
      · rw [h4, tidsOf_append_eq, h0]; simp
  · rintro (⟨h1, h3, h4, h5⟩ | ⟨h1, h3, h4, h5⟩)
    · have h0 := tidsOf_separate hdis h1.1.1 h1.1.2.1
      refine ⟨(same_counts hm (inD _ h1.1.1 h1.1.2.1)).2 h1, ?_, ?_, h5⟩
      · rw [h3, inD _ h1.1.1 h1.1.2.1 _ (Finset.Subset.refl _)]
      · rw [h4, tidsOf_append_eq, h0]; simp
    · have h0 := tidsOf_separate hdis.symm h1.1.1 h1.1.2.1
      refine ⟨(same_counts hm (inE _ h1.1.1 h1.1.2.1)).2 h1, ?_, ?_, h5⟩
      · rw [h3, inE _ h1.1.1 h1.1.2.1 _ (Finset.Subset.refl _)]
      · rw [h4, tidsOf_append_eq, h0]; simp

theorem maximal_iff (D : List (List α)) (m : ℚ) (X : Finset α) : MaximalFrequent D m X ↔ (Frequent D m X ∧ Closed D X) ∧ ∀ Y, Frequent D m Y ∧ Closed D Y → ¬ X ⊂ Y := by
  constructor
  · rintro ⟨h1, h2⟩
    refine ⟨⟨h1, fun Y hs hY => ?_⟩, fun Y hY hXY => h2 Y hXY hY.1⟩
    by_contra hc
    obtain ⟨x, hx⟩ := h1.1
    refine h2 Y hY ⟨⟨x, hY.1 hx⟩, hs, h1.2.2.trans ?_⟩
    exact_mod_cast not_lt.1 hc
  · rintro ⟨⟨h1, -⟩, h3⟩
    refine ⟨h1, fun Y hY hf => ?_⟩
    obtain ⟨C, hC, hCf, hCc, -⟩ := exists_closed D m Y hf
    exact h3 C ⟨hCf, hCc⟩ (lt_of_lt_of_le hY hC)

/-- C175 (maximal among closed). LCMMax returns the rows of LCM, with their supports and transaction ids, whose itemset is not included in another one of the result; with `max_length`, those of them that are short enough. -/
theorem lcmMax_of_lcm (m : ℚ) (k : ℤ) (lex : Bool) (so : Finset α → List α) (hso : OrderOk so) (o : Opts) (ho : OrderOk o.setOrder) (hmax : o.maxLength = -1) (D : List (List α)) :
    ((lcmMax m k lex so D).map content).Perm (((lcm m o D).map content).filter (fun c => decide ((∀ r ∈ lcm m o D, ¬ c.1 ⊂ r.itemset.toFinset) ∧ (k ≠ -1 → (c.1.card : ℤ) ≤ k)))) := by
  have nd : ∀ (l : List (Row α)), (l.map (fun r => r.itemset.toFinset)).Nodup → (l.map content).Nodup := by
    intro l h
    refine List.Nodup.of_map Prod.fst ?_
    rw [List.map_map]
    exact h
  rw [List.perm_ext_iff_of_nodup (nd _ (lcmMax_nodup m k lex so hso D)) ((nd _ (lcm_nodup m o ho D)).filter _)]
  intro c
  have hall : (∀ r ∈ lcm m o D, ¬ c.1 ⊂ r.itemset.toFinset) ↔ ∀ Y, Frequent D m Y ∧ Closed D Y → ¬ c.1 ⊂ Y := by
    constructor
    · intro h Y hY
      obtain ⟨r, hr, rfl⟩ := (lcm_exact m o ho hmax D Y).2 hY
      exact h r hr
    · intro h r hr
      exact h _ ((lcm_exact m o ho hmax D _).1 ⟨r, hr, rfl⟩)
  rw [mem_lcmMax m k lex so hso, List.mem_filter, mem_lcm m o ho, decide_eq_true_eq, hall, maximal_iff]
  constructor
  · rintro ⟨⟨h1, h2⟩, h3, h4, h5⟩
    exact ⟨⟨h1, h3, h4, fun h => absurd hmax h⟩, h2, h5⟩
  · rintro ⟨⟨h1, h3, h4, -⟩, h2, h5⟩
    exact ⟨⟨h1, h2⟩, h3, h4, h5⟩

/-- C175: the itemsets of LCMMax are what `filter_maximal` keeps of the itemsets of LCM. -/
theorem lcmMax_filter_maximal (m : ℚ) (lex : Bool) (so : Finset α → List α) (hso : OrderOk so) (o : Opts) (ho : OrderOk o.setOrder) (hmax : o.maxLength = -1) (D : List (List α)) :
    ((lcmMax m (-1) lex so D).map (fun r => r.itemset.toFinset)).Perm (Filter.filterMaximal ((lcm m o D).map (fun r => r.itemset.toFinset))) := by
  refine List.Perm.trans ?_ (Filter.filterMaximal_exact _).symm
  have h := (lcmMax_of_lcm m (-1) lex so hso o ho hmax D).map Prod.fst
  rw [List.map_map] at h
  refine h.trans (List.Perm.of_eq ?_)
  rw [List.filter_map, List.map_map, List.filter_map]
  refine congrArg _ (List.filter_congr (fun r _ => ?_))
  refine decide_eq_decide.2 ?_
  simp only [content, Filter.NoStrictSuperset, List.forall_mem_map, ne_eq, not_true_eq_false, false_implies, and_true]

/-! ### Examples -/

/-- Two parts without common items; and the two maximal itemsets among four closed ones. -/
example : (lcm 2 ⟨-1, true, sortSet⟩ ([[1, 2], [2, 1], [2]] ++ [[7], [8, 7], [7, 8]])).map (fun r => (r.itemset, r.tids)) = [([2], {0, 1, 2}), ([7], {3, 4, 5}), ([1, 2], {0, 1}), ([7, 8], {4, 5})] ∧
    (lcmMax 2 (-1) true sortSet [[3, 1, 3], [], [1, 2], [2, 3, 1], [4, 2]]).map (fun r => r.itemset) = [[1, 2], [1, 3]] := by decide

end Verif.LCM
