import Verif.LCM.CoreLemmas

/-! From sets of indices back to itemsets of the database. -/

set_option autoImplicit false

set_option linter.unusedSectionVars false

namespace Verif.LCM

variable {α : Type*} [LinearOrder α]

theorem tidsOf_mono (D : List (List α)) {X Y : Finset α} (h : X ⊆ Y) : tidsOf D Y ⊆ tidsOf D X := by
  intro t ht
  unfold tidsOf at ht ⊢
  rw [Finset.mem_filter] at ht ⊢
  exact ⟨ht.1, fun x hx => ht.2 x (h hx)⟩

theorem card_tidsOf (E : List (List α)) (Y : Finset α) :
    (tidsOf E Y).card = ((E.map List.toFinset).filter (fun t => Y ⊆ t)).length := by
  unfold tidsOf
  induction E using List.reverseRecOn with
  | nil => rfl
  | append_singleton E e ih =>
    rw [List.length_append, List.length_singleton, Finset.range_add_one, Finset.filter_insert]
    have hcongr : (Finset.range E.length).filter (fun i => ∀ x ∈ Y, x ∈ (E ++ [e]).getD i [])
        = (Finset.range E.length).filter (fun i => ∀ x ∈ Y, x ∈ E.getD i []) := by
      apply Finset.filter_congr
      intro i hi
      rw [Finset.mem_range] at hi
      rw [List.getD_eq_getElem?_getD, List.getD_eq_getElem?_getD, List.getElem?_append_left hi]
    have hlast : (E ++ [e]).getD E.length [] = e := by simp
    rw [hcongr, List.map_append, List.filter_append, List.length_append, ← ih]
    have hiff : (∀ x ∈ Y, x ∈ (E ++ [e]).getD E.length []) ↔ Y ⊆ e.toFinset := by
      rw [hlast]
      constructor
      · intro h x hx; exact List.mem_toFinset.2 (h x hx)
      · intro h x hx; exact List.mem_toFinset.1 (h hx)
    by_cases h : ∀ x ∈ Y, x ∈ (E ++ [e]).getD E.length []
    · rw [if_pos h, Finset.card_insert_of_notMem (by simp)]
      simp [hiff.1 h]
    · rw [if_neg h]
      have : ¬ Y ⊆ e.toFinset := fun hs => h (hiff.2 hs)
      simp [this]

/-- Usual characterisation of closed sets by items. -/
theorem closed_iff (D : List (List α)) (X : Finset α) (hX : X ⊆ itemsOf D) :
    Closed D X ↔ ∀ y ∈ itemsOf D, tidsOf D X ⊆ tidsOf D {y} → y ∈ X := by
  constructor
  · intro hc y hy hsub
    by_contra hn
    have hlt := hc (insert y X) (Finset.insert_subset hy hX) (Finset.ssubset_insert hn)
    have : tidsOf D X ⊆ tidsOf D (insert y X) := by
      intro t ht
      have h1 := hsub ht
      unfold tidsOf at ht h1 ⊢
      rw [Finset.mem_filter] at ht h1 ⊢
      refine ⟨ht.1, fun x hx => ?_⟩
      rcases Finset.mem_insert.1 hx with rfl | hx
      · exact h1.2 x (Finset.mem_singleton_self x)
      · exact ht.2 x hx
    exact absurd hlt (not_lt.2 (Finset.card_le_card this))
  · intro h Y hY hXY
    obtain ⟨y, hyY, hyX⟩ := Finset.exists_of_ssubset hXY
    refine Finset.card_lt_card ⟨tidsOf_mono D hXY.1, fun hsub => hyX (h y (hY hyY) ?_)⟩
    exact hsub.trans (tidsOf_mono D (Finset.singleton_subset_iff.2 hyY))

/-- Items of a set of indices. -/
def its (F : Fitted α) (C : Finset ℕ) : Finset α := C.biUnion (fun i => (F.items[i]?).toList.toFinset)

theorem mem_its (F : Fitted α) (C : Finset ℕ) (x : α) : x ∈ its F C ↔ ∃ i ∈ C, F.items[i]? = some x := by
  unfold its
  rw [Finset.mem_biUnion]
  constructor
  · rintro ⟨i, hi, hx⟩
    rw [List.mem_toFinset, Option.mem_toList] at hx
    exact ⟨i, hi, hx⟩
  · rintro ⟨i, hi, hx⟩
    exact ⟨i, hi, by rw [List.mem_toFinset, Option.mem_toList]; exact hx⟩

/-- Indices of the items of `X`. -/
def idx (F : Fitted α) (X : Finset α) : Finset ℕ :=
  (Finset.range F.tids.length).filter (fun i => ∃ x ∈ X, F.items[i]? = some x)

theorem mem_idx (F : Fitted α) (X : Finset α) (i : ℕ) :
    i ∈ idx F X ↔ i < F.tids.length ∧ ∃ x ∈ X, F.items[i]? = some x := by
  unfold idx; rw [Finset.mem_filter, Finset.mem_range]

section
variable {m : ℚ} {D : List (List α)} {F : Fitted α} (hF : FitSpec m D F)
include hF

theorem FitSpec.get {i : ℕ} (hi : i < F.tids.length) : ∃ x, F.items[i]? = some x := by
  rw [hF.len] at hi
  exact ⟨F.items[i], List.getElem?_eq_getElem hi⟩

theorem FitSpec.lt {i : ℕ} {x : α} (h : F.items[i]? = some x) : i < F.tids.length := by
  rw [hF.len]
  obtain ⟨h, _⟩ := List.getElem?_eq_some_iff.1 h
  exact h

theorem FitSpec.inj {i j : ℕ} {x : α} (hi : F.items[i]? = some x) (hj : F.items[j]? = some x) : i = j := by
  obtain ⟨h1, h1'⟩ := List.getElem?_eq_some_iff.1 hi
  obtain ⟨h2, h2'⟩ := List.getElem?_eq_some_iff.1 hj
  exact (hF.nodup.getElem_inj_iff).1 (h1'.trans h2'.symm)

theorem FitSpec.allFrequent : AllFrequent F m := by
  intro i hi
  obtain ⟨x, hx⟩ := hF.get hi
  rw [hF.ids i x hx]
  exact ((hF.mem x).1 (List.mem_of_getElem? hx)).2

theorem FitSpec.its_inj {C1 C2 : Finset ℕ} (h1 : ∀ i ∈ C1, i < F.tids.length) (h2 : ∀ i ∈ C2, i < F.tids.length)
    (h : its F C1 = its F C2) : C1 = C2 := by
  have key : ∀ A B : Finset ℕ, (∀ i ∈ A, i < F.tids.length) → its F A = its F B → A ⊆ B := by
    intro A B hA hAB i hi
    obtain ⟨x, hx⟩ := hF.get (hA i hi)
    have : x ∈ its F B := hAB ▸ (mem_its _ _ _).2 ⟨i, hi, hx⟩
    obtain ⟨j, hj, hjx⟩ := (mem_its _ _ _).1 this
    rw [hF.inj hx hjx]; exact hj
  exact Finset.Subset.antisymm (key _ _ h1 h) (key _ _ h2 h.symm)

theorem FitSpec.supp_eq {C t : Finset ℕ} (hne : C.Nonempty) (hC : ∀ i ∈ C, i < F.tids.length)
    (h : IsSupp F C t) : t = tidsOf D (its F C) := by
  have hne' : (its F C).Nonempty := by
    obtain ⟨i, hi⟩ := hne
    obtain ⟨x, hx⟩ := hF.get (hC i hi)
    exact ⟨x, (mem_its _ _ _).2 ⟨i, hi, hx⟩⟩
  ext s
  rw [h s, mem_tidsOf D _ hne']
  constructor
  · intro hs x hx
    obtain ⟨i, hi, hix⟩ := (mem_its _ _ _).1 hx
    have := hs i hi
    rw [hF.ids i x hix, mem_tidsOf_singleton] at this
    exact this
  · intro hs i hi
    obtain ⟨x, hx⟩ := hF.get (hC i hi)
    rw [hF.ids i x hx, mem_tidsOf_singleton]
    exact hs x ((mem_its _ _ _).2 ⟨i, hi, hx⟩)

theorem ClosedIdx.lt {C t : Finset ℕ} (h : ClosedIdx F m C t) : ∀ i ∈ C, i < F.tids.length := by
  intro i hi
  exact ((mem_cl _ _ _).1 (h.2.1.subset hi)).1

theorem FitSpec.sound {C t : Finset ℕ} (hne : C.Nonempty) (h : ClosedIdx F m C t) :
    Frequent D m (its F C) ∧ Closed D (its F C) ∧ t = tidsOf D (its F C) := by
  have hlt := ClosedIdx.lt hF h
  have ht := hF.supp_eq hne hlt h.1
  have hsub : its F C ⊆ itemsOf D := by
    intro x hx
    obtain ⟨i, _, hix⟩ := (mem_its _ _ _).1 hx
    exact ((hF.mem x).1 (List.mem_of_getElem? hix)).1
  have hne' : (its F C).Nonempty := by
    obtain ⟨i, hi⟩ := hne
    obtain ⟨x, hx⟩ := hF.get (hlt i hi)
    exact ⟨x, (mem_its _ _ _).2 ⟨i, hi, hx⟩⟩
  refine ⟨⟨hne', hsub, ht ▸ h.2.2⟩, ?_, ht⟩
  rw [closed_iff D _ hsub]
  intro y hy hys
  rw [← ht] at hys
  have hyF : y ∈ F.items := (hF.mem y).2 ⟨hy, le_trans h.2.2 (by exact_mod_cast Finset.card_le_card hys)⟩
  obtain ⟨i, hi⟩ := List.getElem?_of_mem hyF
  refine (mem_its _ _ _).2 ⟨i, h.2.1.symm.subset ((mem_cl _ _ _).2 ⟨hF.lt hi, ?_⟩), hi⟩
  rw [hF.ids i y hi]
  exact hys

theorem FitSpec.items_of_frequent {X : Finset α} (h : Frequent D m X) : ∀ x ∈ X, x ∈ F.items := by
  intro x hx
  refine (hF.mem x).2 ⟨h.2.1 hx, le_trans h.2.2 ?_⟩
  exact_mod_cast Finset.card_le_card (tidsOf_mono D (Finset.singleton_subset_iff.2 hx))

theorem FitSpec.its_idx {X : Finset α} (h : Frequent D m X) : its F (idx F X) = X := by
  ext x
  rw [mem_its]
  constructor
  · rintro ⟨i, hi, hix⟩
    obtain ⟨_, y, hy, hiy⟩ := (mem_idx _ _ _).1 hi
    rw [hix] at hiy
    exact (Option.some.inj hiy) ▸ hy
  · intro hx
    obtain ⟨i, hi⟩ := List.getElem?_of_mem (hF.items_of_frequent h x hx)
    exact ⟨i, (mem_idx _ _ _).2 ⟨hF.lt hi, x, hx, hi⟩, hi⟩

theorem FitSpec.idx_nonempty {X : Finset α} (h : Frequent D m X) : (idx F X).Nonempty := by
  obtain ⟨x, hx⟩ := h.1
  obtain ⟨i, hi⟩ := List.getElem?_of_mem (hF.items_of_frequent h x hx)
  exact ⟨i, (mem_idx _ _ _).2 ⟨hF.lt hi, x, hx, hi⟩⟩

theorem FitSpec.isSupp_idx {X : Finset α} (h : Frequent D m X) : IsSupp F (idx F X) (tidsOf D X) := by
  intro s
  rw [mem_tidsOf D X h.1]
  constructor
  · intro hs i hi
    obtain ⟨_, x, hx, hix⟩ := (mem_idx _ _ _).1 hi
    rw [hF.ids i x hix, mem_tidsOf_singleton]
    exact hs x hx
  · intro hs x hx
    obtain ⟨i, hi⟩ := List.getElem?_of_mem (hF.items_of_frequent h x hx)
    have := hs i ((mem_idx _ _ _).2 ⟨hF.lt hi, x, hx, hi⟩)
    rw [hF.ids i x hi, mem_tidsOf_singleton] at this
    exact this

theorem FitSpec.complete {X : Finset α} (h : Frequent D m X) (hc : Closed D X) :
    ClosedIdx F m (idx F X) (tidsOf D X) := by
  refine ⟨hF.isSupp_idx h, ?_, h.2.2⟩
  ext i
  rw [mem_idx, mem_cl]
  constructor
  · rintro ⟨hi, x, hx, hix⟩
    refine ⟨hi, ?_⟩
    rw [hF.ids i x hix]
    exact tidsOf_mono D (Finset.singleton_subset_iff.2 hx)
  · rintro ⟨hi, hsub⟩
    obtain ⟨x, hx⟩ := hF.get hi
    rw [hF.ids i x hx] at hsub
    exact ⟨hi, x, (closed_iff D X h.2.1).1 hc x ((hF.mem x).1 (List.mem_of_getElem? hx)).1 hsub, hx⟩

end

/-- The iteration order over a set of indices lists each of its elements once. -/
def OrderOk {β : Type*} (setOrder : Finset β → List β) : Prop :=
  ∀ s, (setOrder s).Nodup ∧ ∀ i, i ∈ setOrder s ↔ i ∈ s

section
variable {m : ℚ} {D : List (List α)} {F : Fitted α} (hF : FitSpec m D F) {o : Opts} (ho : OrderOk o.setOrder)

include ho in
theorem mkRow_toFinset (C t : Finset ℕ) : (mkRow F o C t).itemset.toFinset = its F C := by
  have key : ((o.setOrder C).filterMap (fun ind => F.items[ind]?)).toFinset = its F C := by
    ext x
    rw [List.mem_toFinset, List.mem_filterMap, mem_its]
    simp only [(ho C).2]
  unfold mkRow
  simp only
  split
  · rw [← key]
    exact List.toFinset_eq_of_perm _ _ (List.perm_insertionSort _ _)
  · exact key

include hF ho in
theorem mkRow_nodup (C t : Finset ℕ) : (mkRow F o C t).itemset.Nodup := by
  have key : ((o.setOrder C).filterMap (fun ind => F.items[ind]?)).Nodup := by
    refine List.Nodup.filterMap ?_ (ho C).1
    intro i j x hi hj
    exact hF.inj (Option.mem_def.1 hi) (Option.mem_def.1 hj)
  unfold mkRow
  simp only
  split
  · exact (List.perm_insertionSort _ _).nodup_iff.2 key
  · exact key

include hF ho in
theorem mkRow_sorted (hlex : o.lexicographic = true) (C t : Finset ℕ) :
    (mkRow F o C t).itemset.Pairwise (· < ·) := by
  have hnd := mkRow_nodup hF ho C t
  unfold mkRow at hnd ⊢
  simp only [hlex, if_true] at hnd ⊢
  have hs := List.pairwise_insertionSort (· ≤ ·) ((o.setOrder C).filterMap (fun ind => F.items[ind]?))
  exact (hs.and hnd).imp (fun h => lt_of_le_of_ne h.1 h.2)

end

end Verif.LCM
