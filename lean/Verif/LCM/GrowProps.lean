import Verif.LCM.MetaProps

/-!
# More transactions, repeated transactions (C127)

Source: `/repo/skmine/itemsets/lcm.py`. The models are those of C01 to C04.
-/

set_option autoImplicit false
set_option linter.unusedSectionVars false

namespace Verif.LCM

section Lemmas

variable {α : Type*} [LinearOrder α]

theorem card_tidsOf_append (D E : List (List α)) (X : Finset α) : (tidsOf (D ++ E) X).card = (tidsOf D X).card + (tidsOf E X).card := by
  simp only [card_tidsOf, List.map_append, List.filter_append, List.length_append]

theorem itemsOf_append (D E : List (List α)) : itemsOf (D ++ E) = itemsOf D ∪ itemsOf E := by
  unfold itemsOf
  rw [List.flatten_append, List.toFinset_append]

theorem tidsOf_append_left (D E : List (List α)) (X : Finset α) : (tidsOf (D ++ E) X).filter (· < D.length) = tidsOf D X := by
  ext i
  simp only [tidsOf, Finset.mem_filter, Finset.mem_range, List.length_append]
  constructor
  · rintro ⟨⟨-, h⟩, hi⟩
    refine ⟨hi, fun x hx => ?_⟩
    have := h x hx
    rwa [List.getD_eq_getElem?_getD, List.getElem?_append_left hi, ← List.getD_eq_getElem?_getD] at this
  · rintro ⟨hi, h⟩
    refine ⟨⟨by omega, fun x hx => ?_⟩, hi⟩
    rw [List.getD_eq_getElem?_getD, List.getElem?_append_left hi, ← List.getD_eq_getElem?_getD]
    exact h x hx

/-- An itemset with an item that does not occur has no transaction. -/
theorem tidsOf_foreign (D : List (List α)) (Y : Finset α) (h : ¬ Y ⊆ itemsOf D) : tidsOf D Y = ∅ := by
  rw [Finset.eq_empty_iff_forall_notMem]
  intro i hi
  apply h
  intro y hy
  obtain ⟨hi, hY⟩ := Finset.mem_filter.1 hi
  have hi := Finset.mem_range.1 hi
  have := hY y hy
  rw [List.getD_eq_getElem?_getD, List.getElem?_eq_getElem hi, Option.getD_some] at this
  exact List.mem_toFinset.2 (List.mem_flatten.2 ⟨_, List.getElem_mem hi, this⟩)

theorem closed_append (D E : List (List α)) (X : Finset α) (h : Closed D X) (hpos : 0 < (tidsOf D X).card) : Closed (D ++ E) X := by
  intro Y _ hXY
  rw [card_tidsOf_append, card_tidsOf_append]
  have h1 : (tidsOf D Y).card < (tidsOf D X).card := by
    by_cases hY : Y ⊆ itemsOf D
    · exact h Y hY hXY
    · rw [tidsOf_foreign D Y hY, Finset.card_empty]
      exact hpos
  have h2 := Finset.card_le_card (tidsOf_anti E hXY.1)
  omega

theorem frequent_append (D E : List (List α)) (m : ℚ) (X : Finset α) (h : Frequent D m X) : Frequent (D ++ E) m X := by
  refine ⟨h.1, ?_, h.2.2.trans ?_⟩
  · rw [itemsOf_append]
    exact h.2.1.trans Finset.subset_union_left
  · rw [card_tidsOf_append]
    exact_mod_cast Nat.le_add_right _ _

theorem closed_append_closed (D E : List (List α)) (X : Finset α) (h : Closed (D ++ E) X) (hX : ∀ t ∈ E, ¬ ∀ x ∈ X, x ∈ t) : Closed D X := by
  have h0 : ∀ Y, X ⊆ Y → (tidsOf E Y).card = 0 := by
    intro Y hXY
    rw [Finset.card_eq_zero, Finset.eq_empty_iff_forall_notMem]
    intro i hi
    obtain ⟨hi, hY⟩ := Finset.mem_filter.1 hi
    have hi := Finset.mem_range.1 hi
    refine hX E[i] (List.getElem_mem hi) (fun x hx => ?_)
    have := hY x (hXY hx)
    rwa [List.getD_eq_getElem?_getD, List.getElem?_eq_getElem hi, Option.getD_some] at this
  intro Y hY hXY
  have := h Y (by rw [itemsOf_append]; exact hY.trans Finset.subset_union_left) hXY
  rw [card_tidsOf_append, card_tidsOf_append, h0 Y hXY.1, h0 X (Finset.Subset.refl X)] at this
  omega

/-- `k` copies of a list of transactions. -/
def copies (k : ℕ) (D : List (List α)) : List (List α) := (List.replicate k D).flatten

theorem card_tidsOf_copies (k : ℕ) (D : List (List α)) (X : Finset α) : (tidsOf (copies k D) X).card = k * (tidsOf D X).card := by
  induction k with
  | zero => simp [copies, tidsOf]
  | succ k ih =>
    have : copies (k + 1) D = D ++ copies k D := by simp [copies, List.replicate_succ]
    rw [this, card_tidsOf_append, ih, Nat.succ_mul, Nat.add_comm]

theorem mem_copies (k : ℕ) (hk : 1 ≤ k) (D : List (List α)) (t : List α) : t ∈ copies k D ↔ t ∈ D := by
  unfold copies
  rw [List.mem_flatten]
  constructor
  · rintro ⟨l, hl, ht⟩
    rwa [(List.mem_replicate.1 hl).2] at ht
  · intro h
    exact ⟨D, List.mem_replicate.2 ⟨by omega, rfl⟩, h⟩

theorem itemsOf_copies {k : ℕ} (hk : 1 ≤ k) {D D' : List (List α)} (h : D'.Perm (copies k D)) : itemsOf D' = itemsOf D := by
  ext x
  simp only [itemsOf, List.mem_toFinset, List.mem_flatten, h.mem_iff, mem_copies k hk]

theorem card_tidsOf_perm {k : ℕ} {D D' : List (List α)} (h : D'.Perm (copies k D)) (X : Finset α) : (tidsOf D' X).card = k * (tidsOf D X).card := by
  rw [← card_tidsOf_copies, card_tidsOf, card_tidsOf]
  exact ((h.map _).filter _).length_eq

theorem frequent_copies {k : ℕ} (hk : 1 ≤ k) {D D' : List (List α)} (h : D'.Perm (copies k D)) (m : ℚ) (X : Finset α) : Frequent D' (k * m) X ↔ Frequent D m X := by
  unfold Frequent
  rw [itemsOf_copies hk h, card_tidsOf_perm h, Nat.cast_mul, mul_le_mul_iff_of_pos_left (by exact_mod_cast hk)]

theorem closed_copies {k : ℕ} (hk : 1 ≤ k) {D D' : List (List α)} (h : D'.Perm (copies k D)) (X : Finset α) : Closed D' X ↔ Closed D X := by
  unfold Closed
  rw [itemsOf_copies hk h]
  simp only [card_tidsOf_perm h, Nat.mul_lt_mul_left (show 0 < k from hk)]

end Lemmas

/-! ### The theorems -/

variable {α : Type*} [LinearOrder α]

/-- C127 (more transactions). With the same absolute threshold, adding transactions never removes an itemset from the result of LCM: its transactions among the old ones are the same, its support does not decrease. An itemset that is new in the
result is contained in one of the added transactions. -/
theorem lcm_grow (m : ℚ) (hm : 0 < m) (o o' : Opts) (ho : OrderOk o.setOrder) (ho' : OrderOk o'.setOrder) (hlen : o.maxLength = o'.maxLength) (D E : List (List α)) :
    (∀ r ∈ lcm m o D, ∃ r' ∈ lcm m o' (D ++ E), r'.itemset.toFinset = r.itemset.toFinset ∧ r.tids = r'.tids.filter (· < D.length) ∧ r.support ≤ r'.support) ∧
      ∀ r' ∈ lcm m o' (D ++ E), (∃ t ∈ E, ∀ x ∈ r'.itemset, x ∈ t) ∨ ∃ r ∈ lcm m o D, content r = content r' := by
  constructor
  · intro r hr
    obtain ⟨⟨h1, h2⟩, h3, h4, h5⟩ := (mem_lcm m o ho D (content r)).1 (List.mem_map_of_mem hr)
    have hpos : 0 < (tidsOf D r.itemset.toFinset).card := by exact_mod_cast hm.trans_le h1.2.2
    obtain ⟨r', hr', he⟩ := List.mem_map.1 ((mem_lcm m o' ho' (D ++ E) (r.itemset.toFinset, (tidsOf (D ++ E) r.itemset.toFinset).card, tidsOf (D ++ E) r.itemset.toFinset)).2
      ⟨⟨frequent_append D E m _ h1, closed_append D E _ h2 hpos⟩, rfl, rfl, hlen ▸ h5⟩)
    simp only [content, Prod.mk.injEq] at he h3 h4
    refine ⟨r', hr', he.1, ?_, ?_⟩
    · rw [he.2.2, tidsOf_append_left]
      exact h4
    · rw [he.2.1, h3, card_tidsOf_append]
      omega
  · intro r' hr'
    obtain ⟨⟨h1, h2⟩, h3, h4, h5⟩ := (mem_lcm m o' ho' (D ++ E) (content r')).1 (List.mem_map_of_mem hr')
    by_cases hE : ∃ t ∈ E, ∀ x ∈ r'.itemset, x ∈ t
    · exact Or.inl hE
    · right
      have hX : ∀ t ∈ E, ¬ ∀ x ∈ r'.itemset.toFinset, x ∈ t := by
        intro t ht h
        exact hE ⟨t, ht, fun x hx => h x (List.mem_toFinset.2 hx)⟩
      have h0 : (tidsOf E r'.itemset.toFinset).card = 0 := by
        rw [Finset.card_eq_zero, Finset.eq_empty_iff_forall_notMem]
        intro i hi
        obtain ⟨hi, hY⟩ := Finset.mem_filter.1 hi
        have hi := Finset.mem_range.1 hi
        refine hX E[i] (List.getElem_mem hi) (fun x hx => ?_)
        have := hY x hx
        rwa [List.getD_eq_getElem?_getD, List.getElem?_eq_getElem hi, Option.getD_some] at this
      have hc := card_tidsOf_append D E r'.itemset.toFinset
      rw [h0, Nat.add_zero] at hc
      have ht : tidsOf (D ++ E) r'.itemset.toFinset = tidsOf D r'.itemset.toFinset := by
        have := tidsOf_append_left D E r'.itemset.toFinset
        rw [← this]
        refine (Finset.eq_of_subset_of_card_le (Finset.filter_subset _ _) ?_).symm
        rw [this, hc]
      have hpos : (0 : ℚ) < ((tidsOf D r'.itemset.toFinset).card : ℚ) := by
        rw [← hc]
        exact hm.trans_le h1.2.2
      have hsub : r'.itemset.toFinset ⊆ itemsOf D := by
        by_contra hn
        rw [tidsOf_foreign D _ hn] at hpos
        simp at hpos
      refine List.mem_map.1 ((mem_lcm m o ho D (content r')).2 ⟨⟨⟨h1.1, hsub, ?_⟩, closed_append_closed D E _ h2 hX⟩, ?_, ?_, hlen ▸ h5⟩)
      · change m ≤ ((tidsOf D r'.itemset.toFinset).card : ℚ)
        rw [← hc]
        exact h1.2.2
      · rw [h3]
        exact hc
      · rw [h4]
        exact ht

/-- C127 (repeated transactions). If every transaction is repeated `k` times, in any order, and the threshold is multiplied by `k` (a relative threshold is), then LCM returns the same itemsets with supports multiplied by `k`. -/
theorem lcm_repeat (k : ℕ) (hk : 1 ≤ k) (m : ℚ) (o o' : Opts) (ho : OrderOk o.setOrder) (ho' : OrderOk o'.setOrder) (hlen : o.maxLength = o'.maxLength) (D D' : List (List α)) (hD : D'.Perm (List.replicate k D).flatten) :
    ((lcm (k * m) o' D').map (fun r => (r.itemset.toFinset, r.support))).Perm ((lcm m o D).map (fun r => (r.itemset.toFinset, k * r.support))) := by
  have hD : D'.Perm (copies k D) := hD
  have nd : ∀ (l : List (Row α)) (g : Row α → ℕ), (l.map (fun r => r.itemset.toFinset)).Nodup → (l.map (fun r => (r.itemset.toFinset, g r))).Nodup := by
    intro l g h
    refine List.Nodup.of_map Prod.fst ?_
    rw [List.map_map]
    exact h
  rw [List.perm_ext_iff_of_nodup (nd _ _ (lcm_nodup _ o' ho' _)) (nd _ _ (lcm_nodup m o ho D))]
  rintro ⟨X, s⟩
  have key : ∀ (m : ℚ) (o : Opts) (ho : OrderOk o.setOrder) (D : List (List α)) (f : ℕ → ℕ),
      (X, s) ∈ (lcm m o D).map (fun r => (r.itemset.toFinset, f r.support)) ↔ (Frequent D m X ∧ Closed D X) ∧ (o.maxLength ≠ -1 → (X.card : ℤ) ≤ o.maxLength) ∧ s = f (tidsOf D X).card := by
    intro m o ho D f
    constructor
    · intro h
      obtain ⟨r, hr, he⟩ := List.mem_map.1 h
      obtain ⟨h1, h3, h4, h5⟩ := (mem_lcm m o ho D (content r)).1 (List.mem_map_of_mem hr)
      simp only [content, Prod.mk.injEq] at he h1 h3 h5
      rw [he.1] at h1 h3 h5
      refine ⟨h1, h5, ?_⟩
      rw [← he.2, h3]
    · rintro ⟨h1, h5, h3⟩
      obtain ⟨r, hr, he⟩ := List.mem_map.1 ((mem_lcm m o ho D (X, (tidsOf D X).card, tidsOf D X)).2 ⟨h1, rfl, rfl, h5⟩)
      simp only [content, Prod.mk.injEq] at he
      refine List.mem_map.2 ⟨r, hr, ?_⟩
      rw [he.1, he.2.1, h3]
  have k1 := key (k * m) o' ho' D' id
  have k2 := key m o ho D (fun x => k * x)
  simp only [id] at k1
  rw [k1, k2, frequent_copies hk hD, closed_copies hk hD, card_tidsOf_perm hD, hlen]

/-- C127 (more transactions), for LCMMax: every itemset of the old result is included in one of the new result. -/
theorem lcmMax_grow (m : ℚ) (lex lex' : Bool) (so so' : Finset α → List α) (hso : OrderOk so) (hso' : OrderOk so') (D E : List (List α)) (r : Row α) (hr : r ∈ lcmMax m (-1) lex so D) :
    ∃ r' ∈ lcmMax m (-1) lex' so' (D ++ E), r.itemset.toFinset ⊆ r'.itemset.toFinset := by
  have h := (lcmMax_rows m (-1) lex so hso D r hr).2.1.1
  exact ((lcmMax_frequent m lex' so' hso' (D ++ E) _).1.1 (frequent_append D E m _ h)).2

/-- C127 (repeated transactions), for LCMMax. -/
theorem lcmMax_repeat (k : ℕ) (hk : 1 ≤ k) (m : ℚ) (n : ℤ) (lex lex' : Bool) (so so' : Finset α → List α) (hso : OrderOk so) (hso' : OrderOk so') (D D' : List (List α)) (hD : D'.Perm (List.replicate k D).flatten) :
    ((lcmMax (k * m) n lex' so' D').map (fun r => (r.itemset.toFinset, r.support))).Perm ((lcmMax m n lex so D).map (fun r => (r.itemset.toFinset, k * r.support))) := by
  have hD : D'.Perm (copies k D) := hD
  have nd : ∀ (l : List (Row α)) (g : Row α → ℕ), (l.map (fun r => r.itemset.toFinset)).Nodup → (l.map (fun r => (r.itemset.toFinset, g r))).Nodup := by
    intro l g h
    refine List.Nodup.of_map Prod.fst ?_
    rw [List.map_map]
    exact h
  rw [List.perm_ext_iff_of_nodup (nd _ _ (lcmMax_nodup _ n lex' so' hso' _)) (nd _ _ (lcmMax_nodup m n lex so hso D))]
  rintro ⟨X, s⟩
  have key : ∀ (m : ℚ) (lex : Bool) (so : Finset α → List α) (hso : OrderOk so) (D : List (List α)) (f : ℕ → ℕ),
      (X, s) ∈ (lcmMax m n lex so D).map (fun r => (r.itemset.toFinset, f r.support)) ↔ MaximalFrequent D m X ∧ (n ≠ -1 → (X.card : ℤ) ≤ n) ∧ s = f (tidsOf D X).card := by
    intro m lex so hso D f
    constructor
    · intro h
      obtain ⟨r, hr, he⟩ := List.mem_map.1 h
      obtain ⟨h1, h3, h4, h5⟩ := (mem_lcmMax m n lex so hso D (content r)).1 (List.mem_map_of_mem hr)
      simp only [content, Prod.mk.injEq] at he h1 h3 h5
      rw [he.1] at h1 h3 h5
      refine ⟨h1, h5, ?_⟩
      rw [← he.2, h3]
    · rintro ⟨h1, h5, h3⟩
      obtain ⟨r, hr, he⟩ := List.mem_map.1 ((mem_lcmMax m n lex so hso D (X, (tidsOf D X).card, tidsOf D X)).2 ⟨h1, rfl, rfl, h5⟩)
      simp only [content, Prod.mk.injEq] at he
      refine List.mem_map.2 ⟨r, hr, ?_⟩
      rw [he.1, he.2.1, h3]
  have k1 := key (k * m) lex' so' hso' D' id
  have k2 := key m lex so hso D (fun x => k * x)
  simp only [id] at k1
  have hM : MaximalFrequent D' (k * m) X ↔ MaximalFrequent D m X := by
    unfold MaximalFrequent
    simp only [frequent_copies hk hD]
  rw [k1, k2, hM, card_tidsOf_perm hD]

/-! ### Examples -/

/-- Two transactions are added: the four rows are still there, the rows `[3]`, `[4]` and `[3, 4]` are new and contained in the added transactions. -/
example : (lcm 2 ⟨-1, true, sortSet⟩ [[3, 1, 3], [], [1, 2], [2, 3, 1], [4, 2]]).map (fun r => (r.itemset, r.support)) = [([1], 3), ([2], 3), ([1, 2], 2), ([1, 3], 2)] ∧
    (lcm 2 ⟨-1, true, sortSet⟩ ([[3, 1, 3], [], [1, 2], [2, 3, 1], [4, 2]] ++ [[4, 3], [4, 3, 1]])).map (fun r => (r.itemset, r.support)) =
      [([3], 4), ([1], 4), ([1, 3], 3), ([2], 3), ([1, 2], 2), ([4], 3), ([3, 4], 2)] := by decide

/-- Every transaction twice, in another order. -/
example : (lcm 4 ⟨-1, true, sortSet⟩ ([[3, 1, 3], [], [1, 2], [2, 3, 1], [4, 2]] ++ [[4, 2], [1, 2], [3, 1, 3], [2, 3, 1], []])).map (fun r => (r.itemset, r.support)) = [([1], 6), ([2], 6), ([1, 2], 4), ([1, 3], 4)] := by decide

example : ([[3, 1, 3], [], [1, 2], [2, 3, 1], [4, 2]] ++ [[4, 2], [1, 2], [3, 1, 3], [2, 3, 1], []] : List (List ℕ)).Perm (List.replicate 2 [[3, 1, 3], [], [1, 2], [2, 3, 1], [4, 2]]).flatten := by decide

end Verif.LCM
