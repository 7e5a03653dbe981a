import Verif.LCM.Props
import Mathlib.Data.Finset.Powerset
import Mathlib.Data.Finset.Max
import Mathlib.Tactic.NormNum

/-!
# Names of items, thresholds, and supports recovered from the result (C119, C120)

Source: `/repo/skmine/itemsets/lcm.py`. The models are those of C01 to C04.
-/

set_option autoImplicit false
set_option linter.unusedSectionVars false

namespace Verif.LCM

/-- What a row says: its itemset as a set, its support, its transaction ids. -/
def content {α : Type*} [DecidableEq α] (r : Row α) : Finset α × ℕ × Finset ℕ := (r.itemset.toFinset, r.support, r.tids)

/-- The same, with the items renamed. -/
def renamed {α β : Type*} [DecidableEq α] [DecidableEq β] (f : α → β) (c : Finset α × ℕ × Finset ℕ) : Finset β × ℕ × Finset ℕ := (c.1.image f, c.2)

/-! ### Lemmas -/

section Lemmas

variable {α β : Type*} [LinearOrder α] [LinearOrder β]

theorem content_nodup {l : List (Row α)} (h : (l.map (fun r => r.itemset.toFinset)).Nodup) : (l.map content).Nodup := by
  refine List.Nodup.of_map Prod.fst ?_
  rw [List.map_map]
  exact h

theorem mem_lcm (m : ℚ) (o : Opts) (ho : OrderOk o.setOrder) (D : List (List α)) (c : Finset α × ℕ × Finset ℕ) :
    c ∈ (lcm m o D).map content ↔ (Frequent D m c.1 ∧ Closed D c.1) ∧ c.2.1 = (tidsOf D c.1).card ∧ c.2.2 = tidsOf D c.1 ∧ (o.maxLength ≠ -1 → (c.1.card : ℤ) ≤ o.maxLength) := by
  have base : ∀ p : Opts, OrderOk p.setOrder → p.maxLength = -1 → ∀ r, r ∈ lcm m p D → r.itemset.Nodup := fun p hp _ r hr => (lcm_rows m p hp D r hr).1
  obtain ⟨k, lex, so⟩ := o
  have hfull : ∀ c : Finset α × ℕ × Finset ℕ, c ∈ (lcm m ⟨-1, lex, so⟩ D).map content ↔ (Frequent D m c.1 ∧ Closed D c.1) ∧ c.2.1 = (tidsOf D c.1).card ∧ c.2.2 = tidsOf D c.1 := by
    intro c
    rw [List.mem_map]
    constructor
    · rintro ⟨r, hr, rfl⟩
      have h := lcm_rows m ⟨-1, lex, so⟩ ho D r hr
      exact ⟨⟨h.2.1, h.2.2.1⟩, h.2.2.2.2.1, h.2.2.2.1⟩
    · rintro ⟨h1, h2, h3⟩
      obtain ⟨r, hr, he⟩ := (lcm_exact m ⟨-1, lex, so⟩ ho rfl D c.1).2 h1
      have h := lcm_rows m ⟨-1, lex, so⟩ ho D r hr
      refine ⟨r, hr, Prod.ext he (Prod.ext ?_ ?_)⟩
      · change r.support = _
        rw [h.2.2.2.2.1, he, h2]
      · change r.tids = _
        rw [h.2.2.2.1, he, h3]
  by_cases hk : k = -1
  · subst hk
    rw [hfull]
    simp
  · have e := lcm_maxLength m ⟨k, lex, so⟩ k hk D
    change lcm m ⟨k, lex, so⟩ D = (lcm m ⟨-1, lex, so⟩ D).filter _ at e
    rw [e]
    have hlen : ∀ r ∈ lcm m ⟨-1, lex, so⟩ D, r.itemset.length = (content r).1.card := by
      intro r hr
      exact (List.toFinset_card_of_nodup (base ⟨-1, lex, so⟩ ho rfl r hr)).symm
    constructor
    · intro h
      obtain ⟨r, hr, rfl⟩ := List.mem_map.1 h
      obtain ⟨hr, hd⟩ := List.mem_filter.1 hr
      obtain ⟨h1, h2, h3⟩ := (hfull (content r)).1 (List.mem_map.2 ⟨r, hr, rfl⟩)
      refine ⟨h1, h2, h3, fun _ => ?_⟩
      rw [← hlen r hr]
      exact of_decide_eq_true hd
    · rintro ⟨h1, h2, h3, h4⟩
      obtain ⟨r, hr, rfl⟩ := List.mem_map.1 ((hfull c).2 ⟨h1, h2, h3⟩)
      refine List.mem_map.2 ⟨r, List.mem_filter.2 ⟨hr, decide_eq_true ?_⟩, rfl⟩
      rw [hlen r hr]
      exact h4 hk

theorem mem_lcmMax (m : ℚ) (k : ℤ) (lex : Bool) (so : Finset α → List α) (hso : OrderOk so) (D : List (List α)) (c : Finset α × ℕ × Finset ℕ) :
    c ∈ (lcmMax m k lex so D).map content ↔ MaximalFrequent D m c.1 ∧ c.2.1 = (tidsOf D c.1).card ∧ c.2.2 = tidsOf D c.1 ∧ (k ≠ -1 → (c.1.card : ℤ) ≤ k) := by
  rw [List.mem_map]
  constructor
  · rintro ⟨r, hr, rfl⟩
    have h := lcmMax_rows m k lex so hso D r hr
    refine ⟨h.2.1, h.2.2.2.1, h.2.2.1, fun hk => ?_⟩
    change ((r.itemset.toFinset.card : ℕ) : ℤ) ≤ k
    rw [List.toFinset_card_of_nodup h.1]
    exact h.2.2.2.2.1 hk
  · rintro ⟨h1, h2, h3, h4⟩
    have hmem : ∃ r ∈ lcmMax m k lex so D, r.itemset.toFinset = c.1 := by
      obtain ⟨r, hr, he⟩ := (lcmMax_exact m lex so hso D c.1).2 h1
      by_cases hk : k = -1
      · rw [hk]; exact ⟨r, hr, he⟩
      · unfold lcmMax transformMax at hr ⊢
        simp only [ne_eq, not_true_eq_false, if_false] at hr
        obtain ⟨q, hq, rfl⟩ := List.mem_map.1 hr
        simp only [ne_eq, hk, not_false_eq_true, if_true]
        refine ⟨_, List.mem_map.2 ⟨q, List.mem_filter.2 ⟨hq, decide_eq_true ?_⟩, rfl⟩, he⟩
        have hset : q.itemset = c.1 := by
          rw [← he]
          ext x
          rw [List.mem_toFinset]
          simp only
          split
          · rw [List.mem_insertionSort, (hso _).2]
          · rw [(hso _).2]
        rw [hset]
        exact h4 hk
    obtain ⟨r, hr, he⟩ := hmem
    have h := lcmMax_rows m k lex so hso D r hr
    refine ⟨r, hr, Prod.ext he (Prod.ext ?_ ?_)⟩
    · change r.support = _
      rw [h.2.2.2.1, he, h2]
    · change r.tids = _
      rw [h.2.2.1, he, h3]

/-- `D` with the items renamed. -/
def renameItems (f : α → β) (D : List (List α)) : List (List β) := D.map (List.map f)

theorem tidsOf_rename (f : α → β) (hf : Function.Injective f) (D : List (List α)) (X : Finset α) : tidsOf (renameItems f D) (X.image f) = tidsOf D X := by
  unfold tidsOf renameItems
  rw [List.length_map]
  refine Finset.filter_congr ?_
  intro i hi
  have hi := Finset.mem_range.1 hi
  have e : (D.map (List.map f)).getD i [] = (D.getD i []).map f := by
    rw [List.getD_eq_getElem?_getD, List.getD_eq_getElem?_getD, List.getElem?_map, List.getElem?_eq_getElem hi]
    rfl
  rw [e]
  constructor
  · intro h x hx
    obtain ⟨y, hy, he⟩ := List.mem_map.1 (h (f x) (Finset.mem_image_of_mem f hx))
    exact hf he ▸ hy
  · intro h z hz
    obtain ⟨x, hx, rfl⟩ := Finset.mem_image.1 hz
    exact List.mem_map_of_mem (h x hx)

theorem itemsOf_rename (f : α → β) (D : List (List α)) : itemsOf (renameItems f D) = (itemsOf D).image f := by
  ext z
  unfold itemsOf renameItems
  rw [List.mem_toFinset, Finset.mem_image, ← List.map_flatten, List.mem_map]
  simp only [List.mem_toFinset]

theorem frequent_rename (f : α → β) (hf : Function.Injective f) (D : List (List α)) (m : ℚ) (X : Finset α) : Frequent (renameItems f D) m (X.image f) ↔ Frequent D m X := by
  unfold Frequent
  rw [tidsOf_rename f hf, itemsOf_rename, Finset.image_nonempty, Finset.image_subset_image_iff hf]

theorem frequent_rename_inv (f : α → β) (D : List (List α)) (Z : Finset β) (h : Z ⊆ itemsOf (renameItems f D)) : ∃ X : Finset α, Z = X.image f := by
  rw [itemsOf_rename] at h
  obtain ⟨X, _, hX⟩ := Finset.subset_image_iff.1 h
  exact ⟨X, hX.symm⟩

theorem image_ssubset (f : α → β) (hf : Function.Injective f) (X Y : Finset α) : X.image f ⊂ Y.image f ↔ X ⊂ Y := by
  rw [Finset.ssubset_iff_subset_ne, Finset.ssubset_iff_subset_ne, Finset.image_subset_image_iff hf]
  exact and_congr_right (fun _ => not_congr (Finset.image_injective hf).eq_iff)

theorem closed_rename (f : α → β) (hf : Function.Injective f) (D : List (List α)) (X : Finset α) : Closed (renameItems f D) (X.image f) ↔ Closed D X := by
  unfold Closed
  constructor
  · intro h Y hY hXY
    have := h (Y.image f) (by rw [itemsOf_rename]; exact Finset.image_subset_image hY) ((image_ssubset f hf X Y).2 hXY)
    rwa [tidsOf_rename f hf, tidsOf_rename f hf] at this
  · intro h Z hZ hXZ
    obtain ⟨Y, rfl⟩ := frequent_rename_inv f D Z hZ
    rw [tidsOf_rename f hf, tidsOf_rename f hf]
    rw [itemsOf_rename, Finset.image_subset_image_iff hf] at hZ
    exact h Y hZ ((image_ssubset f hf X Y).1 hXZ)

theorem maximal_rename (f : α → β) (hf : Function.Injective f) (D : List (List α)) (m : ℚ) (X : Finset α) : MaximalFrequent (renameItems f D) m (X.image f) ↔ MaximalFrequent D m X := by
  unfold MaximalFrequent
  rw [frequent_rename f hf]
  refine and_congr_right (fun _ => ?_)
  constructor
  · intro h Y hXY hY
    exact h (Y.image f) ((image_ssubset f hf X Y).2 hXY) ((frequent_rename f hf D m Y).2 hY)
  · intro h Z hXZ hZ
    obtain ⟨Y, rfl⟩ := frequent_rename_inv f D Z hZ.2.1
    exact h Y ((image_ssubset f hf X Y).1 hXZ) ((frequent_rename f hf D m Y).1 hZ)

theorem renamed_injective (f : α → β) (hf : Function.Injective f) : Function.Injective (renamed f) := by
  rintro ⟨X, c⟩ ⟨Y, d⟩ h
  unfold renamed at h
  simp only [Prod.mk.injEq] at h
  exact Prod.ext (Finset.image_injective hf h.1) h.2

theorem tidsOf_anti (D : List (List α)) {X Y : Finset α} (h : X ⊆ Y) : tidsOf D Y ⊆ tidsOf D X := by
  intro i hi
  unfold tidsOf at hi ⊢
  rw [Finset.mem_filter] at hi ⊢
  exact ⟨hi.1, fun x hx => hi.2 x (h hx)⟩

/-- Every frequent itemset lies in a closed one with the same transactions. -/
theorem exists_closed (D : List (List α)) (m : ℚ) (X : Finset α) (h : Frequent D m X) : ∃ C, X ⊆ C ∧ Frequent D m C ∧ Closed D C ∧ tidsOf D C = tidsOf D X := by
  obtain ⟨C, hC, hmax⟩ := ((itemsOf D).powerset.filter (fun Y => X ⊆ Y ∧ tidsOf D Y = tidsOf D X)).exists_max_image Finset.card
    ⟨X, Finset.mem_filter.2 ⟨Finset.mem_powerset.2 h.2.1, Finset.Subset.refl X, rfl⟩⟩
  obtain ⟨hCi, hXC, hCt⟩ := Finset.mem_filter.1 hC
  have hCi := Finset.mem_powerset.1 hCi
  refine ⟨C, hXC, ⟨h.1.mono hXC, hCi, by rw [hCt]; exact h.2.2⟩, ?_, hCt⟩
  intro Y hY hCY
  have hsub := tidsOf_anti D hCY.1
  refine Finset.card_lt_card (Finset.ssubset_iff_subset_ne.2 ⟨hsub, ?_⟩)
  intro he
  have := hmax Y (Finset.mem_filter.2 ⟨Finset.mem_powerset.2 hY, hXC.trans hCY.1, he.trans hCt⟩)
  exact absurd (Finset.card_lt_card hCY) (not_lt.2 this)

/-- Every frequent itemset lies in a maximal one. -/
theorem exists_maximal_above (D : List (List α)) (m : ℚ) (X : Finset α) (h : Frequent D m X) : ∃ M, X ⊆ M ∧ MaximalFrequent D m M := by
  classical
  obtain ⟨M, hM, hmax⟩ := ((itemsOf D).powerset.filter (fun Y => X ⊆ Y ∧ Frequent D m Y)).exists_max_image Finset.card
    ⟨X, Finset.mem_filter.2 ⟨Finset.mem_powerset.2 h.2.1, Finset.Subset.refl X, h⟩⟩
  obtain ⟨_, hXM, hMf⟩ := Finset.mem_filter.1 hM
  refine ⟨M, hXM, hMf, ?_⟩
  intro Y hMY hY
  have := hmax Y (Finset.mem_filter.2 ⟨Finset.mem_powerset.2 hY.2.1, hXM.trans hMY.1, hY⟩)
  exact absurd (Finset.card_lt_card hMY) (not_lt.2 this)

end Lemmas

/-! ### The theorems -/

variable {α β : Type*} [LinearOrder α] [LinearOrder β]

/-- C119 (names of the items). Renaming the items one to one renames them in the result of LCM and changes nothing else: same number of rows, same supports, same transaction ids, whatever the order of the new names and the options. -/
theorem lcm_renamed (f : α → β) (hf : Function.Injective f) (m : ℚ) (o o' : Opts) (ho : OrderOk o.setOrder) (ho' : OrderOk o'.setOrder) (hlen : o.maxLength = o'.maxLength) (D : List (List α)) :
    ((lcm m o' (D.map (List.map f))).map content).Perm (((lcm m o D).map content).map (renamed f)) := by
  rw [List.perm_ext_iff_of_nodup (content_nodup (lcm_nodup m o' ho' _)) ((content_nodup (lcm_nodup m o ho D)).map (renamed_injective f hf))]
  intro c
  change c ∈ (lcm m o' (renameItems f D)).map content ↔ _
  rw [mem_lcm m o' ho']
  constructor
  · rintro ⟨⟨h1, h2⟩, h3, h4, h5⟩
    obtain ⟨Z, s, t⟩ := c
    obtain ⟨X, rfl⟩ := frequent_rename_inv f D Z h1.2.1
    refine List.mem_map.2 ⟨(X, s, t), (mem_lcm m o ho D _).2 ⟨⟨(frequent_rename f hf D m X).1 h1, (closed_rename f hf D X).1 h2⟩, ?_, ?_, ?_⟩, rfl⟩
    · rw [← tidsOf_rename f hf]; exact h3
    · rw [← tidsOf_rename f hf]; exact h4
    · intro h
      have := h5 (hlen ▸ h)
      rw [Finset.card_image_of_injective X hf, ← hlen] at this
      exact this
  · intro h
    obtain ⟨⟨X, s, t⟩, hX, rfl⟩ := List.mem_map.1 h
    obtain ⟨⟨h1, h2⟩, h3, h4, h5⟩ := (mem_lcm m o ho D _).1 hX
    refine ⟨⟨(frequent_rename f hf D m X).2 h1, (closed_rename f hf D X).2 h2⟩, ?_, ?_, ?_⟩
    · change s = (tidsOf (renameItems f D) (X.image f)).card
      rw [tidsOf_rename f hf]; exact h3
    · change t = tidsOf (renameItems f D) (X.image f)
      rw [tidsOf_rename f hf]; exact h4
    · intro h
      change ((X.image f).card : ℤ) ≤ _
      rw [Finset.card_image_of_injective X hf, ← hlen]
      exact h5 (hlen.symm ▸ h)

/-- C119 (names of the items), for LCMMax. -/
theorem lcmMax_renamed (f : α → β) (hf : Function.Injective f) (m : ℚ) (k : ℤ) (lex lex' : Bool) (so : Finset α → List α) (so' : Finset β → List β) (hso : OrderOk so) (hso' : OrderOk so') (D : List (List α)) :
    ((lcmMax m k lex' so' (D.map (List.map f))).map content).Perm (((lcmMax m k lex so D).map content).map (renamed f)) := by
  rw [List.perm_ext_iff_of_nodup (content_nodup (lcmMax_nodup m k lex' so' hso' _)) ((content_nodup (lcmMax_nodup m k lex so hso D)).map (renamed_injective f hf))]
  intro c
  change c ∈ (lcmMax m k lex' so' (renameItems f D)).map content ↔ _
  rw [mem_lcmMax m k lex' so' hso']
  constructor
  · rintro ⟨h1, h3, h4, h5⟩
    obtain ⟨Z, s, t⟩ := c
    obtain ⟨X, rfl⟩ := frequent_rename_inv f D Z h1.1.2.1
    refine List.mem_map.2 ⟨(X, s, t), (mem_lcmMax m k lex so hso D _).2 ⟨(maximal_rename f hf D m X).1 h1, ?_, ?_, ?_⟩, rfl⟩
    · rw [← tidsOf_rename f hf]; exact h3
    · rw [← tidsOf_rename f hf]; exact h4
    · intro h
      have := h5 h
      rw [Finset.card_image_of_injective X hf] at this
      exact this
  · intro h
    obtain ⟨⟨X, s, t⟩, hX, rfl⟩ := List.mem_map.1 h
    obtain ⟨h1, h3, h4, h5⟩ := (mem_lcmMax m k lex so hso D _).1 hX
    refine ⟨(maximal_rename f hf D m X).2 h1, ?_, ?_, ?_⟩
    · change s = (tidsOf (renameItems f D) (X.image f)).card
      rw [tidsOf_rename f hf]; exact h3
    · change t = tidsOf (renameItems f D) (X.image f)
      rw [tidsOf_rename f hf]; exact h4
    · intro h
      change ((X.image f).card : ℤ) ≤ _
      rw [Finset.card_image_of_injective X hf]
      exact h5 h

/-- C119 (thresholds). With a higher threshold LCM returns exactly the rows of the lower threshold whose support reaches it. -/
theorem lcm_threshold (m m' : ℚ) (hm : m ≤ m') (o o' : Opts) (ho : OrderOk o.setOrder) (ho' : OrderOk o'.setOrder) (hlen : o.maxLength = o'.maxLength) (D : List (List α)) :
    ((lcm m' o' D).map content).Perm (((lcm m o D).map content).filter (fun c => m' ≤ (c.2.1 : ℚ))) := by
  rw [List.perm_ext_iff_of_nodup (content_nodup (lcm_nodup m' o' ho' _)) ((content_nodup (lcm_nodup m o ho D)).filter _)]
  intro c
  rw [List.mem_filter, mem_lcm m' o' ho', mem_lcm m o ho, decide_eq_true_eq, hlen]
  constructor
  · rintro ⟨⟨h1, h2⟩, h3, h4, h5⟩
    exact ⟨⟨⟨⟨h1.1, h1.2.1, hm.trans h1.2.2⟩, h2⟩, h3, h4, h5⟩, by rw [h3]; exact h1.2.2⟩
  · rintro ⟨⟨⟨h1, h2⟩, h3, h4, h5⟩, h6⟩
    exact ⟨⟨⟨h1.1, h1.2.1, by rw [← h3]; exact h6⟩, h2⟩, h3, h4, h5⟩

/-- C120. The result of LCM determines the transactions, hence the support, of every frequent itemset, listed or not: a set of items `X` is frequent if and only if it is non-empty and included in a listed itemset; its transactions are then
those of one listed itemset that includes it, and contain those of all the others, so its support is the largest support listed among the itemsets that include it. -/
theorem lcm_supports (m : ℚ) (o : Opts) (ho : OrderOk o.setOrder) (hmax : o.maxLength = -1) (D : List (List α)) (X : Finset α) :
    (Frequent D m X ↔ X.Nonempty ∧ ∃ r ∈ lcm m o D, X ⊆ r.itemset.toFinset) ∧
      (Frequent D m X → (∃ r ∈ lcm m o D, X ⊆ r.itemset.toFinset ∧ r.tids = tidsOf D X ∧ r.support = (tidsOf D X).card) ∧
        ∀ r ∈ lcm m o D, X ⊆ r.itemset.toFinset → r.tids ⊆ tidsOf D X ∧ r.support ≤ (tidsOf D X).card) := by
  have hex : Frequent D m X → ∃ r ∈ lcm m o D, X ⊆ r.itemset.toFinset ∧ r.tids = tidsOf D X ∧ r.support = (tidsOf D X).card := by
    intro h
    obtain ⟨C, hXC, hCf, hCc, hCt⟩ := exists_closed D m X h
    obtain ⟨r, hr, rfl⟩ := (lcm_exact m o ho hmax D C).2 ⟨hCf, hCc⟩
    have hrow := lcm_rows m o ho D r hr
    exact ⟨r, hr, hXC, by rw [hrow.2.2.2.1, hCt], by rw [hrow.2.2.2.2.1, hCt]⟩
  have hall : ∀ r ∈ lcm m o D, X ⊆ r.itemset.toFinset → r.tids ⊆ tidsOf D X ∧ r.support ≤ (tidsOf D X).card := by
    intro r hr hX
    have hrow := lcm_rows m o ho D r hr
    rw [hrow.2.2.2.1, hrow.2.2.2.2.1]
    exact ⟨tidsOf_anti D hX, Finset.card_le_card (tidsOf_anti D hX)⟩
  refine ⟨⟨fun h => ⟨h.1, ?_⟩, ?_⟩, fun h => ⟨hex h, hall⟩⟩
  · obtain ⟨r, hr, hX, _⟩ := hex h
    exact ⟨r, hr, hX⟩
  · rintro ⟨hne, r, hr, hX⟩
    have hrow := lcm_rows m o ho D r hr
    refine ⟨hne, hX.trans hrow.2.1.2.1, hrow.2.1.2.2.trans ?_⟩
    exact_mod_cast Finset.card_le_card (tidsOf_anti D hX)

/-- C120, for LCMMax: the result determines which itemsets are frequent, and gives a lower bound of their supports. -/
theorem lcmMax_frequent (m : ℚ) (lex : Bool) (so : Finset α → List α) (hso : OrderOk so) (D : List (List α)) (X : Finset α) :
    (Frequent D m X ↔ X.Nonempty ∧ ∃ r ∈ lcmMax m (-1) lex so D, X ⊆ r.itemset.toFinset) ∧
      ∀ r ∈ lcmMax m (-1) lex so D, X ⊆ r.itemset.toFinset → r.support ≤ (tidsOf D X).card := by
  have hall : ∀ r ∈ lcmMax m (-1) lex so D, X ⊆ r.itemset.toFinset → r.support ≤ (tidsOf D X).card := by
    intro r hr hX
    rw [(lcmMax_rows m (-1) lex so hso D r hr).2.2.2.1]
    exact Finset.card_le_card (tidsOf_anti D hX)
  refine ⟨⟨?_, ?_⟩, hall⟩
  · intro h
    obtain ⟨M, hXM, hM⟩ := exists_maximal_above D m X h
    obtain ⟨r, hr, rfl⟩ := (lcmMax_exact m lex so hso D M).2 hM
    exact ⟨h.1, r, hr, hXM⟩
  · rintro ⟨hne, r, hr, hX⟩
    have hrow := lcmMax_rows m (-1) lex so hso D r hr
    refine ⟨hne, hX.trans hrow.2.1.1.2.1, hrow.2.1.1.2.2.trans ?_⟩
    exact_mod_cast Finset.card_le_card (tidsOf_anti D hX)

/-! ### Examples -/

/-- A renaming that reverses the order of the items: the rows come in another order. -/
example : (lcm 2 ⟨-1, true, sortSet⟩ ([[3, 1, 3], [], [1, 2], [2, 3, 1], [4, 2]].map (List.map (fun x : ℕ => (10 : ℤ) - x)))).map (fun r => (r.itemset, r.support)) = [([9], 3), ([8], 3), ([8, 9], 2), ([7, 9], 2)] := by decide

example : Function.Injective (fun x : ℕ => (10 : ℤ) - x) := fun a b h => by simp only at h; omega

/-- Of the four rows with threshold 2, the two of support at least 3. -/
example : (lcm 3 ⟨-1, true, sortSet⟩ [[3, 1, 3], [], [1, 2], [2, 3, 1], [4, 2]]).map (fun r => (r.itemset, r.support)) = [([1], 3), ([2], 3)] := by decide

/-- `{3}` is frequent and not listed: its support is that of `{1, 3}`. -/
example : Frequent [[3, 1, 3], [], [1, 2], [2, 3, 1], [4, 2]] 2 {3} ∧ ¬ Closed [[3, 1, 3], [], [1, 2], [2, 3, 1], [4, 2]] {3} := by
  refine ⟨⟨by decide, by decide, ?_⟩, ?_⟩
  · have : (tidsOf [[3, 1, 3], [], [1, 2], [2, 3, 1], [4, 2]] {3}).card = 2 := by decide
    rw [this]; norm_num
  · intro h
    exact absurd (h {1, 3} (by decide) (by decide)) (by decide)

end Verif.LCM
