import Verif.LCM.Model
import Verif.LCM.Spec

/-! Lemmas on `LCM.fit`: the vertical representation of a transaction list. -/

set_option autoImplicit false

set_option linter.unusedSectionVars false

namespace Verif.LCM

variable {α : Type*} [DecidableEq α]

/-- `tid` is recorded for `item` in the dict `d`. -/
def Has (d : List (α × Finset ℕ)) (item : α) (tid : ℕ) : Prop := ∃ v, (item, v) ∈ d ∧ tid ∈ v

theorem keys_addTid (item : α) (tid : ℕ) (d : List (α × Finset ℕ)) :
    (addTid item tid d).map Prod.fst = if item ∈ d.map Prod.fst then d.map Prod.fst else d.map Prod.fst ++ [item] := by
  induction d with
  | nil => simp [addTid]
  | cons kv d ih =>
    obtain ⟨k, v⟩ := kv
    unfold addTid
    by_cases h : k = item
    · simp [h]
    · rw [if_neg h]
      simp only [List.map_cons, ih, List.mem_cons]
      have : item ≠ k := fun e => h e.symm
      by_cases h2 : item ∈ d.map Prod.fst
      · simp [h2]
      · rw [if_neg h2, if_neg (by simp only [not_or]; exact ⟨this, h2⟩)]; rfl

theorem nodup_addTid (item : α) (tid : ℕ) (d : List (α × Finset ℕ)) (h : (d.map Prod.fst).Nodup) :
    ((addTid item tid d).map Prod.fst).Nodup := by
  rw [keys_addTid]
  split
  · exact h
  next hn => exact List.nodup_append.2 ⟨h, by simp, by rintro a ha b hb rfl; rw [List.mem_singleton] at hb; exact hn (hb ▸ ha)⟩

theorem has_addTid (item : α) (tid : ℕ) (d : List (α × Finset ℕ)) (h : (d.map Prod.fst).Nodup) (k : α) (t : ℕ) :
    Has (addTid item tid d) k t ↔ Has d k t ∨ (k = item ∧ t = tid) := by
  induction d with
  | nil =>
    simp only [addTid, Has, List.mem_singleton, Prod.mk.injEq, List.not_mem_nil, false_and, exists_false, false_or]
    constructor
    · rintro ⟨v, ⟨rfl, rfl⟩, h⟩; exact ⟨rfl, Finset.mem_singleton.1 h⟩
    · rintro ⟨rfl, rfl⟩; exact ⟨{t}, ⟨rfl, rfl⟩, Finset.mem_singleton_self _⟩
  | cons kv d ih =>
    obtain ⟨k', v⟩ := kv
    rw [List.map_cons, List.nodup_cons] at h
    have ih := ih h.2
    unfold addTid
    by_cases hk : k' = item
    · rw [if_pos hk]; subst hk
      constructor
      · rintro ⟨w, hw, ht⟩
        rcases List.mem_cons.1 hw with hw | hw
        · rw [Prod.mk.injEq] at hw
          obtain ⟨rfl, rfl⟩ := hw
          rcases Finset.mem_insert.1 ht with rfl | ht
          · exact Or.inr ⟨rfl, rfl⟩
          · exact Or.inl ⟨v, List.mem_cons_self, ht⟩
        · exact Or.inl ⟨w, List.mem_cons_of_mem _ hw, ht⟩
      · rintro (⟨w, hw, ht⟩ | ⟨rfl, rfl⟩)
        · rcases List.mem_cons.1 hw with hw | hw
          · rw [Prod.mk.injEq] at hw
            obtain ⟨rfl, rfl⟩ := hw
            exact ⟨_, List.mem_cons_self, Finset.mem_insert_of_mem ht⟩
          · exact ⟨w, List.mem_cons_of_mem _ hw, ht⟩
        · exact ⟨_, List.mem_cons_self, Finset.mem_insert_self _ _⟩
    · rw [if_neg hk]
      have hc : ∀ d' : List (α × Finset ℕ), Has ((k', v) :: d') k t ↔ (k = k' ∧ t ∈ v) ∨ Has d' k t := by
        intro d'
        constructor
        · rintro ⟨w, hw, ht⟩
          rcases List.mem_cons.1 hw with hw | hw
          · rw [Prod.mk.injEq] at hw; obtain ⟨rfl, rfl⟩ := hw; exact Or.inl ⟨rfl, ht⟩
          · exact Or.inr ⟨w, hw, ht⟩
        · rintro (⟨rfl, ht⟩ | ⟨w, hw, ht⟩)
          · exact ⟨v, List.mem_cons_self, ht⟩
          · exact ⟨w, List.mem_cons_of_mem _ hw, ht⟩
      rw [hc, hc, ih, or_assoc]

theorem nonempty_addTid (item : α) (tid : ℕ) (d : List (α × Finset ℕ)) (h : ∀ kv ∈ d, kv.2.Nonempty) :
    ∀ kv ∈ addTid item tid d, kv.2.Nonempty := by
  induction d with
  | nil => intro kv hkv; simp only [addTid, List.mem_singleton] at hkv; subst hkv; exact Finset.singleton_nonempty _
  | cons kv0 d ih =>
    obtain ⟨k', v⟩ := kv0
    intro kv hkv
    unfold addTid at hkv
    split at hkv
    · rcases List.mem_cons.1 hkv with rfl | hkv
      · exact Finset.insert_nonempty _ _
      · exact h _ (List.mem_cons_of_mem _ hkv)
    · rcases List.mem_cons.1 hkv with rfl | hkv
      · exact h _ List.mem_cons_self
      · exact ih (fun kv hkv => h kv (List.mem_cons_of_mem _ hkv)) kv hkv

/-- The (item, tid) pairs met by the double loop, in order. -/
def occs (D : List (List α)) : List (α × ℕ) := D.zipIdx.flatMap (fun ti => ti.1.map (fun x => (x, ti.2)))

theorem itemToTids_eq (D : List (List α)) :
    itemToTids D = (occs D).foldl (fun d p => addTid p.1 p.2 d) [] := by
  unfold itemToTids occs
  generalize ([] : List (α × Finset ℕ)) = acc
  induction D.zipIdx generalizing acc with
  | nil => rfl
  | cons ti l ih =>
    rw [List.foldl_cons, ih, List.flatMap_cons, List.foldl_append, List.foldl_map]

theorem foldl_addTid (ps : List (α × ℕ)) (d : List (α × Finset ℕ)) (hd : (d.map Prod.fst).Nodup)
    (hne : ∀ kv ∈ d, kv.2.Nonempty) :
    ((ps.foldl (fun d p => addTid p.1 p.2 d) d).map Prod.fst).Nodup ∧
    (∀ kv ∈ ps.foldl (fun d p => addTid p.1 p.2 d) d, kv.2.Nonempty) ∧
    ∀ k t, Has (ps.foldl (fun d p => addTid p.1 p.2 d) d) k t ↔ Has d k t ∨ (k, t) ∈ ps := by
  induction ps generalizing d with
  | nil => exact ⟨hd, hne, by simp⟩
  | cons p ps ih =>
    obtain ⟨h1, h2, h3⟩ := ih (addTid p.1 p.2 d) (nodup_addTid _ _ _ hd) (nonempty_addTid _ _ _ hne)
    refine ⟨h1, h2, fun k t => ?_⟩
    rw [List.foldl_cons, h3, has_addTid _ _ _ hd, List.mem_cons, or_assoc]
    obtain ⟨a, b⟩ := p
    simp only [Prod.mk.injEq]

theorem mem_occs (D : List (List α)) (k : α) (t : ℕ) : (k, t) ∈ occs D ↔ k ∈ D.getD t [] := by
  unfold occs
  rw [List.mem_flatMap]
  constructor
  · rintro ⟨⟨tr, i⟩, hti, hk⟩
    obtain ⟨x, hx, hxe⟩ := List.mem_map.1 hk
    rw [Prod.mk.injEq] at hxe
    obtain ⟨rfl, rfl⟩ := hxe
    have := List.mem_zipIdx_iff_getElem?.1 hti
    simp only at this
    rw [List.getD_eq_getElem?_getD, this]
    exact hx
  · intro hk
    rw [List.getD_eq_getElem?_getD] at hk
    cases h : D[t]? with
    | none => rw [h] at hk; simp at hk
    | some tr =>
      rw [h] at hk
      exact ⟨(tr, t), List.mem_zipIdx_iff_getElem?.2 h, List.mem_map.2 ⟨k, hk, rfl⟩⟩

theorem mem_getD_lt (D : List (List α)) (k : α) (t : ℕ) (h : k ∈ D.getD t []) : t < D.length := by
  by_contra hn
  rw [List.getD_eq_getElem?_getD, List.getElem?_eq_none (not_lt.1 hn)] at h
  simp at h

theorem mem_tidsOf (D : List (List α)) (X : Finset α) (hX : X.Nonempty) (t : ℕ) :
    t ∈ tidsOf D X ↔ ∀ x ∈ X, x ∈ D.getD t [] := by
  unfold tidsOf
  rw [Finset.mem_filter, Finset.mem_range]
  constructor
  · exact fun h => h.2
  · intro h
    obtain ⟨x, hx⟩ := hX
    exact ⟨mem_getD_lt D x t (h x hx), h⟩

theorem mem_tidsOf_singleton (D : List (List α)) (x : α) (t : ℕ) : t ∈ tidsOf D {x} ↔ x ∈ D.getD t [] := by
  rw [mem_tidsOf D {x} (Finset.singleton_nonempty x)]; simp

theorem mem_itemsOf (D : List (List α)) (x : α) : x ∈ itemsOf D ↔ ∃ t, x ∈ D.getD t [] := by
  unfold itemsOf
  rw [List.mem_toFinset, List.mem_flatten]
  constructor
  · rintro ⟨l, hl, hx⟩
    obtain ⟨i, hi, rfl⟩ := List.getElem_of_mem hl
    exact ⟨i, by rw [List.getD_eq_getElem?_getD, List.getElem?_eq_getElem hi]; exact hx⟩
  · rintro ⟨t, hx⟩
    have ht := mem_getD_lt D x t hx
    rw [List.getD_eq_getElem?_getD, List.getElem?_eq_getElem ht] at hx
    exact ⟨D[t], List.getElem_mem ht, hx⟩

/-- The dict built by the double loop maps every item of `D` to the positions where it occurs. -/
theorem itemToTids_spec (D : List (List α)) :
    ((itemToTids D).map Prod.fst).Nodup ∧
    ∀ k v, (k, v) ∈ itemToTids D ↔ k ∈ itemsOf D ∧ v = tidsOf D {k} := by
  have h := foldl_addTid (occs D) [] (by simp) (by simp)
  rw [← itemToTids_eq] at h
  obtain ⟨h1, h2, h3⟩ := h
  have h3 : ∀ k t, Has (itemToTids D) k t ↔ t ∈ tidsOf D {k} := by
    intro k t
    rw [h3, mem_occs, mem_tidsOf_singleton]
    simp [Has]
  have huniq : ∀ k v w, (k, v) ∈ itemToTids D → (k, w) ∈ itemToTids D → v = w := by
    intro k v w hv hw
    have := List.inj_on_of_nodup_map h1 hv hw rfl
    exact (Prod.mk.inj this).2
  have hv : ∀ k v, (k, v) ∈ itemToTids D → v = tidsOf D {k} := by
    intro k v hv
    ext t
    rw [← h3]
    constructor
    · intro ht; exact ⟨v, hv, ht⟩
    · rintro ⟨w, hw, ht⟩; rw [huniq k v w hv hw]; exact ht
  refine ⟨h1, fun k v => ⟨fun h => ⟨?_, hv k v h⟩, ?_⟩⟩
  · obtain ⟨t, ht⟩ := h2 (k, v) h
    rw [hv k v h, mem_tidsOf_singleton] at ht
    exact (mem_itemsOf D k).2 ⟨t, ht⟩
  · rintro ⟨hk, rfl⟩
    obtain ⟨t, ht⟩ := (mem_itemsOf D k).1 hk
    obtain ⟨w, hw, _⟩ := (h3 k t).2 ((mem_tidsOf_singleton D k t).2 ht)
    rw [← hv k w hw]; exact hw

/-- What the rest of the algorithm needs to know about a fitted object. -/
structure FitSpec (m : ℚ) (D : List (List α)) (F : Fitted α) : Prop where
  len : F.tids.length = F.items.length
  nodup : F.items.Nodup
  ids : ∀ i x, F.items[i]? = some x → F.ids i = tidsOf D {x}
  mem : ∀ x, x ∈ F.items ↔ x ∈ itemsOf D ∧ m ≤ ((tidsOf D {x}).card : ℚ)

theorem fit_spec (m : ℚ) (D : List (List α)) : FitSpec m D (fit m D) := by
  obtain ⟨h1, h2⟩ := itemToTids_spec D
  set kept := (itemToTids D).filter (fun kv => ¬ ((kv.2.card : ℚ) < m)) with hkept
  have hperm := List.perm_insertionSort (fun a b : α × Finset ℕ => b.2.card ≤ a.2.card) kept
  set L := kept.insertionSort (fun a b : α × Finset ℕ => b.2.card ≤ a.2.card) with hL
  have hfit : fit m D = ⟨L.map Prod.fst, L.map Prod.snd⟩ := rfl
  have hmem : ∀ k v, (k, v) ∈ L ↔ (k ∈ itemsOf D ∧ v = tidsOf D {k}) ∧ m ≤ (v.card : ℚ) := by
    intro k v
    rw [hperm.mem_iff, hkept, List.mem_filter, h2]
    simp
  constructor
  · simp [hfit]
  · rw [hfit]
    have : (kept.map Prod.fst).Nodup := h1.sublist (List.filter_sublist.map _)
    exact (hperm.map Prod.fst).nodup_iff.2 this
  · intro i x hx
    rw [hfit] at hx ⊢
    simp only [Fitted.ids, List.getD_eq_getElem?_getD, List.getElem?_map] at hx ⊢
    obtain ⟨⟨k, v⟩, hkv, hk⟩ := Option.map_eq_some_iff.1 hx
    simp only at hk
    subst hk
    rw [hkv]
    have := (hmem k v).1 (List.mem_of_getElem? hkv)
    exact this.1.2
  · intro x
    rw [hfit]
    simp only [List.mem_map]
    constructor
    · rintro ⟨⟨k, v⟩, hkv, rfl⟩
      have := (hmem k v).1 hkv
      exact ⟨this.1.1, this.1.2 ▸ this.2⟩
    · rintro ⟨hx, hm⟩
      exact ⟨(x, tidsOf D {x}), (hmem _ _).2 ⟨⟨hx, rfl⟩, hm⟩, rfl⟩

end Verif.LCM
