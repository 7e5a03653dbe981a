import Verif.Slim.FitLemmas

set_option autoImplicit false
set_option linter.unusedSectionVars false

namespace Verif.Slim

variable {α κ V : Type*} [LinearOrder α] [LinearOrder κ] [LinearOrder V]

theorem toFinset_sortSet {β : Type*} [LinearOrder β] (s : Finset β) : (sortSet s).toFinset = s := by
  ext x; rw [List.mem_toFinset, mem_sortSet]

/-- The columns set to true in a row. -/
def marked (cols : List (Finset α)) (row : List Bool) : List (Finset α) :=
  ((cols.zip row).filter (fun p => p.2)).map Prod.fst

theorem marked_map (tab : Table α) (t : ℕ) :
    marked (tab.map Prod.fst) (tab.map (fun e => decide (t ∈ e.2))) = (tab.filter (fun e => t ∈ e.2)).map Prod.fst := by
  unfold marked
  induction tab with
  | nil => rfl
  | cons e tab ih =>
    rw [List.map_cons, List.map_cons, List.zip_cons_cons]
    by_cases h : t ∈ e.2
    · rw [List.filter_cons_of_pos (by simpa using h), List.map_cons, ih, List.filter_cons_of_pos (by simpa using h),
        List.map_cons]
    · rw [List.filter_cons_of_neg (by simpa using h), ih, List.filter_cons_of_neg (by simpa using h)]

theorem knownItemsets_eq (st : State α V) (vert : Sct α) (hne : ∀ X ∈ st.ct.map Prod.fst, X.Nonempty) :
    knownItemsets st vert = (st.ct.map Prod.fst).filter (fun X => ∀ x ∈ X, x ∈ vert.map Prod.fst) := by
  unfold knownItemsets transform
  congr 1
  rw [List.map_map]
  have : st.ct.filter (fun e => decide ((if false = true then 1 else 0) ≤ e.2.card ∧ (if true = true then 0 else 1) < e.1.card)) = st.ct := by
    apply List.filter_eq_self.2
    intro e he
    have := (hne e.1 (mem_key_of_mem he)).card_pos
    simp [this]
  rw [this]
  apply List.map_congr_left
  intro e _
  exact toFinset_sortSet e.1

theorem coverMap_pairwise (s : α → Finset ℕ) (L : List (Finset α)) (t : ℕ) :
    (((coverMap s L).filter (fun e => t ∈ e.2)).map Prod.fst).Pairwise Disjoint := by
  induction L generalizing s with
  | nil => simp [coverMap]
  | cons X L ih =>
    rw [coverMap]
    by_cases h : t ∈ interTids s X
    · rw [List.filter_cons_of_pos (by simpa using h), List.map_cons, List.pairwise_cons]
      refine ⟨fun Y hY => ?_, ih _⟩
      obtain ⟨e, he, rfl⟩ := List.mem_map.1 hY
      obtain ⟨h1, h2⟩ := List.mem_filter.1 he
      rw [Finset.disjoint_left]
      intro a ha hae
      exact ((mem_residue s X a t).1 (coverMap_sound _ L e h1 a hae t (of_decide_eq_true h2))).2 ha h
    · rw [List.filter_cons_of_neg (by simpa using h)]
      exact ih _

/-- What `SLIM.cover` computes on a vertical representation. -/
theorem coverMatrix_spec (st : State α V) (hg : Good st.sct st.ct) (vert : Sct α) (n : ℕ) :
    ∃ cols mat, coverMatrix st vert n = .ok (cols, mat) ∧ mat.length = n ∧
      (∀ X, X ∈ cols ↔ X ∈ st.ct.map Prod.fst ∧ ∀ x ∈ X, x ∈ vert.map Prod.fst) ∧ cols.Nodup ∧
      ∀ t row, mat[t]? = some row → row.length = cols.length ∧
        (marked cols row).Pairwise Disjoint ∧
        (∀ X ∈ marked cols row, ∀ x ∈ X, t ∈ lookup vert x) ∧
        (∀ a, (∃ X ∈ marked cols row, a ∈ X) ↔ t ∈ lookup vert a ∧ a ∈ st.sct.map Prod.fst) := by
  have hK := knownItemsets_eq st vert hg.keys.nonempty
  have hmemK : ∀ X, X ∈ knownItemsets st vert ↔ X ∈ st.ct.map Prod.fst ∧ ∀ x ∈ X, x ∈ vert.map Prod.fst := by
    intro X; rw [hK, List.mem_filter, decide_eq_true_eq]
  have hnd : (knownItemsets st vert).Nodup := by rw [hK]; exact hg.keys.nodup.filter _
  have hcov : cover vert (knownItemsets st vert) = .ok (coverMap (lookup vert) (knownItemsets st vert)) := by
    unfold cover
    rw [if_pos, coverLoop_eq _ _ _ hnd (by simp), List.nil_append]
    rw [List.all_eq_true]
    intro X hX
    exact decide_eq_true ((hmemK X).1 hX).2
  unfold coverMatrix
  rw [hcov]
  simp only
  refine ⟨_, _, rfl, by simp, fun X => by rw [keys_coverMap]; exact hmemK X, by rw [keys_coverMap]; exact hnd, ?_⟩
  intro t row hrow
  rw [List.getElem?_map, Option.map_eq_some_iff] at hrow
  obtain ⟨t', ht', rfl⟩ := hrow
  obtain rfl : t' = t := by
    obtain ⟨h1, h2⟩ := List.getElem?_eq_some_iff.1 ht'
    rw [List.getElem_range] at h2
    exact h2.symm
  rw [marked_map]
  refine ⟨by simp, coverMap_pairwise _ _ _, ?_, ?_⟩
  · intro X hX x hx
    obtain ⟨e, he, rfl⟩ := List.mem_map.1 hX
    obtain ⟨h1, h2⟩ := List.mem_filter.1 he
    exact coverMap_sound _ _ e h1 x hx t' (of_decide_eq_true h2)
  · intro a
    constructor
    · rintro ⟨X, hX, ha⟩
      obtain ⟨e, he, rfl⟩ := List.mem_map.1 hX
      obtain ⟨h1, h2⟩ := List.mem_filter.1 he
      refine ⟨coverMap_sound _ _ e h1 a ha t' (of_decide_eq_true h2), ?_⟩
      have := mem_key_of_mem h1
      rw [keys_coverMap, hmemK] at this
      exact hg.keys.known _ this.1 a ha
    · rintro ⟨h1, h2⟩
      have hs : {a} ∈ knownItemsets st vert := by
        rw [hmemK]
        refine ⟨hg.keys.single a h2, fun x hx => ?_⟩
        rw [Finset.mem_singleton] at hx
        subst hx
        exact mem_keys_of_lookup h1
      obtain ⟨e, he, ha, ht⟩ := coverMap_complete (lookup vert) _ a hs t' h1
      exact ⟨e.1, List.mem_map.2 ⟨e, List.mem_filter.2 ⟨he, decide_eq_true ht⟩, rfl⟩, ha⟩

/-! ### reconstruct -/

theorem reconstructLoop_length (tab : Table α) (rows : List (Finset α)) :
    (reconstructLoop tab rows).length = rows.length := by
  unfold reconstructLoop
  induction tab generalizing rows with
  | nil => rfl
  | cons e tab ih => rw [List.foldl_cons, ih]; simp

theorem reconstructLoop_mem (tab : Table α) (rows : List (Finset α)) (t : ℕ) (row : Finset α) (h : rows[t]? = some row) :
    ∃ row', (reconstructLoop tab rows)[t]? = some row' ∧ ∀ a, a ∈ row' ↔ a ∈ row ∨ ∃ e ∈ tab, t ∈ e.2 ∧ a ∈ e.1 := by
  unfold reconstructLoop
  induction tab generalizing rows row with
  | nil => exact ⟨row, h, by simp⟩
  | cons e tab ih =>
    rw [List.foldl_cons]
    have h2 : (rows.zipIdx.map (fun r => if r.2 ∈ e.2 then e.1 ∪ r.1 else r.1))[t]? =
        some (if t ∈ e.2 then e.1 ∪ row else row) := by
      rw [List.getElem?_map, List.getElem?_zipIdx, h]
      simp
    obtain ⟨row', h3, h4⟩ := ih _ _ h2
    refine ⟨row', h3, fun a => ?_⟩
    rw [h4]
    simp only [List.mem_cons, exists_eq_or_imp]
    by_cases ht : t ∈ e.2
    · rw [if_pos ht, Finset.mem_union]; tauto
    · rw [if_neg ht]; tauto

theorem foldl_max_spec (l : List ℕ) (m : ℕ) :
    (l.foldl max m ∈ m :: l) ∧ ∀ x ∈ m :: l, x ≤ l.foldl max m := by
  induction l generalizing m with
  | nil => simp
  | cons y l ih =>
    rw [List.foldl_cons]
    obtain ⟨h1, h2⟩ := ih (max m y)
    constructor
    · rcases List.mem_cons.1 h1 with h | h
      · rw [h]
        rcases max_choice m y with h' | h'
        · rw [h']; simp
        · rw [h']; simp
      · exact List.mem_cons_of_mem _ (List.mem_cons_of_mem _ h)
    · have h0 := h2 (max m y) (by simp)
      intro x hx
      rcases List.mem_cons.1 hx with rfl | hx
      · exact (le_max_left _ _).trans h0
      · rcases List.mem_cons.1 hx with rfl | hx
        · exact (le_max_right _ _).trans h0
        · exact h2 x (List.mem_cons_of_mem _ hx)

theorem getLast_sortSet (u : Finset ℕ) (m : ℕ) (h : (sortSet u).getLast? = some m) : m ∈ u ∧ ∀ t ∈ u, t ≤ m := by
  obtain ⟨l, hl⟩ := List.getLast?_eq_some_iff.1 h
  refine ⟨by rw [← mem_sortSet, hl]; simp, fun t ht => ?_⟩
  rw [← mem_sortSet, hl, List.mem_append, List.mem_singleton] at ht
  have hs := sorted_sortSet u
  rw [hl, List.pairwise_append] at hs
  rcases ht with ht | rfl
  · exact hs.2.2 t ht m (by simp)
  · exact le_rfl

theorem reconstructLen_none (tab : Table α) : reconstructLen tab = none ↔ ∀ e ∈ tab, e.2 = ∅ := by
  unfold reconstructLen
  cases h : ((tab.map Prod.snd).map sortSet).filterMap List.getLast? with
  | nil =>
    simp only [true_iff]
    intro e he
    rw [List.filterMap_eq_nil_iff] at h
    have h2 := h (sortSet e.2) (List.mem_map.2 ⟨e.2, List.mem_map.2 ⟨e, he, rfl⟩, rfl⟩)
    rw [List.getLast?_eq_none_iff] at h2
    rw [Finset.eq_empty_iff_forall_notMem]
    intro t ht
    rw [← mem_sortSet, h2] at ht
    cases ht
  | cons m ms =>
    simp only [reduceCtorEq, false_iff]
    intro hall
    have hm : m ∈ ((tab.map Prod.snd).map sortSet).filterMap List.getLast? := by rw [h]; simp
    obtain ⟨l, hl, hlm⟩ := List.mem_filterMap.1 hm
    obtain ⟨u, hu, rfl⟩ := List.mem_map.1 hl
    obtain ⟨e, he, rfl⟩ := List.mem_map.1 hu
    have := (getLast_sortSet _ _ hlm).1
    rw [hall e he] at this
    exact absurd this (by simp)

theorem reconstructLen_some (tab : Table α) (n : ℕ) (h : reconstructLen tab = some n) :
    (∃ e ∈ tab, ∃ t ∈ e.2, n = t + 1) ∧ ∀ e ∈ tab, ∀ t ∈ e.2, t < n := by
  unfold reconstructLen at h
  cases hl : ((tab.map Prod.snd).map sortSet).filterMap List.getLast? with
  | nil => rw [hl] at h; cases h
  | cons m ms =>
    rw [hl] at h
    simp only [Option.some.injEq] at h
    obtain ⟨h1, h2⟩ := foldl_max_spec ms m
    rw [← hl] at h1 h2
    constructor
    · obtain ⟨l, hlm, hlast⟩ := List.mem_filterMap.1 h1
      obtain ⟨u, hu, rfl⟩ := List.mem_map.1 hlm
      obtain ⟨e, he, rfl⟩ := List.mem_map.1 hu
      exact ⟨e, he, _, (getLast_sortSet _ _ hlast).1, h.symm⟩
    · intro e he t ht
      have hne : sortSet e.2 ≠ [] := by
        intro hc
        rw [← mem_sortSet, hc] at ht
        cases ht
      have hmax : (sortSet e.2).getLast? = some ((sortSet e.2).getLast hne) := List.getLast?_eq_some_getLast hne
      have := h2 _ (List.mem_filterMap.2 ⟨sortSet e.2, List.mem_map.2 ⟨e.2, List.mem_map.2 ⟨e, he, rfl⟩, rfl⟩, hmax⟩)
      have h3 := (getLast_sortSet _ _ hmax).2 t ht
      omega

/-- What `reconstruct` returns on a lossless table. -/
theorem reconstruct_spec (D : List (List α)) (st : State α V) (h : Lossless (Occurs D) st.ct)
    (hne : ∀ e ∈ st.ct, e.1.Nonempty) :
    ((∀ tr ∈ D, tr = []) ∧ reconstruct st = .error .valueError) ∨
    ∃ D1 tr D2, D = D1 ++ tr :: D2 ∧ tr ≠ [] ∧ (∀ x ∈ D2, x = []) ∧
      reconstruct st = .ok ((D1 ++ [tr]).map (fun tr => sortSet tr.toFinset)) := by
  cases hl : reconstructLen st.ct with
  | none =>
    left
    refine ⟨fun tr htr => ?_, by unfold reconstruct; rw [hl]⟩
    rw [List.eq_nil_iff_forall_not_mem]
    intro a ha
    obtain ⟨t, ht⟩ := List.mem_iff_getElem?.1 htr
    obtain ⟨e, he, _, hte⟩ := h.complete a t ⟨tr, ht, ha⟩
    rw [(reconstructLen_none _).1 hl e he] at hte
    exact absurd hte (by simp)
  | some n =>
    right
    obtain ⟨⟨e, he, t, ht, rfl⟩, hlt⟩ := reconstructLen_some _ _ hl
    obtain ⟨a, ha⟩ := hne e he
    obtain ⟨tr, htr, hatr⟩ := h.sound e he a ha t ht
    obtain ⟨htl, htr2⟩ := List.getElem?_eq_some_iff.1 htr
    refine ⟨D.take t, tr, D.drop (t + 1), ?_, ?_, ?_, ?_⟩
    · rw [← htr2, List.cons_getElem_drop_succ, List.take_append_drop]
    · rintro rfl; cases hatr
    · intro x hx
      obtain ⟨i, hi⟩ := List.mem_iff_getElem?.1 hx
      rw [List.getElem?_drop] at hi
      rw [List.eq_nil_iff_forall_not_mem]
      intro b hb
      obtain ⟨e', he', _, hte'⟩ := h.complete b (t + 1 + i) ⟨x, hi, hb⟩
      have := hlt e' he' _ hte'
      omega
    · unfold reconstruct
      rw [hl]
      simp only
      congr 1
      have htake : D.take t ++ [tr] = D.take (t + 1) := by
        rw [List.take_add_one, htr]; rfl
      rw [htake]
      apply List.ext_getElem?
      intro i
      rw [List.getElem?_map, List.getElem?_map, List.getElem?_take]
      by_cases hi : i < t + 1
      · rw [if_pos hi]
        obtain ⟨row, hr1, hr2⟩ := reconstructLoop_mem st.ct (List.replicate (t + 1) ∅) i ∅ (by
          rw [List.getElem?_replicate, if_pos hi])
        rw [hr1]
        have hi2 : i < D.length := by omega
        rw [List.getElem?_eq_getElem hi2]
        simp only [Option.map_some, Option.some.injEq]
        congr 1
        ext b
        rw [hr2, List.mem_toFinset]
        constructor
        · rintro (hc | ⟨e', he', hi', hb⟩)
          · exact absurd hc (by simp)
          · obtain ⟨tr', htr', hb'⟩ := h.sound e' he' b hb i hi'
            rw [List.getElem?_eq_getElem hi2, Option.some.injEq] at htr'
            rw [htr']
            exact hb'
        · intro hb
          obtain ⟨e', he', hb', hi'⟩ := h.complete b i ⟨D[i], List.getElem?_eq_getElem hi2, hb⟩
          exact Or.inr ⟨e', he', hi', hb'⟩
      · rw [if_neg hi, List.getElem?_eq_none]
        · rfl
        · rw [reconstructLoop_length, List.length_replicate]; omega

end Verif.Slim
