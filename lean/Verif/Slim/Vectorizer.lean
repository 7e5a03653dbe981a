import Verif.Slim.CodeLength

/-!
# `SLIMVectorizer.transform` (C23)

Source: `/repo/skmine/feature_extraction/slim_vectorizer.py:87-122`. `fit` with `stop_items` is in `StopModel.lean` (C166): it passes a generator to `SLIM.fit`
and always raises (lines 82-85 with `/repo/skmine/itemsets/slim.py:165-167`).
-/

set_option autoImplicit false
set_option linter.unusedSectionVars false

namespace Verif.Slim

variable {α κ V : Type*} [LinearOrder α] [LinearOrder κ] [LinearOrder V]

/-- Number of rows, `/repo/skmine/itemsets/slim.py:32-38`: `idx + 1` after the loop, `1` when there was no turn. -/
def vectRows (D : List (List α)) : ℕ := if D = [] then 1 else D.length

/-- The columns, `/repo/skmine/feature_extraction/slim_vectorizer.py:106-110`: itemsets whose items all occur in the new data, the `k` largest
usages (`nlargest`, stable), with their usage. -/
def vectColumns (st : State α V) (k : ℕ) (vert : Sct α) : List (Finset α × ℕ) :=
  ((((transform st true false).map (fun r => (r.1.toFinset, r.2.card))).filter
    (fun e => ∀ x ∈ e.1, x ∈ vert.map Prod.fst)).insertionSort (fun a b => b.2 ≤ a.2)).take k

/-- `transform` with strategy `one-hot`, `/repo/skmine/feature_extraction/slim_vectorizer.py:104-116`: the columns and the matrix. -/
def vectTransform (st : State α V) (k : ℕ) (stop : Finset α) (D : List (List α)) :
    Except Err (List (Finset α) × List (List Bool)) :=
  let vert := toVertical stop D
  match cover vert ((vectColumns st k vert).map Prod.fst) with
  | .error e => .error e
  | .ok covers => .ok (covers.map Prod.fst, (List.range (vectRows D)).map (fun t => covers.map (fun e => decide (t ∈ e.2))))

theorem greedy_disjoint (L : List (Finset α)) (rem : Finset α) :
    (greedy L rem).Pairwise Disjoint ∧ ∀ X ∈ greedy L rem, X ⊆ rem := by
  induction L generalizing rem with
  | nil => exact ⟨List.Pairwise.nil, fun X h => by cases h⟩
  | cons Y L ih =>
    rw [greedy]
    split
    · next h =>
      obtain ⟨h1, h2⟩ := ih (rem \ Y)
      refine ⟨List.pairwise_cons.2 ⟨fun X hX => ?_, h1⟩, fun X hX => ?_⟩
      · exact Finset.disjoint_of_subset_right (h2 X hX) Finset.disjoint_sdiff
      · rcases List.mem_cons.1 hX with rfl | hX
        · exact h
        · exact (h2 X hX).trans Finset.sdiff_subset
    · exact ih rem

theorem eligible_eq (st : State α V) (hg : Good st.sct st.ct) (vert : Sct α) :
    ((transform st true false).map (fun r => (r.1.toFinset, r.2.card))).filter (fun e => ∀ x ∈ e.1, x ∈ vert.map Prod.fst) =
      (st.ct.filter (fun e => ∀ x ∈ e.1, x ∈ vert.map Prod.fst)).map (fun e => (e.1, e.2.card)) := by
  have h1 : st.ct.filter (fun e => decide ((if false = true then 1 else 0) ≤ e.2.card ∧ (if true = true then 0 else 1) < e.1.card)) = st.ct := by
    apply List.filter_eq_self.2
    intro e he
    have := (hg.keys.nonempty e.1 (mem_key_of_mem he)).card_pos
    simp [this]
  unfold transform
  rw [h1, List.map_map]
  have h2 : ((fun r : List α × Finset ℕ => (r.1.toFinset, r.2.card)) ∘ fun e : Finset α × Finset ℕ => (sortSet e.1, e.2)) =
      fun e => (e.1, e.2.card) := by
    funext e
    simp only [Function.comp, toFinset_sortSet]
  rw [h2, List.filter_map]
  rfl

/-- C23. `transform` returns one row per transaction (missing: the empty database, which gets one row, `vectorizer_empty`) and at most `k` columns, distinct itemsets of the
code table without stop item. The columns are the most used among the itemsets whose items all occur in the new data
outside the stop list. The columns set in a row are the greedy cover of the transaction without its stop items: pairwise disjoint
subsets of it. -/
theorem vectorizer_content_partial (items : List α) (D : List (List α)) (st : State α V) (h : Reach (κ := κ) items D st) (k : ℕ)
    (stop : Finset α) (D' : List (List α)) :
    ∃ (cols : List (Finset α)) (mat : List (List Bool)), vectTransform st k stop D' = .ok (cols, mat) ∧
      (D' ≠ [] → mat.length = D'.length) ∧ cols.length ≤ k ∧ cols.Nodup ∧
      (∀ X ∈ cols, (∃ u, (X, u) ∈ st.ct) ∧ ∀ x ∈ X, x ∉ stop ∧ ∃ t, Occurs D' x t) ∧
      (∀ Y u', (Y, u') ∈ st.ct → (∀ x ∈ Y, x ∉ stop ∧ ∃ t, Occurs D' x t) → Y ∉ cols →
        cols.length = k ∧ ∀ X ∈ cols, ∀ u, (X, u) ∈ st.ct → u'.card ≤ u.card) ∧
      ∀ (t : ℕ) (row : List Bool) (tr : List α), mat[t]? = some row → D'[t]? = some tr →
        row.length = cols.length ∧ marked cols row = greedy cols (tr.toFinset \ stop) ∧
        (marked cols row).Pairwise Disjoint ∧ ∀ X ∈ marked cols row, ∀ x ∈ X, x ∈ tr ∧ x ∉ stop := by
  obtain ⟨hg, _, _⟩ := reach_inv items D st h
  have hkeys : ∀ x, x ∈ (toVertical stop D').map Prod.fst ↔ x ∉ stop ∧ ∃ t, Occurs D' x t := by
    intro x; rw [mem_toVertical_keys]; exact And.comm
  have hE := eligible_eq st hg (toVertical stop D')
  set E := ((transform st true false).map (fun r => (r.1.toFinset, r.2.card))).filter
    (fun e => ∀ x ∈ e.1, x ∈ (toVertical stop D').map Prod.fst) with hEdef
  have hEmem : ∀ e, e ∈ E ↔ ∃ u, (e.1, u) ∈ st.ct ∧ e.2 = u.card ∧ ∀ x ∈ e.1, x ∉ stop ∧ ∃ t, Occurs D' x t := by
    intro e
    rw [hE, List.mem_map]
    constructor
    · rintro ⟨f, hf, rfl⟩
      rw [List.mem_filter, decide_eq_true_eq] at hf
      exact ⟨f.2, hf.1, rfl, fun x hx => (hkeys x).1 (hf.2 x hx)⟩
    · rintro ⟨u, h1, h2, h3⟩
      refine ⟨(e.1, u), ?_, by rw [← h2]⟩
      rw [List.mem_filter, decide_eq_true_eq]
      exact ⟨h1, fun x hx => (hkeys x).2 (h3 x hx)⟩
  have hEnd : (E.map Prod.fst).Nodup := by
    rw [hE, List.map_map]
    exact nodup_filter_keys st.ct _ hg.keys.nodup
  have hperm : (E.insertionSort (fun a b => b.2 ≤ a.2)).Perm E := List.perm_insertionSort _ _
  have hsort : (E.insertionSort (fun a b => b.2 ≤ a.2)).Pairwise (fun a b => b.2 ≤ a.2) := by
    have : Std.Total (fun a b : Finset α × ℕ => b.2 ≤ a.2) := ⟨fun a b => le_total _ _⟩
    have : IsTrans (Finset α × ℕ) (fun a b => b.2 ≤ a.2) := ⟨fun a b c h1 h2 => le_trans h2 h1⟩
    exact List.pairwise_insertionSort _ _
  have hcolsdef : vectColumns st k (toVertical stop D') = (E.insertionSort (fun a b => b.2 ≤ a.2)).take k := rfl
  generalize E.insertionSort (fun a b => b.2 ≤ a.2) = S at hperm hsort hcolsdef
  have hSnd : (S.map Prod.fst).Nodup := (hperm.map _).nodup_iff.2 hEnd
  have hnd : ((S.take k).map Prod.fst).Nodup := hSnd.sublist ((List.take_sublist _ _).map _)
  have hmemE : ∀ e ∈ S.take k, e ∈ E := fun e he => hperm.mem_iff.1 (List.mem_of_mem_take he)
  have hcov : cover (toVertical stop D') ((S.take k).map Prod.fst) =
      .ok (coverMap (lookup (toVertical stop D')) ((S.take k).map Prod.fst)) := by
    unfold cover
    rw [if_pos, coverLoop_eq _ _ _ hnd (by simp), List.nil_append]
    rw [List.all_eq_true]
    intro X hX
    obtain ⟨e, he, rfl⟩ := List.mem_map.1 hX
    obtain ⟨u, _, _, h3⟩ := (hEmem e).1 (hmemE e he)
    exact decide_eq_true (fun x hx => (hkeys x).2 (h3 x hx))
  refine ⟨(S.take k).map Prod.fst, (List.range (vectRows D')).map (fun t =>
    (coverMap (lookup (toVertical stop D')) ((S.take k).map Prod.fst)).map (fun e => decide (t ∈ e.2))), ?_, ?_, ?_, hnd, ?_, ?_, ?_⟩
  · unfold vectTransform
    simp only
    rw [hcolsdef, hcov]
    simp only
    rw [keys_coverMap]
  · intro hne
    rw [List.length_map, List.length_range, vectRows, if_neg hne]
  · rw [List.length_map]; exact List.length_take_le _ _
  · intro X hX
    obtain ⟨e, he, rfl⟩ := List.mem_map.1 hX
    obtain ⟨u, h1, _, h3⟩ := (hEmem e).1 (hmemE e he)
    exact ⟨⟨u, h1⟩, h3⟩
  · intro Y u' hY hYe hYc
    have hYS : (Y, u'.card) ∈ S := hperm.mem_iff.2 ((hEmem _).2 ⟨u', hY, rfl, hYe⟩)
    have hYd : (Y, u'.card) ∈ S.drop k := by
      rw [← List.take_append_drop k S] at hYS
      rcases List.mem_append.1 hYS with hm | hm
      · exact absurd (mem_key_of_mem hm) hYc
      · exact hm
    have hlen : k < S.length := by
      by_contra hcon
      rw [List.drop_eq_nil_of_le (by omega)] at hYd
      cases hYd
    refine ⟨by rw [List.length_map, List.length_take]; omega, fun X hX u hu => ?_⟩
    obtain ⟨e, he, rfl⟩ := List.mem_map.1 hX
    obtain ⟨u2, h1, h2, _⟩ := (hEmem e).1 (hmemE e he)
    have huu := eq_of_mem_of_key hg.keys.nodup h1 hu rfl
    rw [Prod.mk.injEq] at huu
    rw [← huu.2, ← h2]
    have hs2 : (S.take k ++ S.drop k).Pairwise (fun a b : Finset α × ℕ => b.2 ≤ a.2) := by rw [List.take_append_drop]; exact hsort
    exact (List.pairwise_append.1 hs2).2.2 e he _ hYd
  · intro t row tr hrow htr
    rw [List.getElem?_map, Option.map_eq_some_iff] at hrow
    obtain ⟨t', ht', rfl⟩ := hrow
    have htt : t' = t := by
      rw [List.getElem?_eq_some_iff] at ht'
      obtain ⟨h1, h2⟩ := ht'
      rw [List.getElem_range] at h2
      exact h2.symm
    subst htt
    have hocc : ∀ a, a ∈ tr.toFinset \ stop ↔ t' ∈ lookup (toVertical stop D') a := by
      intro a
      rw [mem_lookup_toVertical, Finset.mem_sdiff, List.mem_toFinset]
      constructor
      · exact fun ha => ⟨⟨tr, htr, ha.1⟩, ha.2⟩
      · rintro ⟨⟨tr', htr', ha⟩, h2⟩
        rw [htr, Option.some.injEq] at htr'
        rw [htr']
        exact ⟨ha, h2⟩
    have hgr : marked ((S.take k).map Prod.fst)
        ((coverMap (lookup (toVertical stop D')) ((S.take k).map Prod.fst)).map (fun e => decide (t' ∈ e.2))) =
        greedy ((S.take k).map Prod.fst) (tr.toFinset \ stop) := by
      have h1 := marked_map (coverMap (lookup (toVertical stop D')) ((S.take k).map Prod.fst)) t'
      rw [keys_coverMap] at h1
      rw [h1]
      refine coverMap_greedy _ _ (fun X hX => ?_) t' _ (fun _ _ a _ => hocc a)
      obtain ⟨e, he, rfl⟩ := List.mem_map.1 hX
      obtain ⟨u, h1, _, _⟩ := (hEmem e).1 (hmemE e he)
      exact hg.keys.nonempty _ (mem_key_of_mem h1)
    obtain ⟨g1, g2⟩ := greedy_disjoint ((S.take k).map Prod.fst) (tr.toFinset \ stop)
    refine ⟨?_, hgr, by rw [hgr]; exact g1, fun X hX x hx => ?_⟩
    · rw [List.length_map, ← List.length_map (f := Prod.fst), keys_coverMap]
    · rw [hgr] at hX
      have := g2 X hX hx
      rw [Finset.mem_sdiff, List.mem_toFinset] at this
      exact this

/-- With no transaction at all, one row is returned: `transform([])` has one row. -/
theorem vectorizer_empty (items : List α) (D : List (List α)) (st : State α V) (h : Reach (κ := κ) items D st) (k : ℕ)
    (stop : Finset α) : vectTransform st k stop [] = .ok ([], [[]]) := by
  obtain ⟨hg, _, _⟩ := reach_inv items D st h
  have hv : toVertical stop ([] : List (List α)) = [] := rfl
  have hcols : vectColumns st k ([] : Sct α) = [] := by
    have hE := eligible_eq st hg []
    unfold vectColumns
    rw [hE]
    have : st.ct.filter (fun e => decide (∀ x ∈ e.1, x ∈ List.map Prod.fst ([] : Sct α))) = [] := by
      rw [List.filter_eq_nil_iff]
      intro e he
      obtain ⟨a, ha⟩ := hg.keys.nonempty _ (mem_key_of_mem he)
      simp only [List.map_nil, List.not_mem_nil, decide_eq_true_eq]
      exact fun h => h a ha
    rw [this]
    simp
  unfold vectTransform
  simp only [hv, hcols]
  rfl

/-- Two columns, stop item `3`; item `2` occurs alone in the second transaction. -/
example : (((update (exP false) exChoose (prefit (exP false) [] [[1, 2], [1, 2, 3], [3], [3]]) {1, 2}).bind Except.toOption).bind
      (fun st => (vectTransform st 2 {3} [[2, 1, 3], [2], []]).toOption)).map (fun r => (r.1.map sortSet, r.2)) =
    some ([[1, 2], [1]], [[true, false], [false, false], [false, false]]) := by decide

end Verif.Slim
