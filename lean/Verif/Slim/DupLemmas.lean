import Verif.Slim.FitLemmas

set_option autoImplicit false
set_option linter.unusedSectionVars false

namespace Verif.Slim

variable {α κ V : Type*} [LinearOrder α] [LinearOrder κ] [LinearOrder V]

/-- What remains uncovered after using a list of itemsets. -/
def resAll (s : α → Finset ℕ) (L : List (Finset α)) : α → Finset ℕ := L.foldl residue s

theorem coverMap_append (s : α → Finset ℕ) (A B : List (Finset α)) :
    coverMap s (A ++ B) = coverMap s A ++ coverMap (resAll s A) B := by
  induction A generalizing s with
  | nil => rfl
  | cons X A ih => rw [List.cons_append, coverMap, coverMap, ih, List.cons_append]; rfl

theorem coverLoop_append (s : α → Finset ℕ) (acc : Table α) (A B : List (Finset α)) :
    coverLoop s acc (A ++ B) = coverLoop (resAll s A) (coverLoop s acc A) B := by
  induction A generalizing s acc with
  | nil => rfl
  | cons X A ih =>
    rw [List.cons_append, coverLoop, coverLoop, ih]
    rfl

theorem resAll_sub (s : α → Finset ℕ) (L : List (Finset α)) (a : α) (t : ℕ) (h : t ∈ resAll s L a) : t ∈ s a := by
  induction L generalizing s with
  | nil => exact h
  | cons X L ih => exact ((mem_residue s X a t).1 (ih (residue s X) h)).1

theorem interTids_resAll (s : α → Finset ℕ) (L : List (Finset α)) (c : Finset α) (hc : c ∈ L) :
    interTids (resAll s L) c = ∅ := by
  rw [Finset.eq_empty_iff_forall_notMem]
  intro t ht
  rw [mem_interTids] at ht
  obtain ⟨⟨a, ha⟩, h⟩ := ht
  induction L generalizing s with
  | nil => cases hc
  | cons X L ih =>
    rcases List.mem_cons.1 hc with rfl | hc
    · have h2 : ∀ x ∈ c, t ∈ residue s c x := fun x hx => resAll_sub (residue s c) L x t (h x hx)
      exact ((mem_residue s c a t).1 (h2 a ha)).2 ha
        ((mem_interTids s c t).2 ⟨⟨a, ha⟩, fun x hx => ((mem_residue s c x t).1 (h2 x hx)).1⟩)
    · exact ih (residue s X) hc h

theorem residue_of_empty (s : α → Finset ℕ) (c : Finset α) (h : interTids s c = ∅) : residue s c = s := by
  funext k
  unfold residue
  rw [h, Finset.sdiff_empty, ite_self]

theorem dictSet_append {K W : Type*} [DecidableEq K] (d d2 : List (K × W)) (k : K) (v : W) (h : k ∈ d.map Prod.fst)
    (h2 : k ∉ d2.map Prod.fst) : dictSet (d ++ d2) k v = dictSet d k v ++ d2 := by
  unfold dictSet
  rw [if_pos h, if_pos (by rw [List.map_append]; exact List.mem_append_left _ h), List.map_append]
  congr 1
  refine Eq.trans (List.map_congr_left (fun e he => if_neg ?_)) (List.map_id _)
  rintro rfl
  exact h2 (mem_key_of_mem he)

/-- Covering with an itemset a second time only erases its usage. -/
theorem coverLoop_dup (s : α → Finset ℕ) (A B : List (Finset α)) (c : Finset α) (hnd : (A ++ B).Nodup) (hc : c ∈ A) :
    coverLoop s [] (A ++ c :: B) = dictSet (coverMap s (A ++ B)) c ∅ := by
  have hA : A.Nodup := hnd.of_append_left
  have hcB : c ∉ B := fun h => List.disjoint_of_nodup_append hnd hc h
  rw [coverLoop_append, coverLoop_eq s [] A hA (by simp), List.nil_append, coverLoop]
  rw [interTids_resAll s A c hc]
  have hfun : (fun k => if k ∈ c then resAll s A k \ ∅ else resAll s A k) = resAll s A := by
    funext k
    rw [Finset.sdiff_empty, ite_self]
  rw [hfun, coverLoop_eq _ _ _ hnd.of_append_right, coverMap_append, dictSet_append]
  · rw [keys_coverMap]; exact hc
  · rw [keys_coverMap]; exact hcB
  · intro X hX
    rw [mem_keys_dictSet, keys_coverMap]
    rintro (rfl | h)
    · exact hcB hX
    · exact List.disjoint_of_nodup_append hnd h hX

theorem insertIdx_split {β : Type*} (l : List β) (i : ℕ) (x : β) (h : i ≤ l.length) :
    l.insertIdx i x = l.take i ++ x :: l.drop i := by
  induction l generalizing i with
  | nil =>
    have : i = 0 := by simpa using h
    subst this
    rfl
  | cons y l ih =>
    cases i with
    | zero => rfl
    | succ i => rw [List.insertIdx_succ_cons, ih i (by simpa using h)]; rfl

theorem mem_take_bisect (P : Params α κ V) (ct : Table α) (hs : ct.Pairwise (fun a b => P.key a.1 ≤ P.key b.1))
    (c : Finset α) (hc : c ∈ ct.map Prod.fst) : c ∈ (ct.map Prod.fst).take (bisect P ct c) := by
  obtain ⟨e, he, rfl⟩ := List.mem_map.1 hc
  obtain ⟨A, B, rfl⟩ := List.append_of_mem he
  have hle : A.length + 1 ≤ bisect P (A ++ e :: B) e.1 := by
    unfold bisect
    rw [List.filter_append, List.filter_cons_of_pos (by simp), List.length_append, List.length_cons]
    have : A.filter (fun x => P.key x.1 ≤ P.key e.1) = A := by
      rw [List.filter_eq_self]
      intro x hx
      exact decide_eq_true ((List.pairwise_append.1 hs).2.2 x hx e List.mem_cons_self)
    rw [this]
    omega
  rw [List.map_append, List.take_append, List.mem_append]
  right
  rw [List.length_map, List.map_cons]
  obtain ⟨k, hk⟩ : ∃ k, bisect P (A ++ e :: B) e.1 - A.length = k + 1 := ⟨bisect P (A ++ e :: B) e.1 - A.length - 1, by omega⟩
  rw [hk, List.take_succ_cons]
  exact List.mem_cons_self

theorem sortTable_sorted (P : Params α κ V) (tab : Table α) :
    (sortTable P tab).Pairwise (fun a b => P.key a.1 ≤ P.key b.1) := by
  have : Std.Total (fun a b : Finset α × Finset ℕ => P.key a.1 ≤ P.key b.1) := ⟨fun a b => le_total _ _⟩
  have : IsTrans (Finset α × Finset ℕ) (fun a b => P.key a.1 ≤ P.key b.1) := ⟨fun a b c h1 h2 => le_trans h1 h2⟩
  exact List.pairwise_insertionSort _ _

theorem cover_dup (P : Params α κ V) (st : State α V) (hg : Good st.sct st.ct)
    (hs : st.ct.Pairwise (fun a b => P.key a.1 ≤ P.key b.1)) (c : Finset α) (hc : c ∈ st.ct.map Prod.fst) :
    cover st.sct ((st.ct.map Prod.fst).insertIdx (bisect P st.ct c) c) =
      .ok (dictSet (coverMap (lookup st.sct) (st.ct.map Prod.fst)) c ∅) := by
  have hlen : bisect P st.ct c ≤ (st.ct.map Prod.fst).length := by rw [List.length_map]; exact bisect_le P st.ct c
  rw [insertIdx_split _ _ _ hlen]
  have hmem := mem_take_bisect P st.ct hs c hc
  have hd := coverLoop_dup (lookup st.sct) ((st.ct.map Prod.fst).take (bisect P st.ct c))
    ((st.ct.map Prod.fst).drop (bisect P st.ct c)) c (by rw [List.take_append_drop]; exact hg.keys.nodup) hmem
  rw [List.take_append_drop] at hd
  unfold cover
  rw [if_pos, hd]
  rw [List.all_eq_true]
  intro X hX
  apply decide_eq_true
  refine hg.keys.known X ?_
  rcases List.mem_append.1 hX with h | h
  · exact List.mem_of_mem_take h
  · rcases List.mem_cons.1 h with rfl | h
    · exact hc
    · exact List.mem_of_mem_drop h

theorem updateUsages_same_keys (P : Params α κ V) (st : State α V) (hg : Good st.sct st.ct) (usages : Table α)
    (hu : usages.map Prod.fst = st.ct.map Prod.fst) (size : V) :
    (∀ e, e ∈ (updateUsages P st usages size).ct ↔ e ∈ usages) ∧
      ((updateUsages P st usages size).ct.map Prod.fst).Nodup := by
  have hnd : (usages.map Prod.fst).Nodup := by rw [hu]; exact hg.keys.nodup
  unfold updateUsages
  simp only
  have hdrop : (st.ct.map Prod.fst).filter (fun c => decide (c ∉ usages.map Prod.fst ∧ 1 < c.card)) = [] := by
    rw [List.filter_eq_nil_iff]
    intro c hc
    rw [hu]
    simp [hc]
  constructor
  · intro e
    rw [(sortTable_perm P _).mem_iff, List.mem_filter, mem_dictUpdate _ _ hnd, hdrop]
    constructor
    · rintro ⟨h | ⟨h1, h2⟩, _⟩
      · exact h
      · exact absurd (hu ▸ mem_key_of_mem h1) h2
    · exact fun h => ⟨Or.inl h, by simp⟩
  · rw [((sortTable_perm P _).map Prod.fst).nodup_iff]
    exact (nodup_dictUpdate _ _ hg.keys.nodup).sublist (List.filter_sublist.map _)

end Verif.Slim
