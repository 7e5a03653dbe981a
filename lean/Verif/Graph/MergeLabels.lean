import Verif.Graph.MergeLemmas

/-!
# Labels of a merged pattern
-/

set_option autoImplicit false
set_option linter.unusedSectionVars false

namespace Verif.Graph

variable {σ : Type} [DecidableEq σ]

/-- The labels are joined into a string or a tuple: one is missing, or both are strings. -/
def Joinable (l k : Label σ) : Prop := l = .none ∨ k = .none ∨ ((∃ s, l = .str s) ∧ ∃ s, k = .str s)

theorem joinable_hashable {l k : Label σ} (hl0 : l ≠ .none) (hl : l.Hashable) (h : Joinable l k) : (if k = .none then l else newLabel l k).Hashable := by
  rcases h with rfl | rfl | ⟨⟨s, rfl⟩, t, rfl⟩
  · exact absurd rfl hl0
  · simpa using hl
  · simp only [reduceCtorEq, if_false, newLabel]
    split <;> trivial

theorem not_joinable {l k : Label σ} (h : ¬ Joinable l k) : ¬ (if k = .none then l else newLabel l k).Hashable := by
  unfold Joinable at h
  cases l <;> cases k <;> simp_all [newLabel, Label.Hashable]

theorem list_stays (l k : Label σ) (h : ¬ k.Hashable) : ¬ (if k = .none then l else newLabel l k).Hashable := by
  cases l <;> cases k <;> simp_all [newLabel, Label.Hashable]

theorem lookup_mem {nodes : List (ℕ × Label σ)} {v : ℕ} {k : Label σ} (h : nodes.lookup v = some k) : (v, k) ∈ nodes := by
  induction nodes with
  | nil => simp at h
  | cons n t ih =>
    obtain ⟨a, c⟩ := n
    by_cases e : v = a
    · subst e
      simp [List.lookup] at h
      simp [h]
    · have : (v == a) = false := by simpa using e
      simp only [List.lookup, this] at h
      exact List.mem_cons_of_mem _ (ih h)

theorem lookup_addNode' (nodes : List (ℕ × Label σ)) (v : ℕ) (l : Label σ) (w : ℕ) (hne : w ≠ v) : (addNode nodes v l).lookup w = nodes.lookup w := by
  by_cases hv : v ∈ nodes.map Prod.fst
  · by_cases hl : l = .none
    · rw [hl, addNode_none_mem _ _ hv]
    · rw [lookup_addNode _ _ _ _ hv hl, if_neg hne]
  · rw [addNode_new _ _ _ hv, lookup_snoc _ _ _ _ hv, if_neg hne]

theorem mem_addNode {nodes : List (ℕ × Label σ)} {v : ℕ} {l : Label σ} {n : ℕ × Label σ} (h : n ∈ addNode nodes v l) : n ∈ nodes ∨ n = (v, l) := by
  unfold addNode at h
  split at h
  · obtain ⟨m, hm, rfl⟩ := List.mem_map.1 h
    obtain ⟨a, k⟩ := m
    simp only
    split
    · next e =>
      subst e
      split
      · exact .inl hm
      · exact .inr rfl
    · exact .inl hm
  · rw [List.mem_append, List.mem_singleton] at h
    exact h

theorem addNode_len (nodes : List (ℕ × Label σ)) (a : ℕ) (l : Label σ) (ha : a ∈ nodes.map Prod.fst) : (addNode nodes a l).length = nodes.length := by
  have := congrArg List.length (addNode_fst_mem nodes a l ha)
  simpa using this

/-- If the labels at every port can be joined, no label is a list. -/
theorem secondNodes_hash (ports : List (ℕ × ℕ)) (hf : (ports.map Prod.fst).Nodup) : ∀ (t nodes : List (ℕ × Label σ)) (mp : List (ℕ × ℕ)) (nodes' : List (ℕ × Label σ)) (mp' : List (ℕ × ℕ)),
    nodes.map Prod.fst = List.range' 1 nodes.length → (∀ x ∈ ports, x.1 ∈ nodes.map Prod.fst) → (t.map Prod.fst).Nodup → (∀ n ∈ nodes, n.2.Hashable) → (∀ n ∈ t, n.2.Hashable) →
    (∀ n ∈ t, ∀ a k, portOf ports n.1 = some a → nodes.lookup a = some k → Joinable n.2 k) → secondNodes ports t nodes mp = .ok (nodes', mp') → ∀ n ∈ nodes', n.2.Hashable
  | [], nodes, mp, nodes', mp', _, _, _, h4, _, _, h => by
    simp only [secondNodes, Except.ok.injEq, Prod.mk.injEq] at h
    rw [← h.1]; exact h4
  | (b, l) :: t, nodes, mp, nodes', mp', h1, h2, h3, h4, h5, h6, h => by
    simp only [List.map_cons, List.nodup_cons] at h3
    rw [secondNodes] at h
    cases e : portOf ports b with
    | none =>
      have hnew : nodes.length + 1 ∉ nodes.map Prod.fst := by
        rw [h1, List.mem_range'_1]; omega
      simp only [e] at h
      refine secondNodes_hash ports hf t _ _ nodes' mp' ?_ ?_ h3.2 ?_ (fun n hn => h5 n (by simp [hn])) ?_ h
      · rw [addNode_new _ _ _ hnew, List.map_append, h1, List.length_append, List.length_singleton, List.range'_concat]
        simp [Nat.add_comm]
      · intro x hx
        rw [addNode_new _ _ _ hnew, List.map_append]
        exact List.mem_append_left _ (h2 x hx)
      · intro n hn
        rcases mem_addNode hn with hn | rfl
        · exact h4 n hn
        · exact h5 (b, l) (by simp)
      · intro n hn a k hp hk
        have ha := h2 _ (portOf_some hp)
        rw [lookup_addNode' _ _ _ _ (by rintro rfl; exact hnew ha)] at hk
        exact h6 n (by simp [hn]) a k hp hk
    | some a =>
      simp only [e] at h
      have ha := h2 _ (portOf_some e)
      obtain ⟨k, hk⟩ := lookup_isSome_of_mem nodes a ha
      unfold addPortLabel at h
      by_cases hl : l = .none
      · rw [if_pos hl] at h
        simp only [Except.bind] at h
        exact secondNodes_hash ports hf t _ _ nodes' mp' h1 h2 h3.2 h4 (fun n hn => h5 n (by simp [hn])) (fun n hn => h6 n (by simp [hn])) h
      · rw [if_neg hl, hk] at h
        simp only [Except.bind] at h
        refine secondNodes_hash ports hf t _ _ nodes' mp' ?_ ?_ h3.2 ?_ (fun n hn => h5 n (by simp [hn])) ?_ h
        · rw [addNode_fst_mem _ _ _ ha, addNode_len _ _ _ ha, h1]
        · rw [addNode_fst_mem _ _ _ ha]; exact h2
        · intro n hn
          rcases mem_addNode hn with hn | rfl
          · exact h4 n hn
          · exact joinable_hashable hl (h5 (b, l) (by simp)) (h6 (b, l) (by simp) a k e hk)
        · intro n hn a' k' hp hk'
          have hne : a' ≠ a := by
            rintro rfl
            have := List.inj_on_of_nodup_map hf (portOf_some hp) (portOf_some e) rfl
            exact h3.1 ((Prod.mk.inj this).2 ▸ List.mem_map.2 ⟨n, hn, rfl⟩)
          rw [lookup_addNode' _ _ _ _ hne] at hk'
          exact h6 n (by simp [hn]) a' k' hp hk'

/-- A label that is a list, or becomes one at a port, remains. -/
theorem secondNodes_list (ports : List (ℕ × ℕ)) (hf : (ports.map Prod.fst).Nodup) : ∀ (t nodes : List (ℕ × Label σ)) (mp : List (ℕ × ℕ)) (nodes' : List (ℕ × Label σ)) (mp' : List (ℕ × ℕ)),
    nodes.map Prod.fst = List.range' 1 nodes.length → (∀ x ∈ ports, x.1 ∈ nodes.map Prod.fst) → (t.map Prod.fst).Nodup →
    ((∃ a k, nodes.lookup a = some k ∧ ¬ k.Hashable) ∨ ∃ n ∈ t, ∃ a k, portOf ports n.1 = some a ∧ nodes.lookup a = some k ∧ ¬ Joinable n.2 k) →
    secondNodes ports t nodes mp = .ok (nodes', mp') → ∃ n ∈ nodes', ¬ n.2.Hashable
  | [], nodes, mp, nodes', mp', _, _, _, h4, h => by
    simp only [secondNodes, Except.ok.injEq, Prod.mk.injEq] at h
    rcases h4 with ⟨a, k, h5, h6⟩ | ⟨n, hn, -⟩
    · exact ⟨(a, k), by rw [← h.1]; exact lookup_mem h5, h6⟩
    · simp at hn
  | (b, l) :: t, nodes, mp, nodes', mp', h1, h2, h3, h4, h => by
    simp only [List.map_cons, List.nodup_cons] at h3
    rw [secondNodes] at h
    cases e : portOf ports b with
    | none =>
      have hnew : nodes.length + 1 ∉ nodes.map Prod.fst := by
        rw [h1, List.mem_range'_1]; omega
      simp only [e] at h
      refine secondNodes_list ports hf t _ _ nodes' mp' ?_ ?_ h3.2 ?_ h
      · rw [addNode_new _ _ _ hnew, List.map_append, h1, List.length_append, List.length_singleton, List.range'_concat]
        simp [Nat.add_comm]
      · intro x hx
        rw [addNode_new _ _ _ hnew, List.map_append]
        exact List.mem_append_left _ (h2 x hx)
      · rcases h4 with ⟨a, k, h5, h6⟩ | ⟨n, hn, a, k, h5, h6, h7⟩
        · have ha : a ∈ nodes.map Prod.fst := List.mem_map.2 ⟨_, lookup_mem h5, rfl⟩
          exact .inl ⟨a, k, by rw [lookup_addNode' _ _ _ _ (by rintro rfl; exact hnew ha)]; exact h5, h6⟩
        · rw [List.mem_cons] at hn
          rcases hn with rfl | hn
          · simp only at h5
            rw [e] at h5
            simp at h5
          · have ha := h2 _ (portOf_some h5)
            exact .inr ⟨n, hn, a, k, h5, by rw [lookup_addNode' _ _ _ _ (by rintro rfl; exact hnew ha)]; exact h6, h7⟩
    | some a =>
      simp only [e] at h
      have ha := h2 _ (portOf_some e)
      obtain ⟨k, hk⟩ := lookup_isSome_of_mem nodes a ha
      unfold addPortLabel at h
      by_cases hl : l = .none
      · rw [if_pos hl] at h
        simp only [Except.bind] at h
        refine secondNodes_list ports hf t _ _ nodes' mp' h1 h2 h3.2 ?_ h
        rcases h4 with h4 | ⟨n, hn, a', k', h5, h6, h7⟩
        · exact .inl h4
        · rw [List.mem_cons] at hn
          rcases hn with rfl | hn
          · exact absurd (.inl hl) h7
          · exact .inr ⟨n, hn, a', k', h5, h6, h7⟩
      · rw [if_neg hl, hk] at h
        simp only [Except.bind] at h
        have hne0 : (if k = .none then l else newLabel l k) ≠ .none := by
          split
          · exact hl
          · next h => exact newLabel_ne_none l k h
        refine secondNodes_list ports hf t _ _ nodes' mp' ?_ ?_ h3.2 ?_ h
        · rw [addNode_fst_mem _ _ _ ha, addNode_len _ _ _ ha, h1]
        · rw [addNode_fst_mem _ _ _ ha]; exact h2
        · have hset : (addNode nodes a (if k = .none then l else newLabel l k)).lookup a = some (if k = .none then l else newLabel l k) := by
            rw [lookup_addNode _ _ _ _ ha hne0, if_pos rfl, hk]; rfl
          rcases h4 with ⟨a', k', h5, h6⟩ | ⟨n, hn, a', k', h5, h6, h7⟩
          · by_cases hne : a' = a
            · subst hne
              rw [hk] at h5
              obtain rfl := Option.some.inj h5
              exact .inl ⟨a', _, hset, list_stays l k h6⟩
            · exact .inl ⟨a', k', by rw [lookup_addNode' _ _ _ _ hne]; exact h5, h6⟩
          · rw [List.mem_cons] at hn
            rcases hn with rfl | hn
            · simp only at h5
              rw [e] at h5
              obtain rfl := Option.some.inj h5
              rw [hk] at h6
              obtain rfl := Option.some.inj h6
              exact .inl ⟨a, _, hset, not_joinable h7⟩
            · have hne : a' ≠ a := by
                rintro rfl
                have := List.inj_on_of_nodup_map hf (portOf_some h5) (portOf_some e) rfl
                exact h3.1 ((Prod.mk.inj this).2 ▸ List.mem_map.2 ⟨n, hn, rfl⟩)
              exact .inr ⟨n, hn, a', k', h5, by rw [lookup_addNode' _ _ _ _ hne]; exact h6, h7⟩

theorem counter_list (ls : List (Label σ)) (h : ∃ l ∈ ls, ¬ l.Hashable) (acc : List (σ × ℕ)) : counter (labelValues ls) acc = .error "TypeError: unhashable type: 'list'" := by
  have key : ∀ (l : List σ) (r : List (σ ⊕ List σ)) (acc : List (σ × ℕ)), (∀ acc, counter r acc = .error "TypeError: unhashable type: 'list'") → counter (l.map Sum.inl ++ r) acc = .error "TypeError: unhashable type: 'list'" := by
    intro l
    induction l with
    | nil => intro r acc h; exact h acc
    | cons a t ih => intro r acc h; simp only [List.map_cons, List.cons_append, counter]; exact ih r _ h
  induction ls generalizing acc with
  | nil => obtain ⟨l, hl, -⟩ := h; simp at hl
  | cons l t ih =>
    by_cases hl : l.Hashable
    · have ht : ∃ l ∈ t, ¬ l.Hashable := by
        obtain ⟨m, hm, hh⟩ := h
        rw [List.mem_cons] at hm
        rcases hm with rfl | hm
        · exact absurd hl hh
        · exact ⟨m, hm, hh⟩
      cases l with
      | none => exact ih ht acc
      | str s => simp only [labelValues, counter]; exact ih ht _
      | tuple k => simp only [labelValues]; exact key k _ acc (fun acc => ih ht acc)
      | list k => exact absurd hl (by simp [Label.Hashable])
    · cases l <;> simp [Label.Hashable] at hl
      simp [labelValues, counter]

end Verif.Graph
