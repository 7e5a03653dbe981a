import Verif.Nodes.FactLemmas

/-!
# Factorisation at one node of a dictionary (C95): lemmas
-/

set_option autoImplicit false
set_option linter.unusedSectionVars false

namespace Verif.Nodes

open Verif.PTree

variable {α : Type}

/-- A child that has exactly one child: its distance, number, repetitions and period, the distance of its child, its child. -/
structure Cell (α : Type) where
  d : ℤ
  id : ℕ
  rp : ℕ × ℤ
  e : ℤ
  g : NTree α

/-- The children. -/
def cellsF : List (Cell α) → NForest α
  | [] => .nil
  | c :: l => .cons c.d (.node c.id (some c.rp) (.cons c.e c.g .nil)) (cellsF l)

/-- The grandchildren at the distances of the children. -/
def grandF : List (Cell α) → NForest α
  | [] => .nil
  | c :: l => .cons c.d c.g (grandF l)

theorem cellsF_kids : ∀ (L : List (Cell α)), (cellsF L).kids = L.map (fun c => (c.id, c.d))
  | [] => rfl
  | c :: l => by simp [cellsF, NForest.kids, NTree.id, cellsF_kids l]

theorem grandF_kids : ∀ (L : List (Cell α)), (grandF L).kids = L.map (fun c => (c.g.id, c.d))
  | [] => rfl
  | c :: l => by simp [grandF, NForest.kids, grandF_kids l]

theorem mem_cellsF (q : Option ℕ) (x : ℕ × Node α) : ∀ (L : List (Cell α)), x ∈ (cellsF L).entries q ↔ ∃ c ∈ L, x = (c.id, .inner q (some c.rp) [(c.g.id, c.e)]) ∨ x ∈ c.g.entries (some c.id)
  | [] => by simp [cellsF, NForest.entries]
  | c :: l => by simp [cellsF, NForest.entries, NTree.entries, NForest.kids, mem_cellsF q x l, or_assoc]

theorem mem_grandF (q : Option ℕ) (x : ℕ × Node α) : ∀ (L : List (Cell α)), x ∈ (grandF L).entries q ↔ ∃ c ∈ L, x ∈ c.g.entries q
  | [] => by simp [grandF, NForest.entries]
  | c :: l => by simp [grandF, NForest.entries, mem_grandF q x l]

theorem ids_cellsF (k : ℕ) : ∀ (L : List (Cell α)), k ∈ (cellsF L).ids ↔ ∃ c ∈ L, k = c.id ∨ k ∈ c.g.ids
  | [] => by simp [cellsF, NForest.ids]
  | c :: l => by simp [cellsF, NForest.ids, NTree.ids, ids_cellsF k l, or_assoc]

theorem ids_grandF (k : ℕ) : ∀ (L : List (Cell α)), k ∈ (grandF L).ids ↔ ∃ c ∈ L, k ∈ c.g.ids
  | [] => by simp [grandF, NForest.ids]
  | c :: l => by simp [grandF, NForest.ids, ids_grandF k l]

theorem grandF_nodup : ∀ (L : List (Cell α)), (cellsF L).ids.Nodup → (grandF L).ids.Nodup
  | [], _ => by simp [grandF, NForest.ids]
  | c :: l, h => by
    simp only [cellsF, NForest.ids, NTree.ids, List.append_nil, List.nodup_append, List.nodup_cons, List.mem_cons] at h
    simp only [grandF, NForest.ids, List.nodup_append]
    refine ⟨h.1.2, grandF_nodup l h.2.1, ?_⟩
    intro a ha b hb
    obtain ⟨c', hc', hk⟩ := (ids_grandF b l).mp hb
    exact h.2.2 a (Or.inr ha) b ((ids_cellsF b l).mpr ⟨c', hc', Or.inr hk⟩)

/-- Numbers tell the children apart. -/
theorem cells_disj : ∀ (L : List (Cell α)), (cellsF L).ids.Nodup →
    (∀ c ∈ L, c.id ∉ c.g.ids ∧ c.g.ids.Nodup) ∧ ∀ c ∈ L, ∀ c' ∈ L, ∀ k, (k = c.id ∨ k ∈ c.g.ids) → (k = c'.id ∨ k ∈ c'.g.ids) → c = c'
  | [], _ => by simp
  | c :: l, h => by
    simp only [cellsF, NForest.ids, NTree.ids, List.append_nil, List.nodup_append, List.nodup_cons, List.mem_cons] at h
    obtain ⟨h1, h2⟩ := cells_disj l h.2.1
    refine ⟨?_, ?_⟩
    · intro c1 hc1
      rcases List.mem_cons.mp hc1 with e | e
      · subst e; exact h.1
      · exact h1 c1 e
    · intro c1 hc1 c2 hc2 k hk1 hk2
      rcases List.mem_cons.mp hc1 with e1 | e1 <;> rcases List.mem_cons.mp hc2 with e2 | e2
      · rw [e1, e2]
      · subst e1
        exact absurd rfl (h.2.2 k hk1 k ((ids_cellsF k l).mpr ⟨c2, e2, hk2⟩))
      · subst e2
        exact absurd rfl (h.2.2 k hk2 k ((ids_cellsF k l).mpr ⟨c1, e1, hk1⟩))
      · exact h2 c1 e1 c2 e2 k hk1 hk2

theorem mapM_ok {β γ : Type} (f : β → Except String γ) (g : β → γ) : ∀ (L : List β), (∀ x ∈ L, f x = .ok (g x)) → L.mapM f = .ok (L.map g)
  | [], _ => rfl
  | x :: L, h => by
    rw [List.mapM_cons, h x (by simp), mapM_ok f g L (fun y hy => h y (by simp [hy]))]
    rfl

theorem mem_dropKeys (x : ℕ × Node α) : ∀ (l : List (ℕ × ℤ)) (d : NodeDict α), x ∈ l.foldl (fun acc nn => dropKey acc nn.1) d ↔ x ∈ d ∧ x.1 ∉ l.map Prod.fst
  | [], d => by simp
  | y :: l, d => by
    rw [List.foldl_cons, mem_dropKeys x l, mem_dropKey]
    simp only [List.map_cons, List.mem_cons, not_or, and_assoc]

theorem Keyed.dropKeys : ∀ (l : List (ℕ × ℤ)) {d : NodeDict α}, Keyed d → Keyed (l.foldl (fun acc nn => Nodes.dropKey acc nn.1) d)
  | [], _, h => h
  | y :: l, _, h => Keyed.dropKeys l (h.dropKey y.1)

theorem RootFirst.dropKeys : ∀ (l : List (ℕ × ℤ)) {d : NodeDict α}, RootFirst d → 0 ∉ l.map Prod.fst → RootFirst (l.foldl (fun acc nn => Nodes.dropKey acc nn.1) d)
  | [], _, h, _ => h
  | y :: l, d, h, h0 => by
    simp only [List.map_cons, List.mem_cons, not_or] at h0
    refine RootFirst.dropKeys l (d := Nodes.dropKey d y.1) ?_ h0.2
    cases d with
    | nil => simp [RootFirst] at h
    | cons z d =>
      simp only [RootFirst, List.map_cons, List.head?_cons, Option.some.injEq] at h
      simp [RootFirst, Nodes.dropKey, List.filter_cons, h, h0.1]

/-- Factorising at a node whose children all have one child, on the entries of the node. -/
theorem factorizeTree_local {d : NodeDict α} (hk : Keyed d) {nid : ℕ} {rp : Option (ℕ × ℤ)} {c : Cell α} {l : List (Cell α)} {q : Option ℕ}
    (hn : (NTree.node nid rp (cellsF (c :: l))).ids.Nodup) (hin : ∀ x ∈ (NTree.node nid rp (cellsF (c :: l))).entries q, x ∈ d) :
    ∃ d', factorizeTree d nid = .ok d' ∧ Keyed d' ∧ (RootFirst d → 0 ∉ l.map Cell.id → RootFirst d') ∧
      ∀ x, x ∈ d' ↔ (x ∈ d ∧ x.1 ∉ (NTree.node nid rp (cellsF (c :: l))).ids) ∨ x ∈ (NTree.node nid rp (.cons 0 (.node c.id (some c.rp) (grandF (c :: l))) .nil)).entries q := by
  obtain ⟨L, hL⟩ : ∃ L, L = c :: l := ⟨_, rfl⟩
  have hcL : c ∈ L := by simp [hL]
  have hlL : ∀ c' ∈ l, c' ∈ L := fun c' h => by simp [hL, h]
  rw [← hL] at hn hin
  simp only [NTree.ids, List.nodup_cons] at hn
  obtain ⟨hd1, hd2⟩ := cells_disj L hn.2
  have hroot : (nid, Node.inner q rp (L.map (fun c => (c.id, c.d)))) ∈ d := hin _ (by simp [NTree.entries, cellsF_kids])
  have hcell : ∀ c ∈ L, (c.id, Node.inner (some nid) (some c.rp) [(c.g.id, c.e)]) ∈ d := fun c hc => hin _ (by
    simp only [NTree.entries, List.mem_cons]; exact Or.inr ((mem_cellsF _ _ L).mpr ⟨c, hc, Or.inl rfl⟩))
  have hg : ∀ c ∈ L, ∀ x ∈ c.g.entries (some c.id), x ∈ d := fun c hc x hx => hin _ (by
    simp only [NTree.entries, List.mem_cons]; exact Or.inr ((mem_cellsF _ _ L).mpr ⟨c, hc, Or.inr hx⟩))
  have hg' : ∀ c ∈ L, ∀ (x : ℕ × Node α), x.1 ∈ c.g.ids → (x ∈ d ↔ x ∈ c.g.entries (some c.id)) := by
    intro c hc x hx
    refine ⟨fun h => ?_, hg c hc x⟩
    rw [← c.g.entries_keys (some c.id)] at hx
    obtain ⟨y, hy, e⟩ := List.mem_map.mp hx
    have := hk.unique (k := x.1) (v := x.2) (w := y.2) h (by rw [← e]; exact hg c hc y hy)
    rwa [show x = y from Prod.ext e.symm this]
  have hcn : ∀ c ∈ L, c.id ≠ nid := fun c hc e => hn.1 ((ids_cellsF nid L).mpr ⟨c, hc, Or.inl e.symm⟩)
  have hgn : ∀ c ∈ L, nid ∉ c.g.ids := fun c hc e => hn.1 ((ids_cellsF nid L).mpr ⟨c, hc, Or.inr e⟩)
  have hcg : ∀ c ∈ L, ∀ c' ∈ L, c.id ∉ c'.g.ids := by
    intro c hc c' hc' e
    have := hd2 c hc c' hc' c.id (Or.inl rfl) (Or.inr e)
    subst this
    exact (hd1 c hc).1 e
  have hcl : c.id ∉ l.map Cell.id := by
    intro e
    obtain ⟨c', hc', e'⟩ := List.mem_map.mp e
    have := hn.2
    rw [hL] at this
    simp only [cellsF, NForest.ids, NTree.ids, List.append_nil, List.nodup_append, List.mem_cons] at this
    exact this.2.2 c.id (Or.inl rfl) c'.id ((ids_cellsF _ l).mpr ⟨c', hc', Or.inl rfl⟩) e'.symm
  -- the new children
  have hnch : (L.map (fun c : Cell α => (c.id, c.d))).mapM (grandChild d) = .ok (grandF L).kids := by
    rw [grandF_kids]
    have : (L.map (fun c : Cell α => (c.id, c.d))).mapM (grandChild d) = L.mapM (fun c => grandChild d (c.id, c.d)) := by
      rw [List.mapM_map]; rfl
    rw [this]
    refine mapM_ok _ _ L (fun c hc => ?_)
    simp only [grandChild]
    rw [(lookup_some hk).mpr (hcell c hc)]
    rfl
  -- the parents
  obtain ⟨d1, h1, h2, h3⟩ := setParents_spec (some c.id) (grandF L).kids hk (by
    intro z hz
    rw [grandF_kids, List.mem_map] at hz
    obtain ⟨c', hc', e⟩ := hz
    subst e
    have : (c'.g.id, c'.g.rootNode (some c'.id)) ∈ d := hg c' hc' _ (by rw [c'.g.entries_eq]; simp)
    exact mem_keys.mpr ⟨_, this⟩)
  have hk1 : Keyed d1 := by unfold Keyed; rw [h2]; exact hk
  have hgid : ∀ k, k ∈ (grandF L).kids.map Prod.fst ↔ ∃ c ∈ L, k = c.g.id := by
    intro k
    rw [grandF_kids]
    simp only [List.map_map, List.mem_map, Function.comp]
    exact ⟨fun ⟨c, hc, e⟩ => ⟨c, hc, e.symm⟩, fun ⟨c, hc, e⟩ => ⟨c, hc, e.symm⟩⟩
  have hnot : ∀ c ∈ L, c.id ∉ (grandF L).kids.map Prod.fst := by
    intro c hc e
    obtain ⟨c', hc', e'⟩ := (hgid _).mp e
    exact hcg c hc c' hc' (e' ▸ c'.g.id_mem)
  have hnidk : nid ∉ (grandF L).kids.map Prod.fst := by
    intro e
    obtain ⟨c', hc', e'⟩ := (hgid _).mp e
    exact hgn c' hc' (e' ▸ c'.g.id_mem)
  have hc1 : (c.id, Node.inner (some nid) (some c.rp) [(c.g.id, c.e)]) ∈ d1 := (h3 _).mpr (Or.inl ⟨hcell c hcL, hnot c hcL⟩)
  have hroot1 : (nid, Node.inner q rp (L.map (fun c => (c.id, c.d)))) ∈ d1 := (h3 _).mpr (Or.inl ⟨hroot, hnidk⟩)
  have hmod1 := modifyKey_ok (f := Node.setChildren (grandF L).kids) hk1 hc1 rfl
  obtain ⟨d2, hd2e⟩ : ∃ d2, d2 = put d1 c.id (.inner (some nid) (some c.rp) (grandF L).kids) := ⟨_, rfl⟩
  have hk2 : Keyed d2 := hd2e ▸ hk1.put _ _
  have hroot2 : (nid, Node.inner q rp (L.map (fun c => (c.id, c.d)))) ∈ d2 := by
    rw [hd2e, mem_put hk1]; exact Or.inr ⟨hroot1, fun e => hcn c hcL e.symm⟩
  obtain ⟨d3, hd3e⟩ : ∃ d3, d3 = (l.map (fun c : Cell α => (c.id, c.d))).foldl (fun acc nn => dropKey acc nn.1) d2 := ⟨_, rfl⟩
  have hk3 : Keyed d3 := hd3e ▸ hk2.dropKeys _
  have hids : (l.map (fun c : Cell α => (c.id, c.d))).map Prod.fst = l.map Cell.id := by rw [List.map_map]; rfl
  have hroot3 : (nid, Node.inner q rp (L.map (fun c => (c.id, c.d)))) ∈ d3 := by
    rw [hd3e, mem_dropKeys, hids]
    refine ⟨hroot2, ?_⟩
    intro e
    obtain ⟨c', hc', e'⟩ := List.mem_map.mp e
    exact hcn c' (hlL c' hc') e'
  have hmod2 := modifyKey_ok (f := Node.setChildren [(c.id, 0)]) hk3 hroot3 rfl
  refine ⟨put d3 nid (.inner q rp [(c.id, 0)]), ?_, hk3.put _ _, ?_, ?_⟩
  · unfold factorizeTree
    rw [(lookup_some hk).mpr hroot]
    rw [hL] at hnch ⊢
    simp only [List.map_cons] at hnch ⊢
    rw [hnch]
    simp only [Except.bind]
    rw [hL] at h1 hmod1 hd2e
    rw [h1]
    simp only
    rw [hmod1]
    simp only
    rw [← hd2e, ← hd3e, hmod2]
  · intro hr h0
    have hr1 : RootFirst d1 := by unfold RootFirst; rw [h2]; exact hr
    have hr2 : RootFirst d2 := hd2e ▸ hr1.put _ _
    have hr3 : RootFirst d3 := by rw [hd3e]; exact hr2.dropKeys _ (by rw [hids]; exact h0)
    exact hr3.put _ _
  · -- entries after the change of parents, away from the node and its children
    have K : ∀ (x : ℕ × Node α), x.1 ≠ nid → (∀ c ∈ L, x.1 ≠ c.id) → (x ∈ d1 ↔ (x ∈ d ∧ x.1 ∉ nid :: (cellsF L).ids) ∨ x ∈ (grandF L).entries (some c.id)) := by
      intro x hx1 hx2
      by_cases hx : ∃ c' ∈ L, x.1 ∈ c'.g.ids
      · obtain ⟨c', hc', hx'⟩ := hx
        have honly : ∀ c'' ∈ L, x.1 ∈ c''.g.ids → c'' = c' := fun c'' hc'' h => hd2 c'' hc'' c' hc' x.1 (Or.inr h) (Or.inr hx')
        have e1 : x.1 ∈ (grandF L).kids.map Prod.fst ↔ x.1 = c'.g.id := by
          rw [hgid]
          constructor
          · rintro ⟨c'', hc'', e⟩
            rw [honly c'' hc'' (e ▸ c''.g.id_mem)] at e
            exact e
          · exact fun e => ⟨c', hc', e⟩
        have e2 : x ∈ (grandF L).entries (some c.id) ↔ x ∈ c'.g.entries (some c.id) := by
          rw [mem_grandF]
          constructor
          · rintro ⟨c'', hc'', e⟩
            rw [honly c'' hc'' (NTree.mem_ids e)] at e
            exact e
          · exact fun e => ⟨c', hc', e⟩
        have e3 : x.1 ∈ nid :: (cellsF L).ids := List.mem_cons_of_mem _ ((ids_cellsF _ L).mpr ⟨c', hc', Or.inr hx'⟩)
        have e4 : ∀ v, (x.1, v) ∈ d ↔ (x.1, v) ∈ c'.g.entries (some c'.id) := fun v => hg' c' hc' (x.1, v) hx'
        rw [h3 x, e2, NTree.mem_reparent (hd1 c' hc').2 (some c'.id) (some c.id) x, e1, hg' c' hc' x hx']
        simp only [e4]
        constructor
        · exact Or.inr
        · rintro (⟨_, n⟩ | h)
          · exact absurd e3 n
          · exact h
      · have e1 : x.1 ∉ (grandF L).kids.map Prod.fst := by
          intro e
          obtain ⟨c', hc', e'⟩ := (hgid _).mp e
          exact hx ⟨c', hc', e' ▸ c'.g.id_mem⟩
        have e2 : x ∉ (grandF L).entries (some c.id) := by
          intro e
          obtain ⟨c', hc', e'⟩ := (mem_grandF _ _ L).mp e
          exact hx ⟨c', hc', NTree.mem_ids e'⟩
        have e3 : x.1 ∉ nid :: (cellsF L).ids := by
          simp only [List.mem_cons, not_or]
          refine ⟨hx1, fun e => ?_⟩
          obtain ⟨c', hc', e' | e'⟩ := (ids_cellsF _ L).mp e
          · exact hx2 c' hc' e'
          · exact hx ⟨c', hc', e'⟩
        rw [h3 x]
        simp only [e1, e2, e3, not_false_iff, and_true, or_false, false_and]
    intro x
    rw [mem_put hk3, hd3e, mem_dropKeys, hids, hd2e, mem_put hk1]
    rw [← hL]
    simp only [NTree.entries, NForest.entries, NForest.kids, NTree.id, List.append_nil, List.mem_cons, NTree.ids]
    simp only [List.mem_cons] at K
    have hnl : ∀ {k : ℕ}, k ∉ l.map Cell.id → k ≠ c.id → ∀ c' ∈ L, k ≠ c'.id := by
      intro k h h' c' hc' e
      rw [hL] at hc'
      rcases List.mem_cons.mp hc' with e' | e'
      · subst e'; exact h' e
      · exact h (e ▸ List.mem_map_of_mem e')
    constructor
    · rintro (e | ⟨⟨e | ⟨e, n⟩, m⟩, n'⟩)
      · exact Or.inr (Or.inl e)
      · exact Or.inr (Or.inr (Or.inl e))
      · rcases (K x n' (hnl m n)).mp e with h | h
        · exact Or.inl h
        · exact Or.inr (Or.inr (Or.inr h))
    · rintro (h | e | e | h)
      · have hx1 : x.1 ≠ nid := fun e => h.2 (Or.inl e)
        have hx2 : ∀ c ∈ L, x.1 ≠ c.id := fun c' hc' e => h.2 (Or.inr ((ids_cellsF _ L).mpr ⟨c', hc', Or.inl e⟩))
        refine Or.inr ⟨⟨Or.inr ⟨(K x hx1 hx2).mpr (Or.inl h), hx2 c hcL⟩, ?_⟩, hx1⟩
        intro e
        obtain ⟨c', hc', e'⟩ := List.mem_map.mp e
        exact hx2 c' (hlL c' hc') e'.symm
      · exact Or.inl e
      · exact Or.inr ⟨⟨Or.inl e, by rw [e]; exact hcl⟩, by rw [e]; exact hcn c hcL⟩
      · obtain ⟨c', hc', e'⟩ := (mem_grandF _ _ L).mp h
        have hx := NTree.mem_ids e'
        have hx1 : x.1 ≠ nid := fun e => hgn c' hc' (e ▸ hx)
        have hx2 : ∀ c ∈ L, x.1 ≠ c.id := fun c'' hc'' e => hcg c'' hc'' c' hc' (e ▸ hx)
        refine Or.inr ⟨⟨Or.inr ⟨(K x hx1 hx2).mpr (Or.inr h), hx2 c hcL⟩, ?_⟩, hx1⟩
        intro e
        obtain ⟨c'', hc'', e''⟩ := List.mem_map.mp e
        exact hx2 c'' (hlL c'' hc'') e''.symm

end Verif.Nodes
