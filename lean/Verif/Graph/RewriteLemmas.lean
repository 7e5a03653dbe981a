import Verif.Graph.RewriteSpec
import Mathlib.Data.List.Nodup
import Mathlib.Data.List.Induction

/-!
# The rewritten graph of GraphMDL: lemmas
-/

set_option autoImplicit false
set_option linter.unusedSectionVars false

namespace Verif.Graph

variable {σ : Type} [DecidableEq σ]

/-- Different rows have different names, and different vertices too. -/
structure Names.Ok (nm : Names σ) : Prop where
  row : ∀ i j, nm.row i = nm.row j → i = j
  vertex : ∀ u v, nm.vertex u = nm.vertex v → u = v

/-- The node is named after the data vertex. -/
abbrev isPort (nm : Names σ) (v : ℕ) : RNode σ → Bool := fun n => decide (n.label = nm.vertex v)

/-- The rewritten graph represents a list of nodes, given by number, attributes and ports. -/
structure Rep (nm : Names σ) (rg : RGraph σ) (L : List (ℕ × RNode σ × List (ℕ × ℕ))) : Prop where
  nodup : (L.map Prod.fst).Nodup
  node : ∀ t ∈ L, 1 ≤ t.1 ∧ rg.nodes[t.1 - 1]? = some t.2.1
  all : ∀ (i : ℕ) (n : RNode σ), rg.nodes[i]? = some n → (∃ t ∈ L, t.1 = i + 1) ∨ n.isPattern = false
  edges : ∀ x y a : ℕ, (x, y, a) ∈ rg.edges ↔ ∃ t ∈ L, t.1 = x ∧ ∃ v, (v, a) ∈ t.2.2 ∧ 1 ≤ y ∧ rg.nodes.findIdx? (isPort nm v) = some (y - 1)
  has : ∀ t ∈ L, ∀ va ∈ t.2.2, ∃ i : ℕ, rg.nodes.findIdx? (isPort nm va.1) = some i

theorem Rep.empty (nm : Names σ) : Rep nm (⟨[], []⟩ : RGraph σ) [] := by
  refine ⟨?_, ?_, ?_, ?_, ?_⟩ <;> simp

theorem get_append_old {α : Type} {l : List α} {i : ℕ} {x : α} (n : α) (h : l[i]? = some x) : (l ++ [n])[i]? = some x := by
  rw [List.getElem?_append_left (List.getElem?_eq_some_iff.1 h).1, h]

theorem get_append_inv {α : Type} {l : List α} {i : ℕ} {x n : α} (h : (l ++ [n])[i]? = some x) : l[i]? = some x ∨ (i = l.length ∧ x = n) := by
  by_cases hi : i < l.length
  · rw [List.getElem?_append_left hi] at h
    exact .inl h
  · have := (List.getElem?_eq_some_iff.1 h).1
    rw [List.length_append, List.length_singleton] at this
    have e : i = l.length := by omega
    subst e
    simp at h
    exact .inr ⟨rfl, h.symm⟩

theorem find_keep {α : Type} {l : List α} {P : α → Bool} {i : ℕ} (n : α) (h : l.findIdx? P = some i) : (l ++ [n]).findIdx? P = some i := by
  rw [List.findIdx?_append, h]
  rfl

/-- The port found for a vertex belongs to no other vertex. -/
theorem port_inj {nm : Names σ} (hnm : nm.Ok) (l : List (RNode σ)) (u v i : ℕ) (hu : l.findIdx? (isPort nm u) = some i) (hv : l.findIdx? (isPort nm v) = some i) : u = v := by
  obtain ⟨h, h1, -⟩ := List.findIdx?_eq_some_iff_getElem.1 hu
  obtain ⟨_, h2, -⟩ := List.findIdx?_eq_some_iff_getElem.1 hv
  have h1 := of_decide_eq_true h1
  have h2 := of_decide_eq_true h2
  exact hnm.vertex _ _ (h1.symm.trans h2)

variable {nm : Names σ} {rg : RGraph σ} {L : List (ℕ × RNode σ × List (ℕ × ℕ))}

/-- A new node leaves the edges as they were. -/
theorem Rep.edges_grow (h : Rep nm rg L) (n : RNode σ) (x y a : ℕ) :
    (x, y, a) ∈ rg.edges ↔ ∃ t ∈ L, t.1 = x ∧ ∃ v, (v, a) ∈ t.2.2 ∧ 1 ≤ y ∧ (rg.nodes ++ [n]).findIdx? (isPort nm v) = some (y - 1) := by
  rw [h.edges]
  constructor
  · rintro ⟨t, ht, h1, v, h2, h3, h4⟩
    exact ⟨t, ht, h1, v, h2, h3, find_keep n h4⟩
  · rintro ⟨t, ht, h1, v, h2, h3, h4⟩
    obtain ⟨i, hi⟩ := h.has t ht _ h2
    rw [find_keep n hi] at h4
    exact ⟨t, ht, h1, v, h2, h3, hi.trans h4⟩

theorem Rep.lt (h : Rep nm rg L) : ∀ t ∈ L, t.1 ≤ rg.nodes.length := by
  intro t ht
  obtain ⟨h1, h2⟩ := h.node t ht
  have := (List.getElem?_eq_some_iff.1 h2).1
  omega

/-- A new node that is a port. -/
theorem Rep.grow (h : Rep nm rg L) (n : RNode σ) (hn : n.isPattern = false) : Rep nm { rg with nodes := rg.nodes ++ [n] } L := by
  refine ⟨h.nodup, ?_, ?_, fun x y a => h.edges_grow n x y a, ?_⟩
  · intro t ht
    exact ⟨(h.node t ht).1, get_append_old _ (h.node t ht).2⟩
  · intro i m hm
    rcases get_append_inv hm with hm | ⟨rfl, rfl⟩
    · exact h.all i m hm
    · exact .inr hn
  · intro t ht va hva
    obtain ⟨i, hi⟩ := h.has t ht va hva
    exact ⟨i, find_keep n hi⟩

/-- A new node without ports. -/
theorem Rep.addNode (h : Rep nm rg L) (n : RNode σ) : Rep nm { rg with nodes := rg.nodes ++ [n] } (L ++ [(rg.nodes.length + 1, n, [])]) := by
  refine ⟨?_, ?_, ?_, ?_, ?_⟩
  · rw [List.map_append, List.nodup_append]
    refine ⟨h.nodup, by simp, ?_⟩
    intro a ha b hb hab
    obtain ⟨t, ht, rfl⟩ := List.mem_map.1 ha
    simp only [List.map_cons, List.map_nil, List.mem_singleton] at hb
    have := h.lt t ht
    omega
  · intro t ht
    rcases List.mem_append.1 ht with ht | ht
    · exact ⟨(h.node t ht).1, get_append_old _ (h.node t ht).2⟩
    · rw [List.mem_singleton] at ht
      subst ht
      simp
  · intro i m hm
    rcases get_append_inv hm with hm | ⟨rfl, rfl⟩
    · rcases h.all i m hm with ⟨t, ht, e⟩ | h'
      · exact .inl ⟨t, List.mem_append_left _ ht, e⟩
      · exact .inr h'
    · exact .inl ⟨_, List.mem_append_right _ (List.mem_singleton.2 rfl), rfl⟩
  · intro x y a
    rw [h.edges_grow n]
    constructor
    · rintro ⟨t, ht, h1⟩
      exact ⟨t, List.mem_append_left _ ht, h1⟩
    · rintro ⟨t, ht, h1⟩
      rcases List.mem_append.1 ht with ht | ht
      · exact ⟨t, ht, h1⟩
      · rw [List.mem_singleton] at ht
        subst ht
        simp at h1
  · intro t ht va hva
    rcases List.mem_append.1 ht with ht | ht
    · obtain ⟨y, hy⟩ := h.has t ht va hva
      exact ⟨y, find_keep n hy⟩
    · rw [List.mem_singleton] at ht
      subst ht
      simp at hva

theorem mem_addEdge (rg : RGraph σ) (x y a p q c : ℕ) : (p, q, c) ∈ (rg.addEdge x y a).edges ↔ (p = x ∧ q = y ∧ c = a) ∨ (¬ (p = x ∧ q = y) ∧ (p, q, c) ∈ rg.edges) := by
  unfold RGraph.addEdge
  by_cases h : rg.edges.any (fun e => decide (e.1 = x ∧ e.2.1 = y)) = true
  · simp only [h, if_true]
    rw [List.mem_map]
    constructor
    · rintro ⟨⟨p', q', c'⟩, h1, h2⟩
      by_cases hc : p' = x ∧ q' = y
      · simp only [hc, and_self, if_true, Prod.mk.injEq] at h2
        exact .inl ⟨h2.1.symm, h2.2.1.symm, h2.2.2.symm⟩
      · simp only [hc, if_false, Prod.mk.injEq] at h2
        obtain ⟨rfl, rfl, rfl⟩ := h2
        exact .inr ⟨hc, h1⟩
    · rintro (⟨rfl, rfl, rfl⟩ | ⟨h1, h2⟩)
      · obtain ⟨e, he, hd⟩ := List.any_eq_true.1 h
        exact ⟨e, he, by simp only [of_decide_eq_true hd, and_self, if_true]⟩
      · exact ⟨_, h2, by simp only [h1, if_false]⟩
  · simp only [h, if_false, Bool.false_eq_true]
    rw [List.mem_append, List.mem_singleton]
    constructor
    · rintro (h1 | h1)
      · refine .inr ⟨fun hc => h ?_, h1⟩
        rw [List.any_eq_true]
        exact ⟨_, h1, by simpa using hc⟩
      · simp only [Prod.mk.injEq] at h1
        exact .inl h1
    · rintro (⟨rfl, rfl, rfl⟩ | ⟨-, h1⟩)
      · exact .inr rfl
      · exact .inl h1

variable {x : ℕ} {n : RNode σ} {ps : List (ℕ × ℕ)}

/-- The effect of an edge to an existing port on the list of ports: it replaces the one with the same vertex. -/
def setPort (ps : List (ℕ × ℕ)) (va : ℕ × ℕ) : List (ℕ × ℕ) := ps.filter (fun y => decide (y.1 ≠ va.1)) ++ [va]

theorem Rep.link (hnm : nm.Ok) (h : Rep nm rg (L ++ [(x, n, ps)])) (v a i : ℕ) (hi : rg.nodes.findIdx? (isPort nm v) = some i) :
    Rep nm (rg.addEdge x (i + 1) a) (L ++ [(x, n, setPort ps (v, a))]) := by
  have hfst : (L ++ [(x, n, setPort ps (v, a))]).map Prod.fst = (L ++ [(x, n, ps)]).map Prod.fst := by simp
  have hsplit : ∀ (qs : List (ℕ × ℕ)) (P : ℕ × RNode σ × List (ℕ × ℕ) → Prop), (∃ t ∈ L ++ [(x, n, qs)], P t) ↔ (∃ t ∈ L, P t) ∨ P (x, n, qs) := by
    intro qs P; simp [or_and_right, exists_or]
  have hx : ∀ t ∈ L, t.1 ≠ x := by
    have := h.nodup
    rw [List.map_append, List.nodup_append] at this
    intro t ht e
    exact this.2.2 x (List.mem_map.2 ⟨t, ht, e⟩) x (by simp) rfl
  have hmem : ∀ w c, (w, c) ∈ setPort ps (v, a) ↔ ((w, c) ∈ ps ∧ w ≠ v) ∨ (w = v ∧ c = a) := by
    intro w c
    simp [setPort]
  refine ⟨hfst ▸ h.nodup, ?_, ?_, ?_, ?_⟩
  · intro t ht
    rcases List.mem_append.1 ht with ht | ht
    · exact h.node t (List.mem_append_left _ ht)
    · rw [List.mem_singleton] at ht
      subst ht
      exact h.node (x, n, ps) (by simp)
  · intro j m hm
    rcases h.all j m hm with ht | h'
    · left
      rw [hsplit] at ht ⊢
      exact ht
    · exact .inr h'
  · intro p q c
    have hnodes : (rg.addEdge x (i + 1) a).nodes = rg.nodes := rfl
    rw [mem_addEdge, h.edges, hsplit, hsplit, hnodes]
    simp only [hmem]
    constructor
    · rintro (⟨rfl, rfl, rfl⟩ | ⟨h1, h2 | ⟨h2, w, h3, h4, h5⟩⟩)
      · exact .inr ⟨rfl, v, .inr ⟨rfl, rfl⟩, by omega, by rw [Nat.add_sub_cancel]; exact hi⟩
      · exact .inl h2
      · refine .inr ⟨h2, w, .inl ⟨h3, ?_⟩, h4, h5⟩
        rintro rfl
        rw [hi] at h5
        have := Option.some.inj h5
        exact h1 ⟨h2.symm, by omega⟩
    · rintro (⟨t, ht, h2, h3⟩ | ⟨h2, w, ⟨h3, h3'⟩ | ⟨rfl, rfl⟩, h4, h5⟩)
      · exact .inr ⟨fun hc => hx t ht (h2.trans hc.1), .inl ⟨t, ht, h2, h3⟩⟩
      · refine .inr ⟨?_, .inr ⟨h2, w, h3, h4, h5⟩⟩
        rintro ⟨-, rfl⟩
        rw [Nat.add_sub_cancel] at h5
        exact h3' (port_inj hnm _ _ _ _ h5 hi)
      · rw [hi] at h5
        have := Option.some.inj h5
        exact .inl ⟨h2.symm, by omega, rfl⟩
  · intro t ht va hva
    rcases List.mem_append.1 ht with ht | ht
    · exact h.has t (List.mem_append_left _ ht) va hva
    · rw [List.mem_singleton] at ht
      subst ht
      obtain ⟨w, c⟩ := va
      rcases (hmem w c).1 hva with ⟨h1, -⟩ | ⟨rfl, -⟩
      · exact h.has (x, n, ps) (by simp) _ h1
      · exact ⟨i, hi⟩

theorem Rep.addPort (hnm : nm.Ok) (h : Rep nm rg (L ++ [(x, n, ps)])) (va : ℕ × ℕ) : Rep nm (rewriteEdge nm x rg va) (L ++ [(x, n, setPort ps va)]) := by
  obtain ⟨v, a⟩ := va
  unfold rewriteEdge
  simp only
  split
  · rename_i hlt
    exact h.link hnm v a _ (List.findIdx?_eq_some_iff_findIdx_eq.2 ⟨hlt, rfl⟩)
  · rename_i hlt
    refine (h.grow ⟨nm.vertex v, false, false⟩ rfl).link hnm v a _ ?_
    have hno : rg.nodes.findIdx? (isPort nm v) = none := by
      rw [List.findIdx?_eq_none_iff_findIdx_eq]
      exact Nat.le_antisymm List.findIdx_le_length (Nat.le_of_not_lt hlt)
    rw [List.findIdx?_append, hno]
    simp [isPort]

theorem Rep.addPorts (hnm : nm.Ok) (qs : List (ℕ × ℕ)) : ∀ (ps : List (ℕ × ℕ)) (rg : RGraph σ), Rep nm rg (L ++ [(x, n, ps)]) → Rep nm (qs.foldl (rewriteEdge nm x) rg) (L ++ [(x, n, qs.foldl setPort ps)]) := by
  induction qs with
  | nil => intro ps rg h; exact h
  | cons q t ih =>
    intro ps rg h
    exact ih _ _ (h.addPort hnm q)

/-- The ports of a piece as the rewritten graph keeps them: of two ports at the same data vertex, the last. -/
def Piece.kept (pc : Piece σ) : List (ℕ × ℕ) := pc.ports.foldl setPort []

theorem kept_eq (qs : List (ℕ × ℕ)) : ∀ ps : List (ℕ × ℕ), ((ps ++ qs).map Prod.fst).Nodup → qs.foldl setPort ps = ps ++ qs := by
  induction qs with
  | nil => intro ps _; simp
  | cons q t ih =>
    intro ps h
    have hq : ∀ y ∈ ps, y.1 ≠ q.1 := by
      rw [List.map_append, List.nodup_append] at h
      intro y hy e
      exact h.2.2 y.1 (List.mem_map.2 ⟨_, hy, rfl⟩) q.1 (by simp) e
    rw [List.foldl_cons]
    have : setPort ps q = ps ++ [q] := by
      unfold setPort
      rw [List.filter_eq_self.2]
      intro y hy
      simpa using hq y hy
    rw [this, ih (ps ++ [q]) (by simpa using h)]
    simp

/-- The rewritten graph represents the pieces, in order. -/
theorem rewrite_rep (hnm : nm.Ok) (ps : List (Piece σ)) : ∃ L : List (ℕ × Piece σ), L.map Prod.snd = ps ∧ Rep nm (rewriteGraph nm ps) (L.map (fun t => (t.1, t.2.node nm, t.2.kept))) := by
  unfold rewriteGraph
  induction ps using List.reverseRecOn with
  | nil => exact ⟨[], rfl, Rep.empty nm⟩
  | append_singleton ps pc ih =>
    obtain ⟨L, hL, hR⟩ := ih
    rw [List.foldl_append]
    simp only [List.foldl_cons, List.foldl_nil]
    obtain ⟨rg, hrg⟩ : ∃ rg, rg = ps.foldl (fun rg pc => addPiece nm rg (pc.node nm) pc.ports) ⟨[], []⟩ := ⟨_, rfl⟩
    rw [← hrg] at hR ⊢
    have h1 := Rep.addPorts hnm pc.ports [] _ (hR.addNode (pc.node nm))
    refine ⟨L ++ [(rg.nodes.length + 1, pc)], by rw [List.map_append, hL]; rfl, ?_⟩
    unfold addPiece
    rw [List.map_append]
    exact h1

end Verif.Graph
