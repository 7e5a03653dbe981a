import Verif.Graph.SingleModel
import Verif.Graph.LabelProps

/-!
# Recognising singleton patterns: property C150
-/

set_option autoImplicit false
set_option linter.unusedSectionVars false

namespace Verif.Graph

variable {σ : Type} [DecidableEq σ]

/-! ## Specification -/

/-- One vertex with one label, and nothing else. -/
def LGraph.IsVertexSingleton (g : LGraph σ) : Prop :=
  ∃ (v : ℕ) (l : Label σ) (s : σ), g.nodes = [(v, l)] ∧ l.names = [s] ∧ g.edges = []

/-- Two vertices without label, one edge with one label from one to the other, and nothing else. -/
def LGraph.IsEdgeSingleton (g : LGraph σ) : Prop :=
  ∃ (u v : ℕ) (k l e : Label σ) (s : σ) (a b : ℕ), g.nodes = [(u, k), (v, l)] ∧ k.names = [] ∧ l.names = [] ∧ g.edges = [(a, b, e)] ∧ e.names = [s] ∧ ((a = u ∧ b = v) ∨ (a = v ∧ b = u))

/-- A graph as networkx stores it: different vertices, edges between vertices; labels are strings or tuples that are not empty. -/
structure LGraph.Stored (g : LGraph σ) : Prop where
  hash : g.Hashable
  nodup : (g.nodes.map Prod.fst).Nodup
  ends : ∀ e ∈ g.edges, e.1 ∈ g.nodes.map Prod.fst ∧ e.2.1 ∈ g.nodes.map Prod.fst
  tuples : ∀ n ∈ g.nodes, n.2 ≠ .tuple []

/-- No edge goes from a vertex to itself. -/
def LGraph.Loopless (g : LGraph σ) : Prop := ∀ e ∈ g.edges, e.1 ≠ e.2.1

/-! ## Proofs -/

theorem names_nil (l : Label σ) (hh : l.Hashable) (ht : l ≠ .tuple []) (h : l.names = []) : l = .none := by
  cases l with
  | none => rfl
  | str s => simp [Label.names] at h
  | tuple l => simp only [Label.names] at h; subst h; exact (ht rfl).elim
  | list l => exact hh.elim

/-- C150, vertices: on every pattern without loops the answer is right. -/
theorem vertex_singleton_partial (g : LGraph σ) (hg : g.Stored) (hl : g.Loopless) :
    ∃ b, isVertexSingleton g = .ok b ∧ (b = true ↔ g.IsVertexSingleton) := by
  unfold isVertexSingleton
  by_cases h1 : g.nodes.length = 1
  · obtain ⟨⟨v, l⟩, hn⟩ := List.length_eq_one_iff.1 h1
    have he : g.edges = [] := by
      rw [List.eq_nil_iff_forall_not_mem]
      intro e hm
      have h := hg.ends e hm
      rw [hn] at h
      simp only [List.map_cons, List.map_nil, List.mem_singleton] at h
      exact hl e hm (h.1.trans h.2.symm)
    have hv : g.vertexNames = l.names := by simp [LGraph.vertexNames, hn]
    have hE : g.edgeNames = [] := by simp [LGraph.edgeNames, he]
    rw [if_pos h1, total_label_exact g hg.hash, hv, hE]
    refine ⟨decide (l.names.length = 1), rfl, ?_⟩
    rw [decide_eq_true_iff, List.length_eq_one_iff]
    constructor
    · rintro ⟨s, hs⟩
      exact ⟨v, l, s, hn, hs, he⟩
    · rintro ⟨v', l', s, hn', hs, -⟩
      rw [hn] at hn'
      simp only [List.cons.injEq, Prod.mk.injEq, and_true] at hn'
      exact ⟨s, hn'.2 ▸ hs⟩
  · rw [if_neg h1]
    refine ⟨false, rfl, by simp, ?_⟩
    rintro ⟨v, l, s, hn, -, -⟩
    rw [hn] at h1
    exact (h1 rfl).elim

/-- The counts of the labels of the edges are `[1]` exactly when there is one label. -/
theorem counts_one (g : LGraph σ) (hg : g.Hashable) :
    ∃ d, countEdge g = .ok d ∧ ((match d.map Prod.snd with | [n] => decide (n = 1) | _ => false) = true ↔ ∃ s, g.edgeNames = [s]) := by
  obtain ⟨d, hd, hn, h1, h2, h3⟩ := count_labels (g.edges.map (fun e => e.2.2)) (by
    intro l hl; obtain ⟨n, hn, rfl⟩ := List.mem_map.mp hl; exact hg.2 n hn)
  rw [edgeNames_eq] at h1 h2 h3
  refine ⟨d, hd, ?_⟩
  rw [← List.length_eq_one_iff, ← h2]
  match d, h1, h3 with
  | [], _, _ => simp
  | [x], _, _ => simp
  | x :: y :: t, h1, h3 =>
    rw [h2, List.length_eq_one_iff]
    refine ⟨fun h => by simp at h, ?_⟩
    rintro ⟨s, hs⟩
    have hx := (h3 x.1).1 (by simp)
    have hy := (h3 y.1).1 (by simp)
    rw [hs, List.mem_singleton] at hx hy
    simp only [List.map_cons, List.nodup_cons, List.mem_cons, not_or] at hn
    exact (hn.1.1 (hx.trans hy.symm)).elim

/-- The vertices are numbered from 1 on. -/
def LGraph.Numbered (g : LGraph σ) : Prop := ∀ k, k ∈ g.nodes.map Prod.fst ↔ 1 ≤ k ∧ k ≤ g.nodes.length

theorem unlabelled_eq (g : LGraph σ) (hg : g.Stored) (k : ℕ) (l : Label σ) (h : (k, l) ∈ g.nodes) :
    ∃ b, unlabelled g k = .ok b ∧ (b = true ↔ l.names = []) := by
  have hlk : g.nodes.lookup k = some l := by
    have hn := hg.nodup
    clear hg
    revert hn h
    induction g.nodes with
    | nil => intro h; simp at h
    | cons x t ih =>
      intro h hn
      rw [List.map_cons, List.nodup_cons] at hn
      obtain ⟨a, m⟩ := x
      rcases List.mem_cons.1 h with h | h'
      · obtain ⟨rfl, rfl⟩ := Prod.mk.injEq .. ▸ h
        simp [List.lookup]
      · have hne : (k == a) = false := by
          rw [beq_eq_false_iff_ne]
          rintro rfl
          exact hn.1 (List.mem_map.2 ⟨_, h', rfl⟩)
        rw [List.lookup_cons, hne]
        exact ih h' hn.2
  unfold unlabelled
  rw [hlk]
  refine ⟨_, rfl, ?_⟩
  rw [decide_eq_true_iff]
  refine ⟨fun h => by rw [h]; rfl, names_nil l (hg.hash.1 _ h) (hg.tuples _ h)⟩

/-- C150, edges: on every pattern without loops, with vertices numbered from 1 on and a label on every edge, the answer is right. -/
theorem edge_singleton_partial (g : LGraph σ) (hg : g.Stored) (hl : g.Loopless) (hk : g.Numbered) (he : ∀ e ∈ g.edges, e.2.2.names ≠ []) :
    ∃ b, isEdgeSingleton g = .ok b ∧ (b = true ↔ g.IsEdgeSingleton) := by
  unfold isEdgeSingleton
  by_cases h2 : g.nodes.length = 2
  · obtain ⟨⟨u, k⟩, ⟨v, l⟩, hn⟩ := List.length_eq_two.1 h2
    rw [if_pos h2]
    have hk1 := (hk 1).2 ⟨le_refl _, by omega⟩
    have hk2 := (hk 2).2 ⟨by omega, by omega⟩
    obtain ⟨⟨a1, l1⟩, hm1, e1⟩ := List.mem_map.1 hk1
    obtain ⟨⟨a2, l2⟩, hm2, e2⟩ := List.mem_map.1 hk2
    obtain rfl : a1 = 1 := e1
    obtain rfl : a2 = 2 := e2
    obtain ⟨b1, hb1, hb1'⟩ := unlabelled_eq g hg 1 l1 hm1
    obtain ⟨b2, hb2, hb2'⟩ := unlabelled_eq g hg 2 l2 hm2
    obtain ⟨d, hd, hd'⟩ := counts_one g hg.hash
    -- the two vertices are the vertices 1 and 2
    have hboth : ∀ n ∈ g.nodes, n = (1, l1) ∨ n = (2, l2) := by
      rw [hn] at hm1 hm2 ⊢
      simp only [List.mem_cons, List.not_mem_nil, or_false] at hm1 hm2 ⊢
      rintro n (rfl | rfl)
      · rcases hm1 with h | h
        · exact .inl h.symm
        · rcases hm2 with h' | h'
          · exact .inr h'.symm
          · simp only [Prod.mk.injEq] at h h'; omega
      · rcases hm1 with h | h
        · rcases hm2 with h' | h'
          · simp only [Prod.mk.injEq] at h h'; omega
          · exact .inr h'.symm
        · exact .inl h.symm
    have hnone : (∀ n ∈ g.nodes, n.2.names = []) ↔ b1 = true ∧ b2 = true := by
      rw [hb1', hb2']
      constructor
      · intro h; exact ⟨h _ hm1, h _ hm2⟩
      · rintro ⟨h, h'⟩ n hn'
        rcases hboth n hn' with rfl | rfl
        · exact h
        · exact h'
    have hspec : g.IsEdgeSingleton ↔ (∀ n ∈ g.nodes, n.2.names = []) ∧ ∃ s, g.edgeNames = [s] := by
      constructor
      · rintro ⟨u', v', k', l', e, s, a, b, hn', hk', hl', hE, hs, -⟩
        refine ⟨?_, s, by simp [LGraph.edgeNames, hE, hs]⟩
        rw [hn']
        intro n hm
        simp only [List.mem_cons, List.not_mem_nil, or_false] at hm
        rcases hm with rfl | rfl
        · exact hk'
        · exact hl'
      · rintro ⟨h, s, hs⟩
        have hone : ∃ e, g.edges = [e] := by
          match hE : g.edges with
          | [] => simp [LGraph.edgeNames, hE] at hs
          | [e] => exact ⟨e, rfl⟩
          | e :: f :: t =>
            have h1 := List.length_pos_iff.2 (he e (by simp [hE]))
            have h2 := List.length_pos_iff.2 (he f (by simp [hE]))
            have h3 := congrArg List.length hs
            simp only [LGraph.edgeNames, hE, List.flatMap_cons, List.length_append, List.length_cons, List.length_nil] at h3
            omega
        obtain ⟨⟨a, b, e⟩, hE⟩ := hone
        have hends := hg.ends (a, b, e) (by simp [hE])
        have hne : a ≠ b := hl (a, b, e) (by simp [hE])
        rw [hn] at hends
        simp only [List.map_cons, List.map_nil, List.mem_cons, List.not_mem_nil, or_false] at hends
        refine ⟨u, v, k, l, e, s, a, b, hn, h (u, k) (by simp [hn]), h (v, l) (by simp [hn]), hE, by simpa [LGraph.edgeNames, hE] using hs, ?_⟩
        rcases hends with ⟨rfl | rfl, rfl | rfl⟩
        · exact (hne rfl).elim
        · exact .inl ⟨rfl, rfl⟩
        · exact .inr ⟨rfl, rfl⟩
        · exact (hne rfl).elim
    rw [hspec, hnone, ← hd', hb1, hb2, hd]
    cases b1
    · exact ⟨false, rfl, by simp⟩
    · cases b2
      · exact ⟨false, rfl, by simp⟩
      · exact ⟨_, rfl, ⟨fun h => ⟨⟨rfl, rfl⟩, h⟩, fun h => h.2⟩⟩
  · rw [if_neg h2]
    refine ⟨false, rfl, by simp, ?_⟩
    rintro ⟨u, v, k, l, e, s, a, b, hn, -⟩
    rw [hn] at h2
    exact (h2 rfl).elim

/-! ## The two tests on patterns of the program, and where they go wrong -/

/-- The pattern of a label as `create_singleton_pattern` makes it, and larger patterns. -/
example : isVertexSingleton (⟨[(1, .str 7)], []⟩ : LGraph ℕ) = .ok true ∧ isVertexSingleton (⟨[(1, .tuple [7, 8])], []⟩ : LGraph ℕ) = .ok false ∧
    isEdgeSingleton (⟨[(1, .none), (2, .none)], [(1, 2, .str 7)]⟩ : LGraph ℕ) = .ok true ∧
    isEdgeSingleton (⟨[(1, .none), (2, .none)], [(1, 2, .str 7), (2, 1, .str 8)]⟩ : LGraph ℕ) = .ok false := by
  refine ⟨rfl, rfl, rfl, rfl⟩

/-- A pattern that meets the hypotheses of both theorems. -/
example : (⟨[(1, .none), (2, .none)], [(2, 1, .str 7)]⟩ : LGraph ℕ).Stored ∧ (⟨[(1, .none), (2, .none)], [(2, 1, .str 7)]⟩ : LGraph ℕ).Loopless ∧
    (⟨[(1, .none), (2, .none)], [(2, 1, .str 7)]⟩ : LGraph ℕ).Numbered := by
  refine ⟨⟨⟨by simp [Label.Hashable], by simp [Label.Hashable]⟩, by simp, by simp, by simp⟩, by simp [LGraph.Loopless], ?_⟩
  intro k
  simp
  omega

/-- C150 is false for vertices with loops: a vertex without label that has a loop is taken for a vertex singleton, and so is a vertex with a loop of the same label. -/
theorem loop_is_vertex_singleton (v : ℕ) (s : σ) :
    isVertexSingleton (⟨[(v, .none)], [(v, v, .str s)]⟩ : LGraph σ) = .ok true ∧ ¬ (⟨[(v, .none)], [(v, v, .str s)]⟩ : LGraph σ).IsVertexSingleton ∧
    isVertexSingleton (⟨[(v, .str s)], [(v, v, .str s)]⟩ : LGraph σ) = .ok true ∧ ¬ (⟨[(v, .str s)], [(v, v, .str s)]⟩ : LGraph σ).IsVertexSingleton := by
  refine ⟨rfl, ?_, ?_, ?_⟩
  · rintro ⟨_, _, _, -, -, h⟩; exact absurd h (List.cons_ne_nil _ _)
  · simp [isVertexSingleton, totalLabel, countEdge, countVertex, labelValues, counter, bump, update, setKey, Except.map]
  · rintro ⟨_, _, _, -, -, h⟩; exact absurd h (List.cons_ne_nil _ _)

/-- C150 is false for edges whose vertices have other numbers: the test raises on every pattern of two vertices without a vertex 1. -/
theorem edge_singleton_raises (u v : ℕ) (k l : Label σ) (es : List (ℕ × ℕ × Label σ)) (hu : u ≠ 1) (hv : v ≠ 1) :
    isEdgeSingleton (⟨[(u, k), (v, l)], es⟩ : LGraph σ) = .error "KeyError" := by
  have h1 : (1 == u) = false := by rw [beq_eq_false_iff_ne]; exact fun h => hu h.symm
  have h2 : (1 == v) = false := by rw [beq_eq_false_iff_ne]; exact fun h => hv h.symm
  simp [isEdgeSingleton, unlabelled, List.lookup_cons, h1, h2]

/-- Such a pattern can be an edge singleton. -/
theorem edge_singleton_raises_on : (⟨[(3, .none), (4, .none)], [(3, 4, .str 7)]⟩ : LGraph ℕ).IsEdgeSingleton ∧
    isEdgeSingleton (⟨[(3, .none), (4, .none)], [(3, 4, .str 7)]⟩ : LGraph ℕ) = .error "KeyError" :=
  ⟨⟨3, 4, .none, .none, .str 7, 7, 3, 4, rfl, rfl, rfl, rfl, rfl, .inl ⟨rfl, rfl⟩⟩, rfl⟩

/-- C150 is false with an edge without label, and with a loop beside a vertex. -/
theorem two_edges_singleton : isEdgeSingleton (⟨[(1, .none), (2, .none)], [(1, 2, .str 7), (2, 1, .none)]⟩ : LGraph ℕ) = .ok true ∧
    ¬ (⟨[(1, .none), (2, .none)], [(1, 2, .str 7), (2, 1, .none)]⟩ : LGraph ℕ).IsEdgeSingleton ∧
    isEdgeSingleton (⟨[(1, .none), (2, .none)], [(1, 1, .str 7)]⟩ : LGraph ℕ) = .ok true ∧
    ¬ (⟨[(1, .none), (2, .none)], [(1, 1, .str 7)]⟩ : LGraph ℕ).IsEdgeSingleton := by
  refine ⟨rfl, ?_, rfl, ?_⟩
  · rintro ⟨u, v, k, l, e, s, a, b, -, -, -, h, -⟩; simp at h
  · rintro ⟨u, v, k, l, e, s, a, b, hn, -, -, h, -, hab⟩
    simp only [List.cons.injEq, Prod.mk.injEq, and_true] at hn h
    omega

end Verif.Graph
