import Verif.Graph.MergeSpec
import Mathlib.Data.List.Range

/-!
# Merging two patterns of GraphMDL: lemmas
-/

set_option autoImplicit false
set_option linter.unusedSectionVars false

namespace Verif.Graph

variable {σ : Type} [DecidableEq σ]

theorem addNode_none_mem (nodes : List (ℕ × Label σ)) (v : ℕ) (h : v ∈ nodes.map Prod.fst) : addNode nodes v .none = nodes := by
  unfold addNode
  rw [if_pos h]
  conv_rhs => rw [← List.map_id nodes]
  apply List.map_congr_left
  intro n _
  by_cases e : n.1 = v
  · obtain ⟨a, k⟩ := n
    simp only at e
    subst e
    simp
  · simp [e]

theorem addNode_fst_mem (nodes : List (ℕ × Label σ)) (v : ℕ) (l : Label σ) (h : v ∈ nodes.map Prod.fst) : (addNode nodes v l).map Prod.fst = nodes.map Prod.fst := by
  unfold addNode
  rw [if_pos h, List.map_map]
  apply List.map_congr_left
  intro n _
  by_cases e : n.1 = v
  · simp [e]
  · simp [e]

theorem addNode_new (nodes : List (ℕ × Label σ)) (v : ℕ) (l : Label σ) (h : v ∉ nodes.map Prod.fst) : addNode nodes v l = nodes ++ [(v, l)] := by
  unfold addNode
  rw [if_neg h]

theorem lookup_map_set (nodes : List (ℕ × Label σ)) (v : ℕ) (l : Label σ) (w : ℕ) (hl : l ≠ .none) :
    (nodes.map (fun n => if n.1 = v then (v, if l = .none then n.2 else l) else n)).lookup w = if w = v then (nodes.lookup w).map (fun _ => l) else nodes.lookup w := by
  induction nodes with
  | nil => simp
  | cons n t ih =>
    obtain ⟨a, k⟩ := n
    simp only [List.map_cons]
    by_cases h1 : a = v
    · subst h1
      simp only [hl, if_true, if_false]
      by_cases h2 : w = a
      · subst h2; simp [List.lookup]
      · have : (w == a) = false := by simpa using h2
        simp only [List.lookup, this]
        simpa [hl] using ih
    · simp only [h1, if_false]
      by_cases h2 : w = a
      · subst h2; simp [List.lookup, h1]
      · have : (w == a) = false := by simpa using h2
        simp only [List.lookup, this]
        rw [ih]

theorem lookup_addNode (nodes : List (ℕ × Label σ)) (v : ℕ) (l : Label σ) (w : ℕ) (hv : v ∈ nodes.map Prod.fst) (hl : l ≠ .none) :
    (addNode nodes v l).lookup w = if w = v then (nodes.lookup w).map (fun _ => l) else nodes.lookup w := by
  unfold addNode
  rw [if_pos hv, lookup_map_set nodes v l w hl]

theorem lookup_isSome_of_mem (nodes : List (ℕ × Label σ)) (v : ℕ) (h : v ∈ nodes.map Prod.fst) : ∃ k, nodes.lookup v = some k := by
  induction nodes with
  | nil => simp at h
  | cons n t ih =>
    obtain ⟨a, k⟩ := n
    by_cases e : v = a
    · exact ⟨k, by simp [List.lookup, e]⟩
    · have : (v == a) = false := by simpa using e
      simp only [List.lookup, this]
      apply ih
      simpa [e] using h

theorem lookup_eq_none_of (nodes : List (ℕ × Label σ)) (v : ℕ) (h : v ∉ nodes.map Prod.fst) : nodes.lookup v = none := by
  induction nodes with
  | nil => rfl
  | cons n t ih =>
    obtain ⟨a, k⟩ := n
    simp only [List.map_cons, List.mem_cons, not_or] at h
    have : (v == a) = false := by simpa using h.1
    simp only [List.lookup, this]
    exact ih h.2

theorem lookup_snoc (nodes : List (ℕ × Label σ)) (v : ℕ) (l : Label σ) (w : ℕ) (h : v ∉ nodes.map Prod.fst) :
    (nodes ++ [(v, l)]).lookup w = if w = v then some l else nodes.lookup w := by
  induction nodes with
  | nil =>
    by_cases e : w = v
    · simp [List.lookup, e]
    · have : (w == v) = false := by simpa using e
      simp [List.lookup, this, e]
  | cons n t ih =>
    obtain ⟨a, k⟩ := n
    simp only [List.map_cons, List.mem_cons, not_or] at h
    by_cases e : w = a
    · subst e
      simp [List.lookup, Ne.symm h.1]
    · have : (w == a) = false := by simpa using e
      simp only [List.cons_append, List.lookup, this]
      exact ih h.2

/-- The edge is added at the end. -/
theorem addEdge_ok (multi : Bool) (g : LGraph σ) (u v : ℕ) (l : Label σ) (hu : u ∈ g.nodes.map Prod.fst) (hv : v ∈ g.nodes.map Prod.fst)
    (hs : multi = false → (u, v) ∉ g.edges.map (fun e => (e.1, e.2.1))) : addEdge multi g u v l = ⟨g.nodes, g.edges ++ [(u, v, l)]⟩ := by
  unfold addEdge
  rw [addNode_none_mem _ _ hu, addNode_none_mem _ _ hv]
  have : (!multi && g.edges.any (fun e => decide (e.1 = u ∧ e.2.1 = v))) = false := by
    cases multi with
    | true => rfl
    | false =>
      rw [Bool.not_false, Bool.true_and, List.any_eq_false]
      intro e he h
      have h := of_decide_eq_true h
      exact hs rfl (List.mem_map.2 ⟨e, he, by rw [h.1, h.2]⟩)
  rw [this]
  simp

theorem firstEdges_ok (multi : Bool) : ∀ (t : List (ℕ × ℕ × Label σ)) (g : LGraph σ), (∀ e ∈ t, e.1 ∈ g.nodes.map Prod.fst ∧ e.2.1 ∈ g.nodes.map Prod.fst ∧ e.2.2 ≠ .none) →
    (multi = false → ((g.edges ++ t).map (fun e => (e.1, e.2.1))).Nodup) → firstEdges multi t g = .ok ⟨g.nodes, g.edges ++ t⟩
  | [], g, _, _ => by simp [firstEdges]
  | (u, v, l) :: t, g, h1, h2 => by
    obtain ⟨a, b, c⟩ := h1 (u, v, l) (by simp)
    rw [firstEdges, addLabelled, if_neg c, addEdge_ok multi g u v l a b]
    · simp only [Except.bind]
      rw [firstEdges_ok multi t]
      · simp
      · intro e he
        exact h1 e (by simp [he])
      · intro hm
        have := h2 hm
        simpa using this
    · intro hm hmem
      have := h2 hm
      rw [List.map_append, List.nodup_append] at this
      exact this.2.2 _ hmem _ (by simp) rfl

theorem foldl_addNode (t : List (ℕ × Label σ)) : ∀ acc : List (ℕ × Label σ), ((acc ++ t).map Prod.fst).Nodup → t.foldl (fun acc n => addNode acc n.1 n.2) acc = acc ++ t := by
  induction t with
  | nil => intro acc _; simp
  | cons n t ih =>
    intro acc h
    rw [List.foldl_cons, addNode_new, ih]
    · simp
    · simpa using h
    · rw [List.map_append, List.nodup_append] at h
      intro hm
      exact h.2.2 _ hm _ (by simp) rfl

theorem IsPattern.nodup {multi : Bool} {g : LGraph σ} (h : IsPattern multi g) : (g.nodes.map Prod.fst).Nodup := by
  have := h.verts
  unfold LGraph.verts at this
  rw [this]
  exact List.nodup_range'

/-- The first pattern is copied. -/
theorem firstPattern_ok {multi : Bool} {p : LGraph σ} (h : IsPattern multi p) : firstPattern multi p = .ok p := by
  unfold firstPattern
  rw [foldl_addNode _ _ (by simpa using h.nodup), firstEdges_ok multi]
  · simp
  · intro e he
    have := h.ends e he
    exact ⟨by simpa [LGraph.verts] using this.1, by simpa [LGraph.verts] using this.2.1, h.labelled e he⟩
  · simpa using h.simple

theorem mem_appendNew (ls : List σ) : ∀ (acc : List σ) (x : σ), x ∈ appendNew acc ls ↔ x ∈ acc ∨ x ∈ ls := by
  unfold appendNew
  induction ls with
  | nil => intro acc x; simp
  | cons a t ih =>
    intro acc x
    rw [List.foldl_cons, ih]
    by_cases h : a ∈ acc
    · rw [if_pos h]
      simp only [List.mem_cons]
      constructor
      · rintro (h | h)
        · exact .inl h
        · exact .inr (.inr h)
      · rintro (h1 | rfl | h1)
        · exact .inl h1
        · exact .inl h
        · exact .inr h1
    · rw [if_neg h]
      simp only [List.mem_append, List.mem_cons, List.mem_singleton]
      tauto

theorem newLabel_names (a b : Label σ) (x : σ) : x ∈ (newLabel a b).names ↔ x ∈ a.names ∨ x ∈ b.names := by
  cases b <;> cases a <;> simp only [newLabel, Label.names, mem_appendNew, List.mem_singleton, List.not_mem_nil, false_or, or_false]
  · next s a =>
    by_cases h : a = s
    · subst h; simp
    · simp [h]
  · tauto
  · tauto
  · split
    · next h =>
      constructor
      · exact .inr
      · rintro (rfl | h1)
        · exact h
        · exact h1
    · simp only [List.mem_append, List.mem_singleton]; tauto
  · tauto
  · tauto
  · split
    · next h =>
      constructor
      · exact .inr
      · rintro (rfl | h1)
        · exact h
        · exact h1
    · simp only [List.mem_append, List.mem_singleton]; tauto
  · tauto
  · tauto

theorem newLabel_ne_none (a b : Label σ) (hb : b ≠ .none) : newLabel a b ≠ .none := by
  cases b <;> cases a <;> simp [newLabel] at hb ⊢
  split <;> simp

/-- The labels of a vertex in a list of vertices. -/
def namesIn (nodes : List (ℕ × Label σ)) (v : ℕ) : List σ := ((nodes.lookup v).map Label.names).getD []

theorem addPortLabel_ok (nodes : List (ℕ × Label σ)) (a : ℕ) (l : Label σ) (ha : a ∈ nodes.map Prod.fst) :
    ∃ nodes', addPortLabel nodes a l = .ok nodes' ∧ nodes'.map Prod.fst = nodes.map Prod.fst ∧
      ∀ w x, x ∈ namesIn nodes' w ↔ x ∈ namesIn nodes w ∨ (w = a ∧ x ∈ l.names) := by
  unfold addPortLabel
  by_cases hl : l = .none
  · rw [if_pos hl]
    refine ⟨nodes, rfl, rfl, fun w x => ?_⟩
    rw [hl]
    simp [Label.names]
  · rw [if_neg hl]
    obtain ⟨k, hk⟩ := lookup_isSome_of_mem nodes a ha
    rw [hk]
    have hne : (if k = .none then l else newLabel l k) ≠ .none := by
      split
      · exact hl
      · next h => exact newLabel_ne_none l k h
    refine ⟨_, rfl, addNode_fst_mem _ _ _ ha, fun w x => ?_⟩
    unfold namesIn
    rw [lookup_addNode _ _ _ _ ha hne]
    by_cases hw : w = a
    · subst hw
      rw [if_pos rfl, hk]
      simp only [Option.map_some, Option.getD_some, true_and]
      split
      · next h => rw [h]; simp [Label.names]
      · rw [newLabel_names]; tauto
    · rw [if_neg hw]
      simp [hw]

theorem portOf_some {ports : List (ℕ × ℕ)} {a b : ℕ} (h : portOf ports b = some a) : (a, b) ∈ ports := by
  unfold portOf at h
  rw [Option.map_eq_some_iff] at h
  obtain ⟨⟨a', b'⟩, h1, rfl⟩ := h
  have h2 := List.find?_some h1
  have h3 := List.mem_of_find?_eq_some h1
  have h2 := of_decide_eq_true h2
  simp only at h2
  subst h2
  exact h3

theorem portOf_none {ports : List (ℕ × ℕ)} {b : ℕ} : portOf ports b = none ↔ ∀ a, (a, b) ∉ ports := by
  unfold portOf
  rw [Option.map_eq_none_iff, List.find?_eq_none]
  constructor
  · intro h a ha
    exact h _ ha (by simp)
  · rintro h ⟨a, c⟩ hm hc
    have := of_decide_eq_true hc
    simp only at this
    subst this
    exact h a hm

theorem portOf_mem {ports : List (ℕ × ℕ)} (hn : (ports.map Prod.snd).Nodup) {a b : ℕ} (h : (a, b) ∈ ports) : portOf ports b = some a := by
  cases e : portOf ports b with
  | none => exact absurd h (portOf_none.1 e a)
  | some a' =>
    have h' := portOf_some e
    have := List.inj_on_of_nodup_map hn h' h rfl
    rw [(Prod.mk.inj this).1]

/-- The vertex loop: ports keep their place, other vertices are numbered after the first pattern. -/
theorem secondNodes_ok (ports : List (ℕ × ℕ)) : ∀ (t nodes : List (ℕ × Label σ)) (mp : List (ℕ × ℕ)), nodes.map Prod.fst = List.range' 1 nodes.length →
    (∀ x ∈ ports, x.1 ∈ nodes.map Prod.fst) → (t.map Prod.fst).Nodup →
    ∃ nodes' mp', secondNodes ports t nodes mp = .ok (nodes', mp' ++ mp) ∧ nodes'.map Prod.fst = List.range' 1 nodes'.length ∧ nodes'.length = nodes.length + mp'.length ∧
      mp'.map Prod.fst = ((t.map Prod.fst).filter (fun b => decide (portOf ports b = none))).reverse ∧ mp'.map Prod.snd = (List.range' (nodes.length + 1) mp'.length).reverse ∧
      ∀ w x, x ∈ namesIn nodes' w ↔ x ∈ namesIn nodes w ∨ ∃ n ∈ t, x ∈ n.2.names ∧ (portOf ports n.1 = some w ∨ (n.1, w) ∈ mp')
  | [], nodes, mp, h1, _, _ => ⟨nodes, [], by simp [secondNodes], h1, by simp, by simp, by simp, by simp⟩
  | (b, l) :: t, nodes, mp, h1, h2, h3 => by
    rw [secondNodes]
    cases e : portOf ports b with
    | some a =>
      obtain ⟨nodes1, e1, e2, e3⟩ := addPortLabel_ok nodes a l (h2 _ (portOf_some e))
      have hlen : nodes1.length = nodes.length := by
        have := congrArg List.length e2
        simpa using this
      obtain ⟨nodes', mp', k1, k2, k3, k4, k5, k6⟩ := secondNodes_ok ports t nodes1 mp (by rw [e2, h1, hlen]) (by rw [e2]; exact h2) (by simp only [List.map_cons, List.nodup_cons] at h3; exact h3.2)
      refine ⟨nodes', mp', ?_, k2, by rw [k3, hlen], ?_, by rw [k5, hlen], ?_⟩
      · simp only [e1, Except.bind]
        exact k1
      · rw [k4]
        simp [e]
      · intro w x
        have hb : ∀ w, (b, w) ∉ mp' := by
          intro w hw
          have : b ∈ mp'.map Prod.fst := List.mem_map.2 ⟨_, hw, rfl⟩
          rw [k4, List.mem_reverse, List.mem_filter] at this
          simp [e] at this
        rw [k6, e3]
        constructor
        · rintro ((h | ⟨rfl, h⟩) | ⟨n, hn, h⟩)
          · exact .inl h
          · exact .inr ⟨(b, l), by simp, h, .inl e⟩
          · exact .inr ⟨n, by simp [hn], h⟩
        · rintro (h | ⟨n, hn, h, h'⟩)
          · exact .inl (.inl h)
          · rw [List.mem_cons] at hn
            rcases hn with rfl | hn
            · rcases h' with h' | h'
              · simp only at h'
                rw [e] at h'
                exact .inl (.inr ⟨(Option.some.inj h').symm, h⟩)
              · exact absurd h' (hb w)
            · exact .inr ⟨n, hn, h, h'⟩
    | none =>
      have hnew : nodes.length + 1 ∉ nodes.map Prod.fst := by
        rw [h1, List.mem_range'_1]; omega
      rw [addNode_new _ _ _ hnew]
      obtain ⟨nodes', mp', k1, k2, k3, k4, k5, k6⟩ := secondNodes_ok ports t (nodes ++ [(nodes.length + 1, l)]) ((b, nodes.length + 1) :: mp) (by
          rw [List.map_append, h1, List.length_append, List.length_singleton, List.range'_concat]
          simp [Nat.add_comm]) (by
          intro x hx
          rw [List.map_append]
          exact List.mem_append_left _ (h2 x hx)) (by simp only [List.map_cons, List.nodup_cons] at h3; exact h3.2)
      rw [List.length_append, List.length_singleton] at k3 k5
      refine ⟨nodes', mp' ++ [(b, nodes.length + 1)], ?_, k2, by rw [k3]; simp; omega, ?_, ?_, ?_⟩
      · simpa using k1
      · rw [List.map_append, k4]
        simp [e]
      · rw [List.map_append, k5, List.length_append, List.length_singleton]
        rw [show List.range' (nodes.length + 1) (mp'.length + 1) = (nodes.length + 1) :: List.range' (nodes.length + 1 + 1) mp'.length from List.range'_succ ..]
        simp
      · intro w x
        have hb : b ∉ t.map Prod.fst := by simp only [List.map_cons, List.nodup_cons] at h3; exact h3.1
        rw [k6]
        unfold namesIn
        rw [lookup_snoc _ _ _ _ hnew]
        have hw0 : w = nodes.length + 1 → nodes.lookup w = none := fun h => lookup_eq_none_of _ _ (h ▸ hnew)
        constructor
        · rintro (h | ⟨n, hn, h, h'⟩)
          · by_cases hw : w = nodes.length + 1
            · rw [if_pos hw] at h
              exact .inr ⟨(b, l), by simp, by simpa using h, .inr (by simp [hw])⟩
            · rw [if_neg hw] at h
              exact .inl h
          · refine .inr ⟨n, by simp [hn], h, h'.imp id (fun h' => by simp [h'])⟩
        · rintro (h | ⟨n, hn, h, h'⟩)
          · refine .inl ?_
            by_cases hw : w = nodes.length + 1
            · rw [hw0 hw] at h
              simp at h
            · rw [if_neg hw]
              exact h
          · rw [List.mem_cons] at hn
            rcases hn with rfl | hn
            · rcases h' with h' | h'
              · simp only at h'
                rw [e] at h'
                simp at h'
              · rw [List.mem_append, List.mem_singleton] at h'
                rcases h' with h' | h'
                · exfalso
                  have : b ∈ mp'.map Prod.fst := List.mem_map.2 ⟨_, h', rfl⟩
                  rw [k4, List.mem_reverse, List.mem_filter] at this
                  exact hb this.1
                · have := (Prod.mk.inj h').2
                  refine .inl ?_
                  rw [if_pos this]
                  simpa using h
            · rcases h' with h' | h'
              · exact .inr ⟨n, hn, h, .inl h'⟩
              · rw [List.mem_append, List.mem_singleton] at h'
                rcases h' with h' | h'
                · exact .inr ⟨n, hn, h, .inr h'⟩
                · exfalso
                  have := (Prod.mk.inj h').1
                  exact hb (this ▸ List.mem_map.2 ⟨n, hn, rfl⟩)

theorem lookup_portMapping {ports : List (ℕ × ℕ)} (hn : (ports.map Prod.snd).Nodup) (mp : List (ℕ × ℕ)) (b : ℕ) :
    (portMapping ports mp).lookup b = match portOf ports b with
      | some a => some a
      | none => mp.lookup b := by
  unfold portMapping portOf
  induction ports generalizing mp with
  | nil => simp
  | cons p t ih =>
    obtain ⟨x, y⟩ := p
    simp only [List.map_cons, List.nodup_cons] at hn
    rw [List.foldl_cons, ih hn.2]
    by_cases h : y = b
    · subst h
      have : t.find? (fun p => decide (p.2 = y)) = none := by
        rw [List.find?_eq_none]
        intro q hq hd
        exact hn.1 (List.mem_map.2 ⟨q, hq, of_decide_eq_true hd⟩)
      rw [this]
      simp [List.lookup]
    · have hb : (b == y) = false := by simpa using Ne.symm h
      simp only [List.find?_cons, h, decide_false]
      cases e : t.find? (fun p => decide (p.2 = b)) with
      | none => simp [List.lookup, hb]
      | some z => simp

theorem secondEdges_ok (multi : Bool) (ports mp : List (ℕ × ℕ)) (f : ℕ → ℕ) : ∀ (t : List (ℕ × ℕ × Label σ)) (g : LGraph σ),
    (∀ e ∈ t, edgeEnds ports mp e.1 e.2.1 = .ok (f e.1, f e.2.1) ∧ f e.1 ∈ g.nodes.map Prod.fst ∧ f e.2.1 ∈ g.nodes.map Prod.fst ∧ e.2.2 ≠ .none) →
    (multi = false → ((g.edges ++ t.map (fun e => (f e.1, f e.2.1, e.2.2))).map (fun e => (e.1, e.2.1))).Nodup) →
    secondEdges multi ports mp t g = .ok ⟨g.nodes, g.edges ++ t.map (fun e => (f e.1, f e.2.1, e.2.2))⟩
  | [], g, _, _ => by simp [secondEdges]
  | (u, v, l) :: t, g, h1, h2 => by
    obtain ⟨a, b, c, d⟩ := h1 (u, v, l) (by simp)
    simp only at a b c d
    rw [secondEdges, a]
    simp only [Except.bind]
    rw [addLabelled, if_neg d, addEdge_ok multi g _ _ l b c]
    · simp only
      rw [secondEdges_ok multi ports mp f t]
      · simp
      · intro e he
        exact h1 e (by simp [he])
      · intro hm
        have := h2 hm
        simpa using this
    · intro hm hmem
      have := h2 hm
      rw [List.map_append, List.nodup_append] at this
      exact this.2.2 _ hmem _ (by simp) rfl

/-- The merged pattern: vertices of the first pattern, edges of both, through the map of the second pattern. -/
theorem merge_exact {multi : Bool} {p q : LGraph σ} {ports : List (ℕ × ℕ)} (hp : IsPattern multi p) (hq : IsPattern multi q) (hports : PortsOk p q ports) (hc : multi = false → NoCommonEdge p q ports) :
    ∃ (nodes : List (ℕ × Label σ)) (f : ℕ → ℕ), mergeCand multi p q ports = .ok ⟨nodes, p.edges ++ q.edges.map (fun e => (f e.1, f e.2.1, e.2.2))⟩ ∧
      nodes.map Prod.fst = List.range' 1 nodes.length ∧ nodes.length + ports.length = p.nodes.length + q.nodes.length ∧ (∀ x ∈ ports, f x.2 = x.1) ∧
      (∀ b ∈ q.verts, f b ∈ nodes.map Prod.fst) ∧ (∀ b ∈ q.verts, ∀ b' ∈ q.verts, f b = f b' → b = b') ∧ (∀ b ∈ q.verts, f b ∈ p.verts → (f b, b) ∈ ports) ∧
      (∀ v ∈ nodes.map Prod.fst, v ∈ p.verts ∨ ∃ b ∈ q.verts, f b = v) ∧
      (∀ w x, x ∈ namesIn nodes w ↔ x ∈ namesIn p.nodes w ∨ ∃ b ∈ q.verts, f b = w ∧ x ∈ q.namesAt b) ∧ ∃ mp, secondNodes ports q.nodes p.nodes [] = .ok (nodes, mp) := by
  have hpn : p.nodes.map Prod.fst = List.range' 1 p.nodes.length := hp.verts
  obtain ⟨nodes, mp, k1, k2, k3, k4, k5, k6⟩ := secondNodes_ok ports q.nodes p.nodes [] hpn (fun x hx => (hports.mem x hx).1) hq.nodup
  rw [List.append_nil] at k1
  have hmp1 : (mp.map Prod.fst).Nodup := by
    rw [k4, List.nodup_reverse]
    exact hq.nodup.filter _
  have hmp2 : (mp.map Prod.snd).Nodup := by
    rw [k5, List.nodup_reverse]
    exact List.nodup_range'
  obtain ⟨f, hf⟩ : ∃ f : ℕ → ℕ, f = fun b => ((portMapping ports mp).lookup b).getD 0 := ⟨_, rfl⟩
  have hfp : ∀ a b, portOf ports b = some a → (portMapping ports mp).lookup b = some a ∧ f b = a := by
    intro a b h
    have : (portMapping ports mp).lookup b = some a := by rw [lookup_portMapping hports.seconds, h]
    exact ⟨this, by rw [hf]; simp [this]⟩
  have hfn : ∀ b ∈ q.verts, portOf ports b = none → (b, f b) ∈ mp ∧ (portMapping ports mp).lookup b = some (f b) := by
    intro b hb h
    have hm : b ∈ mp.map Prod.fst := by
      rw [k4, List.mem_reverse, List.mem_filter]
      exact ⟨hb, by simp [h]⟩
    obtain ⟨⟨b', c⟩, hm2, rfl⟩ := List.mem_map.1 hm
    have e : mp.lookup b' = some c := by
      have : ∀ l : List (ℕ × ℕ), (l.map Prod.fst).Nodup → (b', c) ∈ l → l.lookup b' = some c := by
        intro l
        induction l with
        | nil => simp
        | cons z t ih =>
          obtain ⟨y, z⟩ := z
          intro h1 h2
          simp only [List.map_cons, List.nodup_cons] at h1
          rw [List.mem_cons] at h2
          rcases h2 with h2 | h2
          · obtain ⟨rfl, rfl⟩ := Prod.mk.inj h2
            simp [List.lookup]
          · have : (b' == y) = false := by
              simp only [beq_eq_false_iff_ne]
              rintro rfl
              exact h1.1 (List.mem_map.2 ⟨_, h2, rfl⟩)
            simp only [List.lookup, this]
            exact ih h1.2 h2
      exact this mp hmp1 hm2
    have e2 : (portMapping ports mp).lookup b' = some c := by
      rw [lookup_portMapping hports.seconds, h]
      exact e
    have : f b' = c := by rw [hf]; simp [e2]
    rw [this]
    exact ⟨hm2, e2⟩
  have hlook : ∀ b ∈ q.verts, (portMapping ports mp).lookup b = some (f b) := by
    intro b hb
    cases e : portOf ports b with
    | none => exact (hfn b hb e).2
    | some a => rw [(hfp a b e).2]; exact (hfp a b e).1
  have hnew : ∀ b ∈ q.verts, portOf ports b = none → p.nodes.length < f b ∧ f b ≤ nodes.length := by
    intro b hb h
    have : f b ∈ mp.map Prod.snd := List.mem_map.2 ⟨_, (hfn b hb h).1, rfl⟩
    rw [k5, List.mem_reverse, List.mem_range'_1] at this
    omega
  have hport : ∀ a b, portOf ports b = some a → 1 ≤ a ∧ a ≤ p.nodes.length := by
    intro a b h
    have := (hports.mem _ (portOf_some h)).1
    unfold LGraph.verts at this
    rw [hpn, List.mem_range'_1] at this
    omega
  have hmemf : ∀ b ∈ q.verts, f b ∈ nodes.map Prod.fst := by
    intro b hb
    rw [k2, List.mem_range'_1]
    cases e : portOf ports b with
    | none => have := hnew b hb e; omega
    | some a =>
      have := hport a b e
      rw [(hfp a b e).2]
      omega
  have hinj : ∀ b ∈ q.verts, ∀ b' ∈ q.verts, f b = f b' → b = b' := by
    intro b hb b' hb' he
    cases e : portOf ports b with
    | none =>
      cases e' : portOf ports b' with
      | none =>
        have := List.inj_on_of_nodup_map hmp2 (hfn b hb e).1 (hfn b' hb' e').1 he
        exact (Prod.mk.inj this).1
      | some a' =>
        have h1 := hnew b hb e
        have h2 := hport a' b' e'
        have h3 := (hfp a' b' e').2
        omega
    | some a =>
      cases e' : portOf ports b' with
      | none =>
        have h1 := hnew b' hb' e'
        have h2 := hport a b e
        have h3 := (hfp a b e).2
        omega
      | some a' =>
        rw [(hfp a b e).2, (hfp a' b' e').2] at he
        subst he
        have := List.inj_on_of_nodup_map hports.firsts (portOf_some e) (portOf_some e') rfl
        exact (Prod.mk.inj this).2
  have hback : ∀ b ∈ q.verts, f b ∈ p.verts → (f b, b) ∈ ports := by
    intro b hb hm
    cases e : portOf ports b with
    | none =>
      unfold LGraph.verts at hm
      rw [hpn, List.mem_range'_1] at hm
      have := hnew b hb e
      omega
    | some a =>
      rw [(hfp a b e).2]
      exact portOf_some e
  have hnon : ((q.nodes.map Prod.fst).filter (fun b => decide (portOf ports b = none))).length + ports.length = q.nodes.length := by
    have h1 : ((q.nodes.map Prod.fst).filter (fun b => !decide (portOf ports b = none))).Perm (ports.map Prod.snd) := by
      refine (List.perm_ext_iff_of_nodup (hq.nodup.filter _) hports.seconds).2 (fun b => ?_)
      rw [List.mem_filter]
      constructor
      · rintro ⟨_, h⟩
        cases e : portOf ports b with
        | none => simp [e] at h
        | some a => exact List.mem_map.2 ⟨_, portOf_some e, rfl⟩
      · intro h
        obtain ⟨⟨a, b'⟩, hx, rfl⟩ := List.mem_map.1 h
        exact ⟨(hports.mem _ hx).2, by simp [portOf_mem hports.seconds hx]⟩
    have h2 := h1.length_eq
    have h3 := List.length_eq_length_filter_add (l := q.nodes.map Prod.fst) (fun b => decide (portOf ports b = none))
    rw [List.length_map] at h2 h3
    omega
  have hlen := congrArg List.length k4
  rw [List.length_map, List.length_reverse] at hlen
  refine ⟨nodes, f, ?_, k2, by omega, ?_, hmemf, hinj, hback, ?_, ?_, mp, k1⟩
  · unfold mergeCand
    rw [firstPattern_ok hp]
    simp only [Except.bind, secondPattern, k1]
    rw [secondEdges_ok multi ports _ f]
    · intro e he
      obtain ⟨hu, hv, hne⟩ := hq.ends e he
      refine ⟨?_, hmemf _ hu, hmemf _ hv, hq.labelled e he⟩
      unfold edgeEnds mapped
      rw [hlook _ hu, hlook _ hv]
      cases e1 : portOf ports e.1 with
      | some a => rw [(hfp a _ e1).2]; rfl
      | none =>
        cases e2 : portOf ports e.2.1 with
        | some b => rw [(hfp b _ e2).2]; rfl
        | none => simp [hne, Except.bind, Except.map]
    · intro hm
      rw [List.map_append, List.nodup_append]
      refine ⟨hp.simple hm, ?_, ?_⟩
      · rw [List.map_map]
        have h1 := hq.simple hm
        rw [List.Nodup, List.pairwise_map] at h1 ⊢
        refine h1.imp_of_mem ?_
        intro a b ha hb hab he
        simp only [Function.comp_apply, Prod.mk.injEq] at he
        obtain ⟨a1, a2, -⟩ := hq.ends a ha
        obtain ⟨b1, b2, -⟩ := hq.ends b hb
        exact hab (by rw [hinj _ a1 _ b1 he.1, hinj _ a2 _ b2 he.2])
      · intro x hx y hy hxy
        subst hxy
        obtain ⟨e, he, rfl⟩ := List.mem_map.1 hx
        rw [List.map_map] at hy
        obtain ⟨e', he', h⟩ := List.mem_map.1 hy
        simp only [Function.comp_apply, Prod.mk.injEq] at h
        obtain ⟨a1, a2, -⟩ := hp.ends e he
        obtain ⟨b1, b2, -⟩ := hq.ends e' he'
        refine hc hm e he e' he' ⟨?_, ?_⟩
        · rw [← h.1]; exact hback _ b1 (h.1 ▸ a1)
        · rw [← h.2]; exact hback _ b2 (h.2 ▸ a2)
  · intro x hx
    exact (hfp x.1 x.2 (portOf_mem hports.seconds hx)).2
  · intro v hv
    rw [k2, List.mem_range'_1] at hv
    by_cases h : v ≤ p.nodes.length
    · left
      unfold LGraph.verts
      rw [hpn, List.mem_range'_1]
      omega
    · right
      have : v ∈ mp.map Prod.snd := by
        rw [k5, List.mem_reverse, List.mem_range'_1]
        omega
      obtain ⟨⟨b, c⟩, hm, rfl⟩ := List.mem_map.1 this
      have hb : b ∈ mp.map Prod.fst := List.mem_map.2 ⟨_, hm, rfl⟩
      rw [k4, List.mem_reverse, List.mem_filter] at hb
      refine ⟨b, hb.1, ?_⟩
      have hb2 := (hfn b hb.1 (of_decide_eq_true hb.2)).1
      have := List.inj_on_of_nodup_map hmp1 hb2 hm rfl
      exact (Prod.mk.inj this).2
  · intro w x
    rw [k6]
    have hlk : ∀ n ∈ q.nodes, q.nodes.lookup n.1 = some n.2 := by
      have : ∀ l : List (ℕ × Label σ), (l.map Prod.fst).Nodup → ∀ n ∈ l, l.lookup n.1 = some n.2 := by
        intro l
        induction l with
        | nil => simp
        | cons z t ih =>
          intro h1 n h2
          simp only [List.map_cons, List.nodup_cons] at h1
          rw [List.mem_cons] at h2
          obtain ⟨z1, z2⟩ := z
          rcases h2 with rfl | h2
          · simp [List.lookup]
          · have : (n.1 == z1) = false := by
              simp only [beq_eq_false_iff_ne]
              intro he
              exact h1.1 (he ▸ List.mem_map.2 ⟨_, h2, rfl⟩)
            simp only [List.lookup, this]
            exact ih h1.2 n h2
      exact this _ hq.nodup
    constructor
    · rintro (h | ⟨n, hn, h, h'⟩)
      · exact .inl h
      · refine .inr ⟨n.1, List.mem_map.2 ⟨n, hn, rfl⟩, ?_, by simp [LGraph.namesAt, hlk n hn, h]⟩
        rcases h' with h' | h'
        · exact (hfp _ _ h').2
        · have hb : n.1 ∈ mp.map Prod.fst := List.mem_map.2 ⟨_, h', rfl⟩
          rw [k4, List.mem_reverse, List.mem_filter] at hb
          have hb2 := (hfn n.1 hb.1 (of_decide_eq_true hb.2)).1
          exact (Prod.mk.inj (List.inj_on_of_nodup_map hmp1 hb2 h' rfl)).2
    · rintro (h | ⟨b, hb, h1, h2⟩)
      · exact .inl h
      · obtain ⟨n, hn, rfl⟩ := List.mem_map.1 hb
        refine .inr ⟨n, hn, by simpa [LGraph.namesAt, hlk n hn] using h2, ?_⟩
        cases e : portOf ports n.1 with
        | some a => left; rw [← h1, (hfp _ _ e).2]
        | none => right; rw [← h1]; exact (hfn _ hb e).1

end Verif.Graph
