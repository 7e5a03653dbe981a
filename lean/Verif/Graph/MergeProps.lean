import Verif.Graph.MergeLabels

/-!
# Merging two patterns of GraphMDL: properties C81, C82
-/

set_option autoImplicit false
set_option linter.unusedSectionVars false

namespace Verif.Graph

variable {σ : Type} [DecidableEq σ]

/-- C81: merging two patterns at given ports gives a pattern whose vertices are those of the first and, through a map sending each port to its partner, those of the second, whose labels and edges are those of both and nothing else. -/
theorem merge_glues (multi : Bool) (p q : LGraph σ) (ports : List (ℕ × ℕ)) (hp : IsPattern multi p) (hq : IsPattern multi q) (hports : PortsOk p q ports) (hc : multi = false → NoCommonEdge p q ports) :
    ∃ (g : LGraph σ) (f : ℕ → ℕ), mergeCand multi p q ports = .ok g ∧ IsPattern multi g ∧ g.nodes.length + ports.length = p.nodes.length + q.nodes.length ∧
      (∀ a ∈ p.verts, ∀ b ∈ q.verts, f b = a ↔ (a, b) ∈ ports) ∧ (∀ b ∈ q.verts, ∀ b' ∈ q.verts, f b = f b' → b = b') ∧
      (∀ v, v ∈ g.verts ↔ v ∈ p.verts ∨ ∃ b ∈ q.verts, f b = v) ∧
      (∀ v x, x ∈ g.namesAt v ↔ x ∈ p.namesAt v ∨ ∃ b ∈ q.verts, f b = v ∧ x ∈ q.namesAt b) ∧
      g.edges = p.edges ++ q.edges.map (fun e => (f e.1, f e.2.1, e.2.2)) ∧
      ∀ (d : LGraph σ) (h : ℕ → ℕ), Occurs d g h ↔ Occurs d p h ∧ Occurs d q (h ∘ f) ∧ ∀ a ∈ p.verts, ∀ b ∈ q.verts, h a = h (f b) → (a, b) ∈ ports := by
  obtain ⟨nodes, f, k1, k2, k3, k4, k5, k6, k7, k8, k9, -⟩ := merge_exact hp hq hports hc
  obtain ⟨g, hg⟩ : ∃ g : LGraph σ, g = ⟨nodes, p.edges ++ q.edges.map (fun e => (f e.1, f e.2.1, e.2.2))⟩ := ⟨_, rfl⟩
  have hv : ∀ v, v ∈ g.verts ↔ v ∈ p.verts ∨ ∃ b ∈ q.verts, f b = v := by
    intro v
    rw [hg]
    refine ⟨k8 v, ?_⟩
    rintro (h | ⟨b, hb, rfl⟩)
    · have h1 := hp.verts
      have h2 : ports.length ≤ q.nodes.length := by
        have := (List.subperm_of_subset hports.seconds (l₂ := q.verts) (fun b hb => by
          obtain ⟨x, hx, rfl⟩ := List.mem_map.1 hb
          exact (hports.mem x hx).2)).length_le
        simpa [LGraph.verts] using this
      unfold LGraph.verts at h h1 ⊢
      rw [h1, List.mem_range'_1] at h
      simp only [k2, List.mem_range'_1]
      omega
    · exact k5 b hb
  have hn : ∀ v x, x ∈ g.namesAt v ↔ x ∈ p.namesAt v ∨ ∃ b ∈ q.verts, f b = v ∧ x ∈ q.namesAt b := by
    intro v x
    rw [hg]
    exact k9 v x
  have he : g.edges = p.edges ++ q.edges.map (fun e => (f e.1, f e.2.1, e.2.2)) := by rw [hg]
  have hport : ∀ a ∈ p.verts, ∀ b ∈ q.verts, f b = a ↔ (a, b) ∈ ports := by
    intro a ha b hb
    constructor
    · rintro rfl; exact k7 b hb ha
    · intro h; exact k4 _ h
  refine ⟨g, f, by rw [hg]; exact k1, ⟨?_, ?_, ?_, ?_⟩, ?_, hport, k6, hv, hn, he, ?_⟩
  · rw [hg]; exact k2
  · intro e hm
    rw [he, List.mem_append] at hm
    rcases hm with hm | hm
    · obtain ⟨a, b, c⟩ := hp.ends e hm
      exact ⟨(hv _).2 (.inl a), (hv _).2 (.inl b), c⟩
    · obtain ⟨e', hm', rfl⟩ := List.mem_map.1 hm
      obtain ⟨a, b, c⟩ := hq.ends e' hm'
      exact ⟨(hv _).2 (.inr ⟨_, a, rfl⟩), (hv _).2 (.inr ⟨_, b, rfl⟩), fun h => c (k6 _ a _ b h)⟩
  · intro e hm
    rw [he, List.mem_append] at hm
    rcases hm with hm | hm
    · exact hp.labelled e hm
    · obtain ⟨e', hm', rfl⟩ := List.mem_map.1 hm
      exact hq.labelled e' hm'
  · intro hm
    rw [he, List.map_append, List.nodup_append]
    refine ⟨hp.simple hm, ?_, ?_⟩
    · rw [List.map_map]
      have h1 := hq.simple hm
      rw [List.Nodup, List.pairwise_map] at h1 ⊢
      refine h1.imp_of_mem ?_
      intro a b ha hb hab he
      simp only [Function.comp_apply, Prod.mk.injEq] at he
      obtain ⟨a1, a2, -⟩ := hq.ends a ha
      obtain ⟨b1, b2, -⟩ := hq.ends b hb
      exact hab (by rw [k6 _ a1 _ b1 he.1, k6 _ a2 _ b2 he.2])
    · intro x hx y hy hxy
      subst hxy
      obtain ⟨e, he, rfl⟩ := List.mem_map.1 hx
      rw [List.map_map] at hy
      obtain ⟨e', he', h⟩ := List.mem_map.1 hy
      simp only [Function.comp_apply, Prod.mk.injEq] at h
      obtain ⟨a1, a2, -⟩ := hp.ends e he
      obtain ⟨b1, b2, -⟩ := hq.ends e' he'
      exact hc hm e he e' he' ⟨(hport _ a1 _ b1).1 h.1, (hport _ a2 _ b2).1 h.2⟩
  · rw [hg]; exact k3
  · intro d h
    constructor
    · intro ho
      refine ⟨⟨?_, ?_, ?_, ?_⟩, ⟨?_, ?_, ?_, ?_⟩, ?_⟩
      · intro a ha; exact ho.verts a ((hv a).2 (.inl ha))
      · intro a ha b hb; exact ho.inj a ((hv a).2 (.inl ha)) b ((hv b).2 (.inl hb))
      · intro a ha l hl; exact ho.labels a ((hv a).2 (.inl ha)) l ((hn a l).2 (.inl hl))
      · intro e hm; exact ho.edges e (by rw [he]; exact List.mem_append_left _ hm)
      · intro b hb; exact ho.verts _ ((hv _).2 (.inr ⟨b, hb, rfl⟩))
      · intro a ha b hb hab; exact k6 a ha b hb (ho.inj _ ((hv _).2 (.inr ⟨a, ha, rfl⟩)) _ ((hv _).2 (.inr ⟨b, hb, rfl⟩)) hab)
      · intro b hb l hl; exact ho.labels _ ((hv _).2 (.inr ⟨b, hb, rfl⟩)) l ((hn _ l).2 (.inr ⟨b, hb, rfl, hl⟩))
      · intro e hm; exact ho.edges (f e.1, f e.2.1, e.2.2) (by rw [he]; exact List.mem_append_right _ (List.mem_map.2 ⟨e, hm, rfl⟩))
      · intro a ha b hb hab
        exact (hport a ha b hb).1 (ho.inj a ((hv a).2 (.inl ha)) _ ((hv _).2 (.inr ⟨b, hb, rfl⟩)) hab).symm
    · rintro ⟨h1, h2, h3⟩
      refine ⟨?_, ?_, ?_, ?_⟩
      · intro v hm
        rcases (hv v).1 hm with hm | ⟨b, hb, rfl⟩
        · exact h1.verts v hm
        · exact h2.verts b hb
      · intro v hm w hw hvw
        rcases (hv v).1 hm with hm | ⟨b, hb, rfl⟩ <;> rcases (hv w).1 hw with hw | ⟨c, hc, rfl⟩
        · exact h1.inj v hm w hw hvw
        · exact ((hport v hm c hc).2 (h3 v hm c hc hvw)).symm
        · exact (hport w hw b hb).2 (h3 w hw b hb hvw.symm)
        · rw [h2.inj b hb c hc hvw]
      · intro v hm l hl
        rcases (hn v l).1 hl with hl | ⟨b, hb, rfl, hl'⟩
        · by_cases hvp : v ∈ p.verts
          · exact h1.labels v hvp l hl
          · exfalso
            unfold LGraph.namesAt at hl
            rw [lookup_eq_none_of _ _ hvp] at hl
            simp at hl
        · exact h2.labels b hb l hl'
      · intro e hm
        rw [he, List.mem_append] at hm
        rcases hm with hm | hm
        · exact h1.edges e hm
        · obtain ⟨e', hm', rfl⟩ := List.mem_map.1 hm
          exact h2.edges e' hm'

/-- C81: wherever the two patterns occur together, sharing exactly the ports, the merged pattern occurs, on the same vertices. -/
theorem merge_occurs (multi : Bool) (p q : LGraph σ) (ports : List (ℕ × ℕ)) (hp : IsPattern multi p) (hq : IsPattern multi q) (hports : PortsOk p q ports) (hc : multi = false → NoCommonEdge p q ports)
    (d : LGraph σ) (h1 h2 : ℕ → ℕ) (o1 : Occurs d p h1) (o2 : Occurs d q h2) (hs : ∀ a ∈ p.verts, ∀ b ∈ q.verts, h1 a = h2 b ↔ (a, b) ∈ ports) :
    ∃ (g : LGraph σ) (h : ℕ → ℕ), mergeCand multi p q ports = .ok g ∧ Occurs d g h ∧ ∀ x, x ∈ g.verts.map h ↔ x ∈ p.verts.map h1 ∨ x ∈ q.verts.map h2 := by
  obtain ⟨g, f, k1, k2, k3, k4, k5, k6, k7, k8, k9⟩ := merge_glues multi p q ports hp hq hports hc
  classical
  obtain ⟨h, hh⟩ : ∃ h : ℕ → ℕ, h = fun v => if v ∈ p.verts then h1 v else if hb : ∃ b ∈ q.verts, f b = v then h2 hb.choose else 0 := ⟨_, rfl⟩
  have e1 : ∀ a ∈ p.verts, h a = h1 a := by intro a ha; rw [hh]; simp [ha]
  have e2 : ∀ b ∈ q.verts, h (f b) = h2 b := by
    intro b hb
    by_cases hm : f b ∈ p.verts
    · rw [e1 _ hm]
      exact (hs _ hm b hb).2 ((k4 _ hm b hb).1 rfl)
    · have hex : ∃ b' ∈ q.verts, f b' = f b := ⟨b, hb, rfl⟩
      have : hex.choose = b := k5 _ hex.choose_spec.1 _ hb hex.choose_spec.2
      rw [hh]
      simp only [hm, if_false]
      rw [dif_pos hex, this]
  refine ⟨g, h, k1, (k9 d h).2 ⟨?_, ?_, ?_⟩, ?_⟩
  · refine ⟨?_, ?_, ?_, ?_⟩
    · intro a ha; rw [e1 a ha]; exact o1.verts a ha
    · intro a ha b hb; rw [e1 a ha, e1 b hb]; exact o1.inj a ha b hb
    · intro a ha; rw [e1 a ha]; exact o1.labels a ha
    · intro e hm
      obtain ⟨a, b, -⟩ := hp.ends e hm
      rw [e1 _ a, e1 _ b]; exact o1.edges e hm
  · refine ⟨?_, ?_, ?_, ?_⟩
    · intro b hb; rw [Function.comp_apply, e2 b hb]; exact o2.verts b hb
    · intro a ha b hb; rw [Function.comp_apply, Function.comp_apply, e2 a ha, e2 b hb]; exact o2.inj a ha b hb
    · intro b hb; rw [Function.comp_apply, e2 b hb]; exact o2.labels b hb
    · intro e hm
      obtain ⟨a, b, -⟩ := hq.ends e hm
      rw [Function.comp_apply, Function.comp_apply, e2 _ a, e2 _ b]; exact o2.edges e hm
  · intro a ha b hb hab
    rw [e1 a ha, e2 b hb] at hab
    exact (hs a ha b hb).1 hab
  · intro x
    simp only [List.mem_map]
    constructor
    · rintro ⟨v, hv, rfl⟩
      rcases (k6 v).1 hv with hv | ⟨b, hb, rfl⟩
      · exact .inl ⟨v, hv, (e1 v hv).symm⟩
      · exact .inr ⟨b, hb, (e2 b hb).symm⟩
    · rintro (⟨a, ha, rfl⟩ | ⟨b, hb, rfl⟩)
      · exact ⟨a, (k6 a).2 (.inl ha), e1 a ha⟩
      · exact ⟨f b, (k6 _).2 (.inr ⟨b, hb, rfl⟩), e2 b hb⟩

/-- The singletons are patterns. -/
theorem singleton_patterns (multi : Bool) (l : σ) : IsPattern multi (edgeSingleton l) ∧ IsPattern multi (vertexSingleton l) := by
  refine ⟨⟨rfl, ?_, ?_, ?_⟩, ⟨rfl, ?_, ?_, ?_⟩⟩ <;> simp [edgeSingleton, vertexSingleton, LGraph.verts]

/-- Patterns made by the search: singletons and, from these, merged candidates. -/
inductive Made (multi : Bool) : LGraph σ → Prop
  | edge (l : σ) : Made multi (edgeSingleton l)
  | vertex (l : σ) : Made multi (vertexSingleton l)
  | merge (p q g : LGraph σ) (ports : List (ℕ × ℕ)) : Made multi p → Made multi q → PortsOk p q ports → (multi = false → NoCommonEdge p q ports) → mergeCand multi p q ports = .ok g → Made multi g

/-- C81: what the search makes by merging remains mergeable. -/
theorem made_patterns (multi : Bool) (g : LGraph σ) (h : Made multi g) : IsPattern multi g := by
  induction h with
  | edge l => exact (singleton_patterns multi l).1
  | vertex l => exact (singleton_patterns multi l).2
  | merge p q g ports _ _ h1 h2 h3 ih1 ih2 =>
    obtain ⟨g', f, k1, k2, -⟩ := merge_glues multi p q ports ih1 ih2 h1 h2
    rw [k1] at h3
    obtain rfl := Except.ok.inj h3
    exact k2

/-- Two edges of a path and a label: `1 -a-> 2`, `1 -b-> 2` with the end of the first the start of the second. -/
example : mergeCand false (edgeSingleton "a") (edgeSingleton "b") [(2, 1)] = .ok ⟨[(1, .none), (2, .none), (3, .none)], [(1, 2, .str "a"), (2, 3, .str "b")]⟩ := by rfl

example : IsPattern false (edgeSingleton "a") ∧ PortsOk (edgeSingleton "a") (edgeSingleton "b") [(2, 1)] ∧ NoCommonEdge (edgeSingleton "a") (edgeSingleton "b") [(2, 1)] := by
  refine ⟨(singleton_patterns _ _).1, ⟨by decide, by decide, by decide⟩, ?_⟩
  unfold NoCommonEdge edgeSingleton
  decide

/-- Outside C81: when both patterns join the same two ports, a graph that is no multigraph keeps only the label of the second. -/
theorem merge_overwrites : mergeCand false (edgeSingleton "a") (edgeSingleton "b") [(1, 1), (2, 2)] = .ok ⟨[(1, .none), (2, .none)], [(1, 2, .str "b")]⟩ ∧
    mergeCand true (edgeSingleton "a") (edgeSingleton "b") [(1, 1), (2, 2)] = .ok ⟨[(1, .none), (2, .none)], [(1, 2, .str "a"), (1, 2, .str "b")]⟩ := ⟨rfl, rfl⟩

/-- C82. An edge without label in the first pattern raises. -/
theorem merge_unlabelled (multi : Bool) (p q : LGraph σ) (ports : List (ℕ × ℕ)) (h : ∃ e ∈ p.edges, e.2.2 = .none) : mergeCand multi p q ports = .error "KeyError" := by
  have key : ∀ (L : List (ℕ × ℕ × Label σ)) (g : LGraph σ), (∃ e ∈ L, e.2.2 = .none) → firstEdges multi L g = .error "KeyError" := by
    intro L
    induction L with
    | nil => intro g h; obtain ⟨e, h, _⟩ := h; simp at h
    | cons x t ih =>
      obtain ⟨u, v, l⟩ := x
      rintro g ⟨e, he, hl⟩
      rw [firstEdges, addLabelled]
      by_cases hn : l = .none
      · rw [if_pos hn]; rfl
      · rw [if_neg hn]
        refine ih _ ⟨e, (List.mem_cons.mp he).resolve_left ?_, hl⟩
        rintro rfl
        exact hn hl
  rw [mergeCand, firstPattern, key _ _ h]
  rfl

example : mergeCand false ⟨[(1, .none), (2, .none)], [(1, 2, .none)]⟩ (edgeSingleton "b") [(1, 1)] = .error "KeyError" := merge_unlabelled _ _ _ _ ⟨(1, 2, .none), by simp, rfl⟩

/-- Outside C81: a second pattern with a loop on a vertex that is no port cannot be merged. -/
theorem merge_loop : mergeCand false (edgeSingleton "a") ⟨[(1, .none), (2, .none)], [(2, 2, .str "b")]⟩ [(1, 1)] = .error "TypeError" := rfl

/-! ## Labels of the merged pattern -/

/-- The labels a vertex has in both patterns, at every port, are missing in one of them or strings. -/
def PortLabelsOk (p q : LGraph σ) (ports : List (ℕ × ℕ)) : Prop :=
  ∀ a b k l, (a, b) ∈ ports → p.nodes.lookup a = some k → q.nodes.lookup b = some l → Joinable l k

/-- C82, exactly: the vertex labels of a merged pattern can be counted when, at every port, one of the patterns has no label or both have one string; otherwise counting them raises TypeError. -/
theorem merge_count_iff (multi : Bool) (p q g : LGraph σ) (ports : List (ℕ × ℕ)) (hp : IsPattern multi p) (hq : IsPattern multi q) (hports : PortsOk p q ports) (hc : multi = false → NoCommonEdge p q ports)
    (hph : p.Hashable) (hqh : q.Hashable) (hg : mergeCand multi p q ports = .ok g) :
    (PortLabelsOk p q ports → g.Hashable ∧ ∃ d, countVertex g = .ok d) ∧ (¬ PortLabelsOk p q ports → countVertex g = .error "TypeError: unhashable type: 'list'") := by
  obtain ⟨nodes, f, k1, k2, -, -, -, -, -, -, -, mp, k9⟩ := merge_exact hp hq hports hc
  rw [k1] at hg
  obtain rfl := Except.ok.inj hg
  have hpv : ∀ x ∈ ports, x.1 ∈ p.nodes.map Prod.fst := fun x hx => (hports.mem x hx).1
  have hql : ∀ n ∈ q.nodes, q.nodes.lookup n.1 = some n.2 := by
    intro n hn
    obtain ⟨k, hk⟩ := lookup_isSome_of_mem q.nodes n.1 (List.mem_map.2 ⟨n, hn, rfl⟩)
    have := List.inj_on_of_nodup_map hq.nodup (lookup_mem hk) hn rfl
    rw [hk, ← this]
  constructor
  · intro h
    have h1 := secondNodes_hash ports hports.firsts q.nodes p.nodes [] nodes mp hp.verts hpv hq.nodup hph.1 hqh.1
      (fun n hn a k h1 h2 => h a n.1 k n.2 (portOf_some h1) h2 (hql n hn)) k9
    refine ⟨⟨h1, ?_⟩, ?_⟩
    · intro e he
      rcases List.mem_append.1 he with he | he
      · exact hph.2 e he
      · obtain ⟨e', he', rfl⟩ := List.mem_map.1 he
        exact hqh.2 e' he'
    · obtain ⟨d, hd, -⟩ := count_labels (nodes.map Prod.snd) (by
        intro l hl
        obtain ⟨n, hn, rfl⟩ := List.mem_map.1 hl
        exact h1 n hn)
      exact ⟨d, hd⟩
  · intro h
    unfold PortLabelsOk at h
    push Not at h
    obtain ⟨a, b, k, l, h1, h2, h3, h4⟩ := h
    obtain ⟨n, hn, hh⟩ := secondNodes_list ports hports.firsts q.nodes p.nodes [] nodes mp hp.verts hpv hq.nodup
      (.inr ⟨(b, l), lookup_mem h3, a, k, portOf_mem hports.seconds h1, h2, h4⟩) k9
    exact counter_list _ ⟨n.2, List.mem_map.2 ⟨n, hn, rfl⟩, hh⟩ []

/-- C82, where it holds: with no label or one string on both sides of every port, the labels of the merged pattern are counted, each as often as it stands on vertices. -/
theorem merge_count_partial (multi : Bool) (p q g : LGraph σ) (ports : List (ℕ × ℕ)) (hp : IsPattern multi p) (hq : IsPattern multi q) (hports : PortsOk p q ports) (hc : multi = false → NoCommonEdge p q ports)
    (hph : p.Hashable) (hqh : q.Hashable) (hl : PortLabelsOk p q ports) (hg : mergeCand multi p q ports = .ok g) :
    ∃ v e, countVertex g = .ok v ∧ countEdge g = .ok e ∧ (∀ s, countOf v s = g.vertexNames.count s) ∧ ∀ s, countOf e s = p.edgeNames.count s + q.edgeNames.count s := by
  obtain ⟨v, e, h1, h2, h3, h4⟩ := label_counts g ((merge_count_iff multi p q g ports hp hq hports hc hph hqh hg).1 hl).1
  refine ⟨v, e, h1, h2, h3, fun s => ?_⟩
  obtain ⟨g', f, k1, -, -, -, -, -, -, k8, -⟩ := merge_glues multi p q ports hp hq hports hc
  rw [k1] at hg
  obtain rfl := Except.ok.inj hg
  rw [h4]
  unfold LGraph.edgeNames
  rw [k8, List.flatMap_append, List.count_append, List.flatMap_map]

/-- C82 is false: three labels `a`, `b`, `c` of one vertex; the pattern with `a` and `b` merged with `c` has a list as label, and its labels cannot be counted. -/
theorem merge_three_labels : ∃ p g : LGraph String, mergeCand false (vertexSingleton "a") (vertexSingleton "b") [(1, 1)] = .ok p ∧ mergeCand false p (vertexSingleton "c") [(1, 1)] = .ok g ∧
    g.nodes = [(1, .list ["b", "a", "c"])] ∧ countVertex g = .error "TypeError: unhashable type: 'list'" ∧ totalLabel g = .error "TypeError: unhashable type: 'list'" :=
  ⟨_, _, rfl, rfl, rfl, rfl, rfl⟩

example : PortLabelsOk (vertexSingleton "a") (vertexSingleton "b") [(1, 1)] ∧ (vertexSingleton "a").Hashable := by
  refine ⟨?_, ⟨by simp [vertexSingleton, Label.Hashable], by simp [vertexSingleton]⟩⟩
  intro a b k l h h1 h2
  simp only [List.mem_singleton, Prod.mk.injEq] at h
  obtain ⟨rfl, rfl⟩ := h
  simp [vertexSingleton] at h1 h2
  exact .inr (.inr ⟨⟨_, h2.symm⟩, _, h1.symm⟩)

end Verif.Graph
