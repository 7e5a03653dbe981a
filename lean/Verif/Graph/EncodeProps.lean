import Verif.Graph.EncodeKraft

/-!
# Description of patterns (C88) and of the code table (C89): properties
-/

set_option autoImplicit false
set_option linter.unusedSectionVars false

namespace Verif.Graph

variable {σ : Type} [DecidableEq σ]

/-! ## C88 -/

/-- C88. The description of a pattern whose labels are labels of the data is computed, and it is the length of this message: which of the labels, the number of vertices, and for every label of the pattern its code, at how many places it
is, and at which places. -/
theorem description_exact (g : LGraph σ) (hg : g.Hashable) (hsome : g.vertexNames ≠ [] ∨ g.edgeNames ≠ []) (p : LGraph σ) (hp : Tidy p) (hd : FromData g p) :
    ∃ (t : LabelTable σ) (u : ℕ → ℕ), labelCodes g = .ok t ∧ (∀ x : ℕ, universalInt0 x = .ok (u x)) ∧
      encode t p = .ok (∑ l ∈ p.vertexNames.toFinset, (-Real.logb 2 ((g.vertexNames.count l : ℝ) / g.total) + u (vset p l).card + Real.logb 2 (p.nodes.length.choose (vset p l).card))
        + ∑ l ∈ p.edgeNames.toFinset, (-Real.logb 2 ((g.edgeNames.count l : ℝ) / g.total) + u (eset p l).card + Real.logb 2 ((p.nodes.length ^ 2).choose (eset p l).card))
        + Real.logb 2 (g.vertexNames.toFinset.card + g.edgeNames.toFinset.card) + u p.nodes.length) := by
  obtain ⟨vs, es, v1, v2, e1, e2, h⟩ := labelCodes_ok g hg
  obtain ⟨u, hu⟩ : ∃ u : ℕ → ℕ, ∀ x : ℕ, universalInt0 x = .ok (u x) := ⟨fun x => (universalInt0_ok x).choose, fun x => (universalInt0_ok x).choose_spec⟩
  have f1 : g.vertexNames.toFinset = vs.toFinset := by ext l; rw [List.mem_toFinset, List.mem_toFinset, v2]
  have f2 : g.edgeNames.toFinset = es.toFinset := by ext l; rw [List.mem_toFinset, List.mem_toFinset, e2]
  have hT : (vs.map (fun l => (l, labelLen g.total (g.vertexNames.count l)))).length + (es.map (fun l => (l, labelLen g.total (g.edgeNames.count l)))).length ≠ 0 := by
    rw [List.length_map, List.length_map]
    rcases hsome with hs | hs
    · obtain ⟨s, hs⟩ := List.exists_mem_of_ne_nil _ hs
      have := List.length_pos_of_mem ((v2 s).mpr hs); omega
    · obtain ⟨s, hs⟩ := List.exists_mem_of_ne_nil _ hs
      have := List.length_pos_of_mem ((e2 s).mpr hs); omega
  refine ⟨_, u, h, hu, ?_⟩
  rw [encode_ok u hu g hg _ h hT p hp.hash hd (count_vertex_le hp) (count_edge_le hp)]
  have len1 : ∀ M c : ℕ, 0 < M → 0 < c → labelLen M c = -Real.logb 2 ((c : ℝ) / M) := fun M c hM hc => by
    rw [labelLen, Real.logb_div (by positivity) (by positivity), neg_sub]
  have s1 : ∑ l ∈ p.vertexNames.toFinset, (labelLen g.total (g.vertexNames.count l) + u (p.vertexNames.count l) + Real.logb 2 (p.nodes.length.choose (p.vertexNames.count l))) =
      ∑ l ∈ p.vertexNames.toFinset, (-Real.logb 2 ((g.vertexNames.count l : ℝ) / g.total) + u (vset p l).card + Real.logb 2 (p.nodes.length.choose (vset p l).card)) := by
    refine Finset.sum_congr rfl (fun l hl => ?_)
    have hl := hd.1 l (List.mem_toFinset.mp hl)
    rw [card_vset hp, len1 _ _ (total_pos (.inl hl)) (List.count_pos_iff.mpr hl)]
  have s2 : ∑ l ∈ p.edgeNames.toFinset, (labelLen g.total (g.edgeNames.count l) + u (p.edgeNames.count l) + Real.logb 2 ((p.nodes.length ^ 2).choose (p.edgeNames.count l))) =
      ∑ l ∈ p.edgeNames.toFinset, (-Real.logb 2 ((g.edgeNames.count l : ℝ) / g.total) + u (eset p l).card + Real.logb 2 ((p.nodes.length ^ 2).choose (eset p l).card)) := by
    refine Finset.sum_congr rfl (fun l hl => ?_)
    have hl := hd.2 l (List.mem_toFinset.mp hl)
    rw [card_eset hp, len1 _ _ (total_pos (.inr hl)) (List.count_pos_iff.mpr hl)]
  rw [s1, s2, f1, f2, List.toFinset_card_of_nodup v1, List.toFinset_card_of_nodup e1, List.length_map, List.length_map]

/-- A label that is not in the data cannot be described. -/
theorem unknown_label (g : LGraph σ) (hg : g.Hashable) (t : LabelTable σ) (ht : labelCodes g = .ok t) (p : LGraph σ) (hp : Tidy p) (l : σ) (hl : l ∈ p.vertexNames ∧ l ∉ g.vertexNames) : ∃ e, encode t p = .error e := by
  obtain ⟨u, hu⟩ : ∃ u : ℕ → ℕ, ∀ x : ℕ, universalInt0 x = .ok (u x) := ⟨fun x => (universalInt0_ok x).choose, fun x => (universalInt0_ok x).choose_spec⟩
  obtain ⟨vs, es, v1, v2, e1, e2, h⟩ := labelCodes_ok g hg
  rw [ht] at h
  obtain rfl := Except.ok.inj h
  obtain ⟨pv, pv1, pv2, pv3⟩ := countVertex_eq p hp.hash
  obtain ⟨pe, pe1, pe2, pe3⟩ := countEdge_eq p hp.hash
  have key : ∀ ls : List σ, l ∈ ls → ∃ e, describeLabels (vs.map (fun l => (l, labelLen g.total (g.vertexNames.count l)))) p.nodes.length (ls.map (fun k => (k, p.vertexNames.count k))) = .error e := by
    intro ls hls
    induction ls with
    | nil => simp at hls
    | cons a s ih =>
      rw [List.map_cons, describeLabels]
      by_cases e : l = a
      · subst e
        have : (vs.map (fun l => (l, labelLen g.total (g.vertexNames.count l)))).lookup l = none := by
          rw [List.lookup_eq_none_iff]
          intro x hx
          obtain ⟨k, hk, rfl⟩ := List.mem_map.mp hx
          simp only [beq_eq_false_iff_ne, ne_eq, bne_iff_ne]
          rintro rfl
          exact hl.2 ((v2 _).mp hk)
        rw [this]
        exact ⟨_, rfl⟩
      · obtain ⟨e', he'⟩ := ih ((List.mem_cons.mp hls).resolve_left e)
        cases hlook : (vs.map (fun l => (l, labelLen g.total (g.vertexNames.count l)))).lookup a with
        | none => exact ⟨_, rfl⟩
        | some c =>
          simp only
          rw [hu, logBinomial_ok _ _ (count_vertex_le hp a), he']
          exact ⟨_, rfl⟩
  unfold encode
  rw [pv3, pe3]
  simp only [Except.bind]
  split
  · exact ⟨_, rfl⟩
  · obtain ⟨e, he⟩ := key pv ((pv2 l).mpr hl.1)
    rw [hu, he]
    exact ⟨_, rfl⟩

/-- Full statement: the descriptions of different patterns are lengths of a code: over any list of different non-empty patterns the weights `2 ^ -description` sum to at most one. Proved here when no label of the data is both a vertex label
and an edge label. Missing: otherwise a description can be negative (`negative_description`). -/
theorem description_kraft_partial (g : LGraph σ) (hg : g.Hashable) (hdis : ∀ s ∈ g.edgeNames, s ∉ g.vertexNames) (t : LabelTable σ) (ht : labelCodes g = .ok t) (L : List (LGraph σ))
    (hL : ∀ p ∈ L, Tidy p ∧ p.nodes ≠ [] ∧ FromData g p) (hdiff : L.Pairwise (fun p q => ¬ p.Same q)) (len : LGraph σ → ℝ) (hlen : ∀ p ∈ L, encode t p = .ok (len p)) :
    (L.map (fun p => (2 : ℝ) ^ (-len p))).sum ≤ 1 := by
  have h := kraft_sum g hg hdis t ht (fun _ k => if k = 0 then 1 else 0) (fun _ k => by split <;> norm_num) (fun n => by
      have : ∀ P ∈ (Finset.Icc 1 n).powerset, (if P.card = 0 then (1 : ℝ) else 0) = if P = ∅ then 1 else 0 := fun P _ => by simp only [Finset.card_eq_zero]
      rw [Finset.sum_congr rfl this, Finset.sum_ite_eq' , if_pos (Finset.empty_mem_powerset _)])
    (L.map (fun p => (p, ∅))) (by
      intro x hx
      obtain ⟨p, hp, rfl⟩ := List.mem_map.mp hx
      exact ⟨(hL p hp).1, (hL p hp).2.1, (hL p hp).2.2, by simp⟩)
    (by rw [List.pairwise_map]; exact hdiff.imp (fun h e => h e.1)) (fun x => len x.1) (by
      intro x hx
      obtain ⟨p, hp, rfl⟩ := List.mem_map.mp hx
      exact hlen p hp)
  rw [List.map_map] at h
  refine le_of_eq_of_le (congrArg _ (List.map_congr_left (fun p _ => ?_))) h
  simp

/-- The same with ports: the descriptions of rows, that is of different patterns or patterns with different sets of ports, are lengths of a code. Missing: as above. -/
theorem row_kraft_partial (g : LGraph σ) (hg : g.Hashable) (hdis : ∀ s ∈ g.edgeNames, s ∉ g.vertexNames) (t : LabelTable σ) (ht : labelCodes g = .ok t) (L : List (LGraph σ × Finset ℕ))
    (hL : ∀ x ∈ L, Tidy x.1 ∧ x.1.nodes ≠ [] ∧ FromData g x.1 ∧ ∀ v ∈ x.2, v ∈ x.1.verts) (hdiff : L.Pairwise (fun x y => ¬ (x.1.Same y.1 ∧ x.2 = y.2))) (len : LGraph σ × Finset ℕ → ℝ)
    (hlen : ∀ x ∈ L, rowDescription t x.1 x.2.card = .ok (len x)) : (L.map (fun x => (2 : ℝ) ^ (-len x))).sum ≤ 1 := by
  have hcard : ∀ x ∈ L, x.2.card ≤ x.1.nodes.length := fun x hx => by
    have : x.2 ⊆ Finset.Icc 1 x.1.nodes.length := fun v hv => (tidy_mem (hL x hx).1 v).mp ((hL x hx).2.2.2 v hv)
    exact le_trans (Finset.card_le_card this) (by simp)
  have hval : ∀ x ∈ L, encode t x.1 = .ok (len x - (Real.logb 2 (x.1.nodes.length + 1) + Real.logb 2 (x.1.nodes.length.choose x.2.card))) := by
    intro x hx
    have := hlen x hx
    unfold rowDescription at this
    rw [logBinomial_ok _ _ (hcard x hx)] at this
    obtain ⟨s, h1, h2⟩ := map_ok this
    rw [h1, ← h2]
    congr 1; ring
  have h := kraft_sum g hg hdis t ht (fun n k => (1 : ℝ) / (n + 1) / n.choose k) (fun n k => by positivity) port_weights L hL hdiff _ hval
  refine le_of_eq_of_le (congrArg _ (List.map_congr_left (fun x hx => ?_))) h
  have h1 : (0 : ℝ) < x.1.nodes.length.choose x.2.card := by exact_mod_cast Nat.choose_pos (hcard x hx)
  have h2 : (0 : ℝ) < x.1.nodes.length + 1 := by positivity
  rw [neg_sub, sub_eq_add_neg, Real.rpow_add (by norm_num), Real.rpow_add (by norm_num), Real.rpow_logb (by norm_num) (by norm_num) h1, Real.rpow_logb (by norm_num) (by norm_num) h2]
  field_simp

/-! ### Witness -/

/-- A star: the centre and all edges have the label 0. -/
def star (N : ℕ) : LGraph ℕ := ⟨(0, .str 0) :: (List.range N).map (fun i => (i + 1, .none)), (List.range N).map (fun i => (0, i + 1, .str 0))⟩

theorem star_names (N : ℕ) : (star N).vertexNames = [0] ∧ (star N).edgeNames = List.replicate N 0 := by
  constructor
  · unfold star LGraph.vertexNames
    rw [List.flatMap_cons, List.flatMap_map]
    simp [Label.names]
  · unfold star LGraph.edgeNames
    rw [List.flatMap_map]
    induction N with
    | zero => rfl
    | succ n ih => rw [List.range_succ, List.flatMap_append, ih, List.replicate_succ']; rfl

theorem edgeSingleton_tidy (l : σ) : Tidy (edgeSingleton l) where
  hash := ⟨by simp [edgeSingleton, Label.Hashable], by simp [edgeSingleton, Label.Hashable]⟩
  verts := rfl
  ends := by simp [edgeSingleton, LGraph.verts]
  vonce := by simp [edgeSingleton, Label.names]
  eonce := by simp [edgeSingleton, Label.names]

theorem vertexSingleton_tidy (l : σ) : Tidy (vertexSingleton l) where
  hash := ⟨by simp [vertexSingleton, Label.Hashable], by simp [vertexSingleton]⟩
  verts := rfl
  ends := by simp [vertexSingleton]
  vonce := by simp [vertexSingleton, Label.names]
  eonce := by simp [vertexSingleton]

/-- A label that is both a vertex label and the label of 2 ^ 20 edges: the description of the pattern made of one such edge is negative. -/
theorem negative_description : ∃ (g : LGraph ℕ) (t : LabelTable ℕ) (x : ℝ), g.Hashable ∧ labelCodes g = .ok t ∧ FromData g (edgeSingleton 0) ∧ encode t (edgeSingleton 0) = .ok x ∧ x < 0 := by
  obtain ⟨N, hN⟩ : ∃ N : ℕ, N = 2 ^ 20 := ⟨_, rfl⟩
  have hN0 : N ≠ 0 := by rw [hN]; positivity
  have hg : (star N).Hashable := by
    constructor
    · intro n hn
      rcases List.mem_cons.mp hn with rfl | hn
      · trivial
      · obtain ⟨i, -, rfl⟩ := List.mem_map.mp hn; trivial
    · intro n hn
      obtain ⟨i, -, rfl⟩ := List.mem_map.mp hn; trivial
  obtain ⟨n1, n2⟩ := star_names N
  have m1 : (edgeSingleton 0 : LGraph ℕ).vertexNames = [] := rfl
  have m2 : (edgeSingleton 0 : LGraph ℕ).edgeNames = [0] := rfl
  have hd : FromData (star N) (edgeSingleton 0) := by
    refine ⟨by rw [m1]; simp, ?_⟩
    rw [m2, n2]
    intro l hl
    rw [List.mem_singleton] at hl
    subst hl
    exact List.mem_replicate.mpr ⟨hN0, rfl⟩
  obtain ⟨t, u, h1, h2, h3⟩ := description_exact (star N) hg (.inl (by rw [n1]; simp)) (edgeSingleton 0) (edgeSingleton_tidy 0) hd
  refine ⟨_, t, _, hg, h1, hd, h3, ?_⟩
  have hT : (star N).total = 1 := by
    unfold LGraph.total
    rw [n1, n2]
    have : (List.replicate N 0).filter (fun s => decide (s ∉ [0])) = [] := by
      rw [List.filter_eq_nil_iff]
      intro a ha
      rw [(List.mem_replicate.mp ha).2]; simp
    rw [this]; rfl
  have c1 : (eset (edgeSingleton 0 : LGraph ℕ) 0).card = 1 := by rw [card_eset (edgeSingleton_tidy 0)]; rfl
  have u1 : u 1 = 4 := by
    have h2 := h2 1
    have : universalInt0 1 = .ok 4 := by decide
    exact (Except.ok.inj (this.symm.trans h2)).symm
  have u2 : u 2 = 4 := by
    have h2 := h2 2
    have : universalInt0 2 = .ok 4 := by decide
    exact (Except.ok.inj (this.symm.trans h2)).symm
  have hlen : (edgeSingleton 0 : LGraph ℕ).nodes.length = 2 := rfl
  have k1 : [0].toFinset.card = 1 := rfl
  have k2 : (List.replicate N 0).toFinset.card = 1 := by rw [List.toFinset_replicate_of_ne_zero hN0]; rfl
  rw [m1, m2, hlen, hT, n1, n2, k1, k2]
  simp only [List.toFinset_nil, Finset.sum_empty, List.toFinset_cons, insert_empty_eq, Finset.sum_singleton, c1, List.count_replicate_self, u1, u2]
  have e1 : Real.logb 2 ((N : ℝ) / ((1 : ℕ) : ℝ)) = 20 := by
    rw [hN, Nat.cast_one, div_one, Nat.cast_pow, Real.logb_pow]; norm_num
  have e2 : Real.logb 2 (((2 ^ 2).choose 1 : ℕ) : ℝ) = 2 := by
    have : ((2 ^ 2).choose 1 : ℕ) = 2 ^ 2 := by decide
    rw [this, Nat.cast_pow, Real.logb_pow]; norm_num
  have e3 : Real.logb 2 (((1 : ℕ) : ℝ) + ((1 : ℕ) : ℝ)) = 1 := by norm_num
  rw [e1, e2, e3]
  norm_num

/-! ### A case -/

/-- A path of three vertices labelled 9, with edges labelled 1. -/
def pathData : LGraph ℕ := ⟨[(0, .str 9), (1, .str 9), (2, .str 9)], [(0, 1, .str 1), (1, 2, .str 1)]⟩

/-- An edge that leaves a labelled vertex. -/
def halfEdge : LGraph ℕ := ⟨[(1, .str 9), (2, .none)], [(1, 2, .str 1)]⟩

theorem pathData_hash : pathData.Hashable := ⟨by simp [pathData, Label.Hashable], by simp [pathData, Label.Hashable]⟩

theorem path_fromData : FromData pathData (vertexSingleton 9) ∧ FromData pathData (edgeSingleton 1) ∧ FromData pathData halfEdge := by
  unfold FromData; decide

theorem halfEdge_tidy : Tidy halfEdge where
  hash := ⟨by simp [halfEdge, Label.Hashable], by simp [halfEdge, Label.Hashable]⟩
  verts := rfl
  ends := by simp [halfEdge, LGraph.verts]
  vonce := by simp [halfEdge, Label.names]
  eonce := by simp [halfEdge, Label.names]

/-- The descriptions of three patterns of the path: all are defined, the hypotheses of the theorems hold. -/
theorem path_descriptions : ∃ (t : LabelTable ℕ) (len : LGraph ℕ → ℝ), labelCodes pathData = .ok t ∧ (∀ p ∈ [vertexSingleton 9, edgeSingleton 1, halfEdge], encode t p = .ok (len p)) := by
  obtain ⟨h1, h2, h3⟩ := path_fromData
  obtain ⟨t, u, a1, a2, a3⟩ := description_exact pathData pathData_hash (.inl (by decide)) _ (vertexSingleton_tidy 9) h1
  obtain ⟨t', u', b1, b2, b3⟩ := description_exact pathData pathData_hash (.inl (by decide)) _ (edgeSingleton_tidy 1) h2
  obtain ⟨t'', u'', c1, c2, c3⟩ := description_exact pathData pathData_hash (.inl (by decide)) _ halfEdge_tidy h3
  rw [a1] at b1 c1
  obtain rfl := Except.ok.inj b1
  obtain rfl := Except.ok.inj c1
  refine ⟨t, fun p => match encode t p with | .ok x => x | .error _ => 0, a1, ?_⟩
  intro p hp
  simp only [List.mem_cons, List.not_mem_nil, or_false] at hp
  rcases hp with rfl | rfl | rfl
  · simp only [a3]
  · simp only [b3]
  · simp only [c3]

example : ∃ (t : LabelTable ℕ) (len : LGraph ℕ → ℝ), labelCodes pathData = .ok t ∧ encode t halfEdge = .ok (len halfEdge) ∧ (([vertexSingleton 9, edgeSingleton 1, halfEdge]).map (fun p => (2 : ℝ) ^ (-len p))).sum ≤ 1 := by
  obtain ⟨t, len, h1, h2⟩ := path_descriptions
  obtain ⟨f1, f2, f3⟩ := path_fromData
  refine ⟨t, len, h1, h2 _ (by simp), description_kraft_partial pathData pathData_hash (by decide) t h1 _ ?_ ?_ len h2⟩
  · intro p hp
    simp only [List.mem_cons, List.not_mem_nil, or_false] at hp
    rcases hp with rfl | rfl | rfl
    · exact ⟨vertexSingleton_tidy 9, by simp [vertexSingleton], f1⟩
    · exact ⟨edgeSingleton_tidy 1, by simp [edgeSingleton], f2⟩
    · exact ⟨halfEdge_tidy, by simp [halfEdge], f3⟩
  · simp only [List.pairwise_cons, List.mem_cons, List.not_mem_nil, or_false, forall_eq_or_imp, forall_eq, List.Pairwise.nil, and_true, false_imp_iff, implies_true]
    refine ⟨⟨fun h => absurd h.1 (by decide), fun h => absurd h.1 (by decide)⟩, fun h => ?_⟩
    obtain ⟨n, hn, -, hl⟩ := (h.2.1 1 9).mpr ⟨_, List.mem_cons_self .., rfl, by simp [Label.names]⟩
    simp only [edgeSingleton, List.mem_cons, List.not_mem_nil, or_false] at hn
    rcases hn with rfl | rfl <;> simp [Label.names] at hl

end Verif.Graph
