import Verif.Graph.RewriteRead

/-!
# The rewritten graph of GraphMDL: properties (C83)
-/

set_option autoImplicit false
set_option linter.unusedSectionVars false

namespace Verif.Graph

variable {σ : Type} [DecidableEq σ]

/-- A row of a pattern with edges, none listed twice. -/
structure EdgeRow (g : DGraph σ) (r : Row σ) : Prop where
  ok : RowOk g r
  edges : r.pattern.edges ≠ []
  nodup : r.pattern.edges.Nodup

/-- A row of a pattern of one vertex and labels. -/
structure VertexRow (g : DGraph σ) (r : Row σ) : Prop where
  ok : RowOk g r
  edges : r.pattern.edges = []
  single : ∃ a ls, r.pattern.nodes = [(a, ls)] ∧ ∀ e ∈ r.embeddings, ∃ v, e = [(v, a)]

theorem labels_of_mem (g : DGraph σ) (h : (g.nodes.map Prod.fst).Nodup) (v : ℕ) (ls : List σ) (hm : (v, ls) ∈ g.nodes) : g.labels v = ls := by
  unfold DGraph.labels
  obtain ⟨n, hn⟩ : ∃ n, n = g.nodes := ⟨_, rfl⟩
  rw [← hn] at h hm ⊢
  clear hn
  induction n with
  | nil => simp at hm
  | cons x t ih =>
    obtain ⟨w, ks⟩ := x
    rw [List.map_cons, List.nodup_cons] at h
    rcases List.mem_cons.1 hm with e | hmt
    · obtain ⟨rfl, rfl⟩ := Prod.mk.inj e
      simp
    · have : (v == w) = false := by
        rw [beq_eq_false_iff_ne]
        rintro rfl
        exact h.1 (List.mem_map.2 ⟨_, hmt, rfl⟩)
      rw [List.lookup, this]
      exact ih hmt h.2

theorem mem_of_labels (g : DGraph σ) (v : ℕ) (l : σ) (h : l ∈ g.labels v) : ∃ ls, (v, ls) ∈ g.nodes ∧ l ∈ ls := by
  unfold DGraph.labels at h
  cases hh : g.nodes.lookup v with
  | none => rw [hh] at h; simp at h
  | some ls =>
    rw [hh] at h
    obtain ⟨l1, l2, h1, -⟩ := List.lookup_eq_some_iff.1 hh
    exact ⟨ls, by rw [h1]; simp, h⟩

/-- Full statement (C83): from the rewritten graph and the rows of the code table the data graph can be read off, up to the names of the vertices. Proved here for data graphs without equal parallel edges, when every row of a pattern with
edges comes before every row of a pattern of one vertex. Missing: the other orders of rows, for which it is false (`rewrite_order`), and equal parallel edges, which are covered once only (`parallel_edges`). -/
theorem rewrite_lossless_partial (g : DGraph σ) (hnodup : g.edges.Nodup) (hnodes : (g.nodes.map Prod.fst).Nodup) (A B : List (Row σ)) (hA : ∀ r ∈ A, EdgeRow g r)
    (hB : ∀ r ∈ B, VertexRow g r) (nm : Names σ) (hnm : nm.Ok) (m : Marks σ) (hm : History g m) :
    ∃ m' rows' ps, cover g (A ++ B) m = .ok (m', rows', ps) ∧ Rebuilds (rewriteGraph nm ps) nm (A ++ B) g := by
  have hrows : ∀ r ∈ A ++ B, RowOk g r := by
    intro r hr
    rcases List.mem_append.1 hr with h | h
    · exact (hA r h).ok
    · exact (hB r h).ok
  obtain ⟨m', rows', ps, hc, hedges, hlabels, hvert⟩ := cover_partial g hnodup (A ++ B) hrows m hm
  refine ⟨m', rows', ps, hc, ?_⟩
  obtain ⟨r0, h1, h2⟩ := map_ok hc
  obtain ⟨r1, r2, h3, h4, h5, h6⟩ := coverRows_append g A B 0 _ r0 h1
  simp only [Prod.mk.injEq] at h2
  obtain ⟨-, -, h7⟩ := h2
  obtain ⟨M, hM⟩ : ∃ M, M = m.marker + 1 := ⟨_, rfl⟩
  have b1 := bounded_coverRows _ _ _ _ _ h3
  have b2 := bounded_coverRows _ _ _ _ _ h4
  have hr1 : r1.1.marker = M := by rw [b1.marker, hM]
  have hr0 : r0.1.marker = M := by rw [h5, b2.marker, hr1]
  obtain ⟨s2, -, n2, e2⟩ := singleEdges_step g (A ++ B) g.edges (fun _ h => h) r0.1
  obtain ⟨s3, -⟩ := singleNodes_step g.nodes (singleEdges g g.edges r0.1).1
  have hreal : ∀ u v l, Piece.edge u v l ∈ ps → (u, v, l) ∈ g.edges := by
    intro u v l hpc
    rw [← List.count_pos_iff, ← hedges, List.countP_pos_iff]
    exact ⟨_, hpc, by simp [Piece.coversEdge]⟩
  have hfact : ∀ pc ∈ ps, pc.Fact g (A ++ B) (fun x => r1.1.nmark x = M) := by
    intro pc hpc
    have hpc0 := hpc
    rw [← h7, h6] at hpc
    simp only [List.mem_append] at hpc
    rcases hpc with ((hpc | hpc) | hpc) | hpc
    · obtain ⟨j, row, h8, e, he, mk, rfl, hmk, hb⟩ := coverRows_traceA g A (fun r hr => (hA r hr).edges) 0 _ _ h3 pc hpc
      have hrow := hA row (List.mem_of_getElem? h8)
      have hmk : mk.marker = M := hmk.trans hM.symm
      refine ⟨row, ?_, hrow.ok, hrow.ok.embs e he, .inl ⟨hrow.edges, hrow.nodup, List.filter_sublist, ?_⟩⟩
      · rw [Nat.zero_add, List.getElem?_append_left (List.getElem?_eq_some_iff.1 h8).1, h8]
      · intro v a hva hno
        unfold searchPort at hno
        rw [List.mem_filter] at hno
        simp only [hva, true_and, Bool.or_eq_true, decide_eq_true_eq, not_or, Decidable.not_not, Bool.not_eq_true', Bool.not_eq_false] at hno
        refine ⟨hno.1, fun l hl => ?_⟩
        have := hno.2
        unfold allLabelsMarked at this
        rw [List.all_eq_true] at this
        have := of_decide_eq_true (this l hl)
        rw [← hmk]
        exact hb.mono _ this
    · obtain ⟨j, row, h8, v, a, he, rfl, l, -, hl, hnm'⟩ := coverRows_traceB g B (fun r hr => ⟨(hB r hr).edges, fun e he => by
        obtain ⟨a, ls, -, h⟩ := (hB r hr).single
        obtain ⟨v, rfl⟩ := h e he
        exact ⟨_, rfl⟩⟩) _ _ _ h4 pc hpc
      have hrow := hB row (List.mem_of_getElem? h8)
      obtain ⟨a', ls, hs1, hs2⟩ := hrow.single
      obtain ⟨v', hs3⟩ := hs2 _ he
      simp only [List.cons.injEq, and_true, Prod.mk.injEq] at hs3
      obtain ⟨rfl, rfl⟩ := hs3
      rw [hr1] at hnm'
      refine ⟨row, ?_, hrow.ok, hrow.ok.embs _ he, .inr ⟨hrow.edges, v, a, ls, hs1, rfl, rfl, l, hl, hnm'⟩⟩
      rw [Nat.zero_add, List.getElem?_append_right (by omega), Nat.add_sub_cancel_left, h8]
    · obtain ⟨u, v, l, rfl⟩ := e2 pc hpc
      exact hreal u v l hpc0
    · obtain ⟨v, l, rfl⟩ := s3.verts pc hpc
      obtain ⟨ls, hls, hl⟩ := hvert v l hpc0
      refine ⟨by rw [labels_of_mem g hnodes v ls hls]; exact hl, fun hmark => ?_⟩
      have hcount := s3.count (v, l)
      have hpos : 0 < (singleNodes g.nodes (singleEdges g g.edges r0.1).1).2.countP (fun pc => decide (pc = .vertex v l)) := List.countP_pos_iff.2 ⟨_, hpc, by simp⟩
      have hmk2 : (singleEdges g g.edges r0.1).1.marker = M := s2.marker.trans hr0
      rw [n2, hmk2, if_pos] at hcount
      · simp only at hcount
        split at hcount <;> omega
      · rw [h5]
        have := b2.mono (v, l) (hmark.trans hr1.symm)
        rw [this, hr1]
  have hF : Facts g (A ++ B) ps (fun x => r1.1.nmark x = M) := by
    refine ⟨hfact, hedges, hnodup, fun v l hl => ?_⟩
    obtain ⟨ls, hls, hl'⟩ := mem_of_labels g v l hl
    rcases hlabels v ls hls l hl' with ⟨h, -⟩ | ⟨-, h⟩
    · exact .inl h
    · exact .inr (List.count_pos_iff.1 (by omega))
  obtain ⟨L, hL, hR⟩ := rewrite_rep hnm ps
  rw [← hL] at hF
  exact rebuilds_of hnm hR hF

/-! ### Witnesses -/

theorem label_node (p : DGraph σ) (a : ℕ) (h : p.labels a ≠ []) : a ∈ p.nodes.map Prod.fst := by
  obtain ⟨l, hl⟩ := List.exists_mem_of_ne_nil _ h
  obtain ⟨ls, h1, -⟩ := mem_of_labels p a l hl
  exact List.mem_map.2 ⟨_, h1, rfl⟩

/-- A check that the dictionary is an embedding, for graphs that are no multigraphs. -/
theorem isEmbedding_of (g p : DGraph σ) (e : Embedding) (h0 : g.multi = false) (h1 : (e.map Prod.fst).Nodup) (h2 : (e.map Prod.snd).Nodup) (h3 : ∀ x ∈ p.edges, x.1 ∈ e.map Prod.snd ∧ x.2.1 ∈ e.map Prod.snd)
    (h4 : ∀ x ∈ p.edges, ∀ s ∈ e, ∀ t ∈ e, s.2 = x.1 → t.2 = x.2.1 → (s.1, t.1, x.2.2) ∈ g.edges) (h5 : ∀ s ∈ e, ∀ l ∈ p.labels s.2, l ∈ g.labels s.1) : IsEmbedding g p e := by
  refine ⟨h1, h2, fun a b l h => h3 _ h, ?_, fun v a h l hl => h5 _ h l hl⟩
  intro a b l h u v hu hv
  rw [h0]
  exact h4 _ h _ hu _ hv rfl rfl

theorem rowOk_of (g : DGraph σ) (r : Row σ) (h1 : ∀ e ∈ r.embeddings, IsEmbedding g r.pattern e)
    (h2 : r.pattern.edges ≠ [] → ∀ n ∈ r.pattern.nodes.map Prod.fst, r.pattern.labels n ≠ [] → ∃ x ∈ r.pattern.edges, x.1 = n ∨ x.2.1 = n)
    (h3 : r.pattern.edges = [] → ∀ e ∈ r.embeddings, ∀ x ∈ e, r.pattern.labels x.2 ≠ []) : RowOk g r := by
  refine ⟨h1, ?_, h3⟩
  intro hne a ha
  obtain ⟨⟨p, q, l⟩, hx, h | h⟩ := h2 hne a (label_node _ _ ha) ha
  · simp only at h
    subst h
    exact ⟨q, l, .inl hx⟩
  · simp only at h
    subst h
    exact ⟨p, l, .inr hx⟩

/-- Names for the witnesses: labels are below 100. -/
def witnessNames : Names ℕ := ⟨fun i => 100 + 2 * i, fun v => 101 + 2 * v⟩

theorem witnessNames_ok : witnessNames.Ok := ⟨fun i j h => by simp [witnessNames] at h; omega, fun i j h => by simp [witnessNames] at h; omega⟩

/-- A vertex labelled 7 and 8. -/
def twoLabels : DGraph ℕ := ⟨false, [(1, [7, 8])], []⟩

/-- An edge labelled 1 to a vertex labelled 9. -/
def edgeTo : DGraph ℕ := ⟨false, [(1, []), (2, [9])], [(1, 2, 1)]⟩

/-- The vertex labelled 7 and 8 is the start of the edge. -/
def joined : DGraph ℕ := ⟨false, [(1, [7, 8]), (2, [9]), (3, [])], [(1, 2, 1)]⟩

/-- The vertex labelled 7 and 8 is apart from the edge. -/
def apart : DGraph ℕ := ⟨false, [(1, [7, 8]), (2, [9]), (3, [])], [(3, 2, 1)]⟩

def joinedRows : List (Row ℕ) := [⟨twoLabels, [[(1, 1)]], []⟩, ⟨edgeTo, [[(1, 1), (2, 2)]], []⟩]

def apartRows : List (Row ℕ) := [⟨twoLabels, [[(1, 1)]], []⟩, ⟨edgeTo, [[(3, 1), (2, 2)]], []⟩]

theorem joinedRows_ok : ∀ r ∈ joinedRows, RowOk joined r := by
  intro r hr
  simp only [joinedRows, List.mem_cons, List.not_mem_nil, or_false] at hr
  rcases hr with rfl | rfl
  all_goals
    refine rowOk_of _ _ ?_ (by decide) (by decide)
    intro e he
    simp only [List.mem_singleton] at he
    subst he
    exact isEmbedding_of _ _ _ rfl (by decide) (by decide) (by decide) (by decide) (by decide)

theorem apartRows_ok : ∀ r ∈ apartRows, RowOk apart r := by
  intro r hr
  simp only [apartRows, List.mem_cons, List.not_mem_nil, or_false] at hr
  rcases hr with rfl | rfl
  all_goals
    refine rowOk_of _ _ ?_ (by decide) (by decide)
    intro e he
    simp only [List.mem_singleton] at he
    subst he
    exact isEmbedding_of _ _ _ rfl (by decide) (by decide) (by decide) (by decide) (by decide)

/-- C83 is false when a row of one vertex comes first: two data graphs, covered by rows with the same patterns, have the same rewritten graph; in one the vertex labelled 7 starts an edge, in the other no edge starts at a labelled vertex. -/
theorem rewrite_order : joinedRows.map Row.pattern = apartRows.map Row.pattern ∧ (∀ r ∈ joinedRows, RowOk joined r) ∧ (∀ r ∈ apartRows, RowOk apart r) ∧
    (∃ m1 r1 p1 m2 r2 p2, cover joined joinedRows Marks.fresh = .ok (m1, r1, p1) ∧ cover apart apartRows Marks.fresh = .ok (m2, r2, p2) ∧ rewriteGraph witnessNames p1 = rewriteGraph witnessNames p2) ∧
    (∃ x ∈ joined.edges, 7 ∈ joined.labels x.1) ∧ ∀ x ∈ apart.edges, apart.labels x.1 = [] := by
  refine ⟨rfl, joinedRows_ok, apartRows_ok, ?_, by decide, by decide⟩
  obtain ⟨m1, r1, p1, h1, -⟩ := cover_partial joined (by decide) joinedRows joinedRows_ok Marks.fresh .fresh
  obtain ⟨m2, r2, p2, h2, -⟩ := cover_partial apart (by decide) apartRows apartRows_ok Marks.fresh .fresh
  refine ⟨m1, r1, p1, m2, r2, p2, h1, h2, ?_⟩
  have e1 : (cover joined joinedRows Marks.fresh).toOption.map (fun x => x.2.2) = some [.emb 0 [(1, 1)] [(1, 1)], .emb 1 [(1, 1), (2, 2)] []] := by decide +kernel
  have e2 : (cover apart apartRows Marks.fresh).toOption.map (fun x => x.2.2) = some [.emb 0 [(1, 1)] [(1, 1)], .emb 1 [(3, 1), (2, 2)] []] := by decide +kernel
  rw [h1] at e1
  rw [h2] at e2
  have e1 : p1 = _ := Option.some.inj e1
  have e2 : p2 = _ := Option.some.inj e2
  subst e1 e2
  rfl

/-- The hypotheses of `rewrite_lossless_partial` hold for the same data with the rows in the other order, and for a graph with a loop. -/
example : ∃ m' rows' ps, cover joined (joinedRows.drop 1 ++ joinedRows.take 1) Marks.fresh = .ok (m', rows', ps) ∧ Rebuilds (rewriteGraph witnessNames ps) witnessNames (joinedRows.drop 1 ++ joinedRows.take 1) joined := by
  refine rewrite_lossless_partial joined (by decide) (by decide) _ _ ?_ ?_ witnessNames witnessNames_ok Marks.fresh .fresh
  · intro r hr
    have hr : r = ⟨edgeTo, [[(1, 1), (2, 2)]], []⟩ := by simpa [joinedRows] using hr
    exact ⟨joinedRows_ok r (by simp [hr, joinedRows]), by rw [hr]; decide, by rw [hr]; decide⟩
  · intro r hr
    have hr : r = ⟨twoLabels, [[(1, 1)]], []⟩ := by simpa [joinedRows] using hr
    refine ⟨joinedRows_ok r (by simp [hr, joinedRows]), by rw [hr]; rfl, 1, [7, 8], by rw [hr]; rfl, ?_⟩
    intro e he
    rw [hr] at he
    exact ⟨1, by simpa using he⟩

example : ∃ m' rows' ps, cover (⟨false, [(1, [7])], [(1, 1, 3)]⟩ : DGraph ℕ) ([] ++ []) Marks.fresh = .ok (m', rows', ps) ∧
    Rebuilds (rewriteGraph witnessNames ps) witnessNames ([] ++ []) (⟨false, [(1, [7])], [(1, 1, 3)]⟩ : DGraph ℕ) :=
  rewrite_lossless_partial _ (by decide) (by decide) _ _ (by simp) (by simp) witnessNames witnessNames_ok Marks.fresh .fresh

end Verif.Graph
