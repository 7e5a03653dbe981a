import Verif.Graph.DescSums
import Verif.Graph.RewriteProps
import Verif.Graph.NumProps

/-!
# The description of the rewritten graph: properties (C85)
-/

set_option autoImplicit false
set_option linter.unusedSectionVars false

namespace Verif.Graph

variable {σ : Type} [DecidableEq σ] {nm : Names σ}

/-! ## The pieces of a cover -/

theorem coverVerts_emb (g p : DGraph σ) (i : ℕ) (e : Embedding) (L : List (ℕ × ℕ)) (m : Marks σ) (r : Marks σ × List (Piece σ)) (h : coverVerts g p i e L m = .ok r) :
    ∀ pc ∈ r.2, ∃ ports, pc = .emb i e ports ∧ ports.Sublist e := by
  induction L generalizing m r with
  | nil => rw [← Except.ok.inj h]; simp
  | cons x t ih =>
    rw [coverVerts] at h
    split at h
    · cases h
    · split at h
      · cases h
      · split at h
        · exact ih m r h
        · obtain ⟨r1, h5, rfl⟩ := map_ok h
          intro pc hpc
          rcases List.mem_cons.mp hpc with rfl | hpc
          · exact ⟨_, rfl, List.filter_sublist⟩
          · exact ih _ _ h5 pc hpc

theorem coverNodes_emb (g p : DGraph σ) (i : ℕ) (es : List Embedding) (m : Marks σ) (r : Marks σ × List (Piece σ)) (h : coverNodes g p i es m = .ok r) :
    ∀ pc ∈ r.2, ∃ e ∈ es, ∃ ports, pc = .emb i e ports ∧ ports.Sublist e := by
  induction es generalizing m r with
  | nil => rw [← Except.ok.inj h]; simp
  | cons e t ih =>
    obtain ⟨r1, h1, h2⟩ := bind_ok h
    obtain ⟨r2, h3, rfl⟩ := map_ok h2
    intro pc hpc
    rcases List.mem_append.1 hpc with hpc | hpc
    · exact ⟨e, List.mem_cons_self .., coverVerts_emb g p i e e m r1 h1 pc hpc⟩
    · obtain ⟨e', he', hh⟩ := ih _ _ h3 pc hpc
      exact ⟨e', List.mem_cons_of_mem _ he', hh⟩

theorem coverRows_emb (g : DGraph σ) (L : List (Row σ)) (i : ℕ) (m : Marks σ) (r : Marks σ × List (Row σ) × List (Piece σ)) (h : coverRows g i L m = .ok r) :
    ∀ pc ∈ r.2.2, ∃ (j : ℕ) (row : Row σ), L[j]? = some row ∧ ∃ e ∈ row.embeddings, ∃ ports, pc = .emb (i + j) e ports ∧ ports.Sublist e := by
  induction L generalizing i m r with
  | nil => rw [← Except.ok.inj h]; simp
  | cons x t ih =>
    obtain ⟨y, h1, h2⟩ := bind_ok h
    obtain ⟨z, h3, rfl⟩ := map_ok h2
    intro pc hpc
    rcases List.mem_append.1 hpc with hpc | hpc
    · refine ⟨0, x, rfl, ?_⟩
      unfold rowCover at h1
      split at h1
      · obtain ⟨e, he, mk, h4, -⟩ := coverEmbs_trace _ _ _ _ _ _ h1 pc hpc
        exact ⟨e, he, _, h4, List.filter_sublist⟩
      · exact coverNodes_emb _ _ _ _ _ _ h1 pc hpc
    · obtain ⟨j, row, h4, e, he, ports, h5, h6⟩ := ih (i + 1) y.1 z h3 pc hpc
      exact ⟨j + 1, row, h4, e, he, ports, by rw [h5]; congr 1; omega, h6⟩

theorem singleLabels_vertex (v : ℕ) (ls : List σ) (m : Marks σ) : ∀ pc ∈ (singleLabels v ls m).2, ∃ w l, pc = .vertex w l := (singleLabels_step v ls m).1.verts

/-- Every piece of a cover is an embedding of a row with some of its pairs as ports, or a singleton. -/
theorem cover_pieces (g : DGraph σ) (rows : List (Row σ)) (m : Marks σ) (r : Marks σ × List (Row σ) × List (Piece σ)) (h : cover g rows m = .ok r) :
    ∀ pc ∈ r.2.2, (∃ (i : ℕ) (row : Row σ), rows[i]? = some row ∧ ∃ e ∈ row.embeddings, ∃ ports, pc = .emb i e ports ∧ ports.Sublist e) ∨ (∃ u v l, pc = .edge u v l) ∨ (∃ v l, pc = .vertex v l) := by
  obtain ⟨x, h1, rfl⟩ := map_ok h
  intro pc hpc
  rcases List.mem_append.mp hpc with hpc | hpc
  · rcases List.mem_append.mp hpc with hpc | hpc
    · obtain ⟨j, row, h4, e, he, ports, h5, h6⟩ := coverRows_emb g rows 0 _ x h1 pc hpc
      exact .inl ⟨j, row, h4, e, he, ports, by rw [h5]; congr 1; omega, h6⟩
    · exact .inr (.inl ((singleEdges_step g rows g.edges (fun _ h => h) x.1).2.2.2 pc hpc))
  · exact .inr (.inr ((singleNodes_step g.nodes (singleEdges g g.edges x.1).1).1.verts pc hpc))

/-! ## C85 -/

/-- Symbols for a message exist. -/
theorem alphabet_exists (ps : List (Piece σ)) : ∃ A : Alphabet σ, A.Of ps :=
  ⟨⟨(ps.map Piece.kind).dedup, (destinations ps).dedup, fun k => (labelsOf ps k).dedup⟩,
    ⟨⟨List.nodup_dedup _, fun k => by simp⟩, ⟨List.nodup_dedup _, fun v => by simp⟩, fun k => ⟨List.nodup_dedup _, fun a => by simp⟩⟩⟩

theorem Alphabet.rows_eq (A : Alphabet σ) : A.rows = A.kinds.filterMap PKind.row? := by
  unfold Alphabet.rows
  congr 1

theorem universalInt0_ok (n : ℕ) : ∃ a, universalInt0 n = .ok a := by
  obtain ⟨a, _, h, -⟩ := universalInt0_monotone n n le_rfl
  exact ⟨a, h⟩

/-- C85. After a cover, whatever was covered before, the description of the rewritten graph is computed, and it is the length of a message for the rewritten graph up to one term per row in use: where the message codes how often each
pattern vertex is a port, the code takes the numbers of these pattern vertices (`w i`). The graph has no loops, and no label and no row name is the name of a vertex. -/
theorem rewrite_description (g : DGraph σ) (hnodup : g.edges.Nodup) (hloop : ∀ x ∈ g.edges, x.1 ≠ x.2.1) (hsome : g.edges ≠ [] ∨ ∃ n ∈ g.nodes, n.2 ≠ []) (rows : List (Row σ)) (hrows : ∀ r ∈ rows, RowOk g r)
    (hnm : nm.Ok) (hname : ∀ v, (∀ i, nm.row i ≠ nm.vertex v) ∧ (∀ x ∈ g.edges, x.2.2 ≠ nm.vertex v) ∧ ∀ n ∈ g.nodes, ∀ l ∈ n.2, l ≠ nm.vertex v) (m : Marks σ) (hm : History g m) :
    ∃ m' rows' ps a, cover g rows m = .ok (m', rows', ps) ∧ universalInt0 ps.length = .ok a ∧ (∃ A : Alphabet σ, A.Of ps) ∧ ∀ A : Alphabet σ, A.Of ps → ∀ w : ℕ → ℝ, (∀ i, prequential (A.labels (.row i)) (1 / 2) = .ok (w i)) →
      rewriteDesc rows.length ps (rewriteGraph nm ps) = .ok (messageBits a A ps + (A.rows.map (fun i => w i - plugIn (A.labels (.row i)) (1 / 2) [] (labelsOf ps (.row i)))).sum) := by
  obtain ⟨m', rows', ps, hc, hedge, hlab, hreal⟩ := cover_partial g hnodup rows hrows m hm
  obtain ⟨a, ha⟩ := universalInt0_ok ps.length
  have hpc := cover_pieces g rows m _ hc
  have hreale : ∀ u v l, Piece.edge u v l ∈ ps → (u, v, l) ∈ g.edges := by
    intro u v l h
    have h1 : 0 < ps.countP (fun pc => pc.coversEdge rows (u, v, l)) := List.countP_pos_iff.mpr ⟨_, h, by simp [Piece.coversEdge]⟩
    rw [hedge] at h1
    exact List.count_pos_iff.mp h1
  refine ⟨m', rows', ps, a, hc, ha, alphabet_exists ps, fun A hA w hw => ?_⟩
  have hne : ps ≠ [] := by
    rintro rfl
    rcases hsome with h | ⟨⟨v, ls⟩, h1, h2⟩
    · obtain ⟨x, hx⟩ := List.exists_mem_of_ne_nil _ h
      have := hedge x
      rw [List.count_eq_one_of_mem hnodup hx] at this
      simp at this
    · obtain ⟨l, hl⟩ := List.exists_mem_of_ne_nil _ h2
      rcases hlab v ls h1 l hl with ⟨⟨pc, hpc, -⟩, -⟩ | ⟨-, h⟩ <;> simp_all
  rw [rewriteDesc_eq hnm rows.length ps hne ?_ ?_ ?_ A hA a ha, A.rows_eq]
  · congr 4
    funext i
    have := hw i
    rw [prequential_pv] at this
    rw [Except.ok.inj this]
  · intro pc h i hk
    rcases hpc pc h with ⟨j, row, h1, e, he, ports, rfl, -⟩ | ⟨u, v, l, rfl⟩ | ⟨v, l, rfl⟩
    · have : j = i := by simpa [Piece.kind] using hk
      subst this
      exact (List.getElem?_eq_some_iff.mp h1).1
    · cases hk
    · cases hk
  · intro pc h
    rcases hpc pc h with ⟨j, row, h1, e, he, ports, rfl, hs⟩ | ⟨u, v, l, rfl⟩ | ⟨v, l, rfl⟩
    · exact List.Nodup.sublist (hs.map _) ((hrows row (List.mem_of_getElem? h1)).embs e he).keys
    · have := hloop _ (hreale u v l h)
      simpa [Piece.ports] using this
    · simp [Piece.ports]
  · intro pc h v'
    rcases hpc pc h with ⟨j, row, h1, e, he, ports, rfl, hs⟩ | ⟨u, v, l, rfl⟩ | ⟨v, l, rfl⟩
    · exact (hname v').1 j
    · exact (hname v').2.1 _ (hreale u v l h)
    · obtain ⟨ls, h1, h2⟩ := hreal v l h
      exact (hname v').2.2 _ h1 l h2

/-- Full statement: the description of the rewritten graph is the length of a message for it. Proved here when no row in use has two pattern vertices that are ports (in particular when no row is in use). Missing: otherwise the
numbers of the pattern vertices are taken for counts, see `labels_not_counted` and `port_names_matter`. -/
theorem rewrite_description_partial (g : DGraph σ) (hnodup : g.edges.Nodup) (hloop : ∀ x ∈ g.edges, x.1 ≠ x.2.1) (hsome : g.edges ≠ [] ∨ ∃ n ∈ g.nodes, n.2 ≠ []) (rows : List (Row σ)) (hrows : ∀ r ∈ rows, RowOk g r)
    (hnm : nm.Ok) (hname : ∀ v, (∀ i, nm.row i ≠ nm.vertex v) ∧ (∀ x ∈ g.edges, x.2.2 ≠ nm.vertex v) ∧ ∀ n ∈ g.nodes, ∀ l ∈ n.2, l ≠ nm.vertex v) (m : Marks σ) (hm : History g m)
    (m' : Marks σ) (rows' : List (Row σ)) (ps : List (Piece σ)) (hc : cover g rows m = .ok (m', rows', ps)) (hone : ∀ i, ∀ a ∈ labelsOf ps (.row i), ∀ b ∈ labelsOf ps (.row i), a = b)
    (A : Alphabet σ) (hA : A.Of ps) : ∃ a, universalInt0 ps.length = .ok a ∧ rewriteDesc rows.length ps (rewriteGraph nm ps) = .ok (messageBits a A ps) := by
  obtain ⟨m1, r1, p1, a, h1, h2, -, h4⟩ := rewrite_description g hnodup hloop hsome rows hrows hnm hname m hm
  rw [hc] at h1
  obtain ⟨-, -, rfl⟩ : m' = m1 ∧ rows' = r1 ∧ ps = p1 := by simpa using Except.ok.inj h1
  refine ⟨a, h2, ?_⟩
  rw [h4 A hA _ (fun i => prequential_pv _), List.sum_eq_zero, add_zero]
  intro x hx
  obtain ⟨i, -, rfl⟩ := List.mem_map.mp hx
  have hlen : (A.labels (.row i)).length ≤ 1 := by
    by_contra hlt
    obtain ⟨x, y, t, e⟩ : ∃ x y t, A.labels (.row i) = x :: y :: t := by
      rcases h : A.labels (.row i) with _ | ⟨x, _ | ⟨y, t⟩⟩ <;> simp_all
    have hn := (hA.labels (.row i)).1
    rw [e] at hn
    have hx := ((hA.labels (.row i)).2 x).mp (by simp [e])
    have hy := ((hA.labels (.row i)).2 y).mp (by simp [e])
    have := hone i x hx y hy
    subst this
    simp at hn
  rw [plugIn_pv _ (hA.labels _).1 _ (labelsOf_mem hA _), pv_short _ hlen, pv_short _ (by simpa using hlen), sub_zero]

/-! ### Witnesses -/

theorem pathNames : ∀ v, (∀ i, witnessNames.row i ≠ witnessNames.vertex v) ∧ (∀ x ∈ pathGraph.edges, x.2.2 ≠ witnessNames.vertex v) ∧ ∀ n ∈ pathGraph.nodes, ∀ l ∈ n.2, l ≠ witnessNames.vertex v := by
  intro v
  refine ⟨fun i => by simp [witnessNames]; omega, ?_, ?_⟩
  · intro x hx
    simp only [pathGraph, List.mem_cons, List.not_mem_nil, or_false] at hx
    rcases hx with rfl | rfl <;> simp [witnessNames] <;> omega
  · intro n hn l hl
    simp only [pathGraph, List.mem_cons, List.not_mem_nil, or_false] at hn
    rcases hn with rfl | rfl | rfl <;> simp at hl <;> subst hl <;> simp [witnessNames] <;> omega

theorem rewriteDesc_val (n : ℕ) (ps : List (Piece σ)) (rg : RGraph σ) (a : ℕ) (hne : rg.nodes ≠ []) (ha : universalInt0 ((rg.nodes.filter (fun x => x.isPattern)).length : ℕ) = .ok a) :
    rewriteDesc n ps rg = .ok (a + Real.logb 2 ((rg.nodes.filter (fun x => !x.isPattern)).length + 1) + edgesPerVertex n ps + pv ((usedRows n ps).map (rowUsage ps) ++ (vertexUsage ps).map Prod.snd ++ (edgeUsage ps).map Prod.snd) +
      pv rg.portDegrees + ((edgesLabel n ps).map pv).sum) := by
  unfold rewriteDesc
  rw [if_neg hne, ha]
  change ((prequential _ _).bind _) = _
  rw [prequential_pv]
  change ((prequential _ _).bind _) = _
  rw [prequential_pv]
  change (Except.bind (List.mapM _ _) _) = _
  rw [mapM_pv]
  rfl

/-- The pieces of the path covered by its row: the middle vertex is a port of both, as second and as first vertex of the pattern. -/
def pathPieces : List (Piece ℕ) := [.emb 0 [(0, 1), (1, 2)] [(1, 2)], .emb 0 [(1, 1), (2, 2)] [(1, 1)]]

theorem pv_21 : pv [2, 1] = 4 := by
  have : pv [2, 1] = Real.logb 2 16 := by
    simp only [pv, rise, List.length_cons, List.length_nil, List.sum_cons, List.sum_nil, List.map_cons, List.map_nil]
    norm_num
    have h0 : Real.logb 2 (1 / 2) = -1 := by rw [one_div, Real.logb_inv]; simp
    have h1 : Real.logb 2 (3 / 2) = Real.logb 2 3 - 1 := by rw [Real.logb_div (by norm_num) (by norm_num)]; simp
    rw [h0, h1, show (16 : ℝ) = 2 ^ (4 : ℕ) by norm_num, Real.logb_pow]
    simp
    ring
  rw [this, show (16 : ℝ) = 2 ^ (4 : ℕ) by norm_num, Real.logb_pow]
  simp

theorem pv_11 : pv [1, 1] = 3 := by
  simp only [pv, rise, List.length_cons, List.length_nil, List.sum_cons, List.sum_nil, List.map_cons, List.map_nil]
  norm_num
  rw [show Real.logb 2 (1 / 2) = -1 by rw [one_div, Real.logb_inv]; simp]
  norm_num

/-- C85 is false: on a path of two edges covered by two embeddings of an edge, the reported description is one bit longer than the message, although everything is read from the same cover. -/
theorem labels_not_counted : RowOk pathGraph pathRow ∧ (cover pathGraph [pathRow] Marks.fresh).toOption.map (fun x => x.2.2) = some pathPieces ∧
    ∀ A : Alphabet ℕ, A.Of pathPieces → ∃ a, universalInt0 pathPieces.length = .ok a ∧ rewriteDesc 1 pathPieces (rewriteGraph witnessNames pathPieces) = .ok (messageBits a A pathPieces + 1) := by
  refine ⟨pathRow_ok, by decide +kernel, fun A hA => ?_⟩
  obtain ⟨a, ha⟩ := universalInt0_ok pathPieces.length
  refine ⟨a, ha, ?_⟩
  rw [rewriteDesc_eq witnessNames_ok 1 pathPieces (by decide) ?_ (by decide) ?_ A hA a ha]
  · have hk : A.kinds.Perm [.row 0] := (List.perm_ext_iff_of_nodup hA.kinds.1 (by decide)).mpr (fun k => by
      rw [hA.kinds.2]
      simp [pathPieces, Piece.kind, eq_comm])
    have hl : (A.labels (.row 0)).Perm [2, 1] := (List.perm_ext_iff_of_nodup (hA.labels _).1 (by decide)).mpr (fun k => by
      rw [(hA.labels _).2]
      rfl)
    rw [((hk.filterMap PKind.row?).map _).sum_eq]
    simp only [List.filterMap_cons, PKind.row?, List.filterMap_nil, List.map_cons, List.map_nil, List.sum_cons, List.sum_nil, add_zero]
    rw [plugIn_pv _ (hA.labels _).1 _ (labelsOf_mem hA _), pv_perm (hl.map _), pv_perm hl]
    rw [show ([2, 1] : List ℕ).map (fun a => (labelsOf pathPieces (.row 0)).count a) = [1, 1] by decide, pv_21, pv_11]
    norm_num
  · intro pc hpc i hi
    simp only [pathPieces, List.mem_cons, List.not_mem_nil, or_false] at hpc
    rcases hpc with rfl | rfl <;> simp [Piece.kind] at hi <;> omega
  · intro pc hpc v
    simp only [pathPieces, List.mem_cons, List.not_mem_nil, or_false] at hpc
    rcases hpc with rfl | rfl <;> simp [Piece.node, witnessNames] <;> omega

/-- The same pattern with its vertices numbered 1 and 3. -/
def renamedRow : Row ℕ := ⟨⟨false, [(1, [9]), (3, [9])], [(1, 3, 1)]⟩, [[(0, 1), (1, 3)], [(1, 1), (2, 3)]], []⟩

theorem renamedRow_ok : RowOk pathGraph renamedRow := by
  refine rowOk_of _ _ ?_ (by decide) (by decide)
  intro e he
  simp only [renamedRow, List.mem_cons, List.not_mem_nil, or_false] at he
  rcases he with rfl | rfl <;> exact isEmbedding_of _ _ _ rfl (by decide) (by decide) (by decide) (by decide) (by decide)

def renamedPieces : List (Piece ℕ) := [.emb 0 [(0, 1), (1, 3)] [(1, 3)], .emb 0 [(1, 1), (2, 3)] [(1, 1)]]

theorem pv_31 : 4 < pv [3, 1] := by
  have h1 : Real.logb 2 4 = 2 := by rw [show (4 : ℝ) = 2 ^ (2 : ℕ) by norm_num, Real.logb_pow]; simp
  have h2 : Real.logb 2 (3 / 2) = Real.logb 2 3 - 1 := by rw [Real.logb_div (by norm_num) (by norm_num)]; simp
  have h3 : Real.logb 2 (5 / 2) = Real.logb 2 5 - 1 := by rw [Real.logb_div (by norm_num) (by norm_num)]; simp
  have h4 : Real.logb 2 5 < 3 := by
    rw [show (3 : ℝ) = Real.logb 2 8 by rw [show (8 : ℝ) = 2 ^ (3 : ℕ) by norm_num, Real.logb_pow]; simp]
    exact Real.logb_lt_logb (by norm_num) (by norm_num) (by norm_num)
  simp only [pv, rise, List.length_cons, List.length_nil, List.sum_cons, List.sum_nil, List.map_cons, List.map_nil]
  norm_num
  rw [h1, h2, h3, show Real.logb 2 (1 / 2) = -1 by rw [one_div, Real.logb_inv]; simp]
  linarith

/-- The numbers given to the vertices of a pattern change the description: the same path covered by the same embeddings of the same edge costs more when the second vertex is called 3. -/
theorem port_names_matter : RowOk pathGraph pathRow ∧ RowOk pathGraph renamedRow ∧ (cover pathGraph [pathRow] Marks.fresh).toOption.map (fun x => x.2.2) = some pathPieces ∧
    (cover pathGraph [renamedRow] Marks.fresh).toOption.map (fun x => x.2.2) = some renamedPieces ∧
    ∃ x y, rewriteDesc 1 pathPieces (rewriteGraph witnessNames pathPieces) = .ok x ∧ rewriteDesc 1 renamedPieces (rewriteGraph witnessNames renamedPieces) = .ok y ∧ x < y := by
  refine ⟨pathRow_ok, renamedRow_ok, by decide +kernel, by decide +kernel, ?_⟩
  obtain ⟨a, ha⟩ := universalInt0_ok 2
  refine ⟨_, _, rewriteDesc_val 1 pathPieces (rewriteGraph witnessNames pathPieces) a (by decide) ha, rewriteDesc_val 1 renamedPieces (rewriteGraph witnessNames renamedPieces) a (by decide) ha, ?_⟩
  have e1 : edgesPerVertex 1 pathPieces = edgesPerVertex 1 renamedPieces := rfl
  rw [e1, show edgesLabel 1 pathPieces = [[2, 1]] by decide, show edgesLabel 1 renamedPieces = [[3, 1]] by decide]
  change _ + pv _ + pv (rewriteGraph witnessNames pathPieces).portDegrees + _ < _ + pv _ + pv (rewriteGraph witnessNames renamedPieces).portDegrees + _
  rw [show (rewriteGraph witnessNames pathPieces).portDegrees = [2] by decide, show (rewriteGraph witnessNames renamedPieces).portDegrees = [2] by decide]
  simp only [List.map_cons, List.map_nil, List.sum_cons, List.sum_nil, add_zero]
  rw [pv_21]
  refine add_lt_add_of_le_of_lt (le_of_eq ?_) pv_31
  rfl

/-- The hypotheses of `rewrite_description` hold for the path and its row. -/
example : ∃ m' rows' ps, cover pathGraph [pathRow] Marks.fresh = .ok (m', rows', ps) ∧ ∃ x, rewriteDesc 1 ps (rewriteGraph witnessNames ps) = .ok x := by
  obtain ⟨m', rows', ps, a, h1, -, ⟨A, hA⟩, h3⟩ := rewrite_description pathGraph (by decide) (by decide) (by decide) [pathRow] (by intro r hr; rw [List.mem_singleton] at hr; subst hr; exact pathRow_ok) witnessNames_ok pathNames Marks.fresh .fresh
  exact ⟨m', rows', ps, h1, _, h3 A hA _ (fun i => prequential_pv _)⟩

/-- The hypotheses of `rewrite_description_partial` hold for the path without rows: two edge singletons, three vertex singletons. -/
example : ∃ ps : List (Piece ℕ), ps.length = 5 ∧ ∀ A : Alphabet ℕ, A.Of ps → ∃ a, rewriteDesc 0 ps (rewriteGraph witnessNames ps) = .ok (messageBits a A ps) := by
  obtain ⟨m', rows', ps, h1, -⟩ := cover_partial pathGraph (by decide) [] (by simp) Marks.fresh .fresh
  have e1 : (cover pathGraph [] Marks.fresh).toOption.map (fun x => x.2.2) = some [.edge 0 1 1, .edge 1 2 1, .vertex 0 9, .vertex 1 9, .vertex 2 9] := by decide +kernel
  rw [h1] at e1
  have e1 : ps = _ := Option.some.inj e1
  refine ⟨ps, by rw [e1]; rfl, fun A hA => ?_⟩
  obtain ⟨a, -, h⟩ := rewrite_description_partial pathGraph (by decide) (by decide) (by decide) [] (by simp) witnessNames_ok pathNames Marks.fresh .fresh m' rows' ps h1 (by
    intro i a ha
    rw [e1] at ha
    simp [labelsOf, Piece.kind] at ha) A hA
  exact ⟨a, h⟩

end Verif.Graph
