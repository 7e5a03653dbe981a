import Verif.Graph.VertexGen
import Verif.Graph.OccWitness

/-!
# The numbers of the vertices of a data graph: property C136
-/

set_option autoImplicit false
set_option linter.unusedSectionVars false

namespace Verif.Graph

variable {σ : Type} [DecidableEq σ]

/-! ## Labels and support -/

/-- The code lengths of labels do not depend on the numbers of vertices. -/
theorem label_codes_renamed (f : ℕ → ℕ) (d : LGraph σ) : labelCodes (d.renamed f) = labelCodes d := by
  have h1 : countVertex (d.renamed f) = countVertex d := by simp [countVertex, LGraph.renamed, List.map_map, Function.comp_def]
  have h2 : countEdge (d.renamed f) = countEdge d := by simp [countEdge, LGraph.renamed, List.map_map, Function.comp_def]
  unfold labelCodes totalLabel
  rw [h1, h2]

theorem addImage_renamed {f : ℕ → ℕ} (hf : Function.Injective f) (acc : List (ℕ × List ℕ)) (i : ℕ × ℕ) :
    addImage (acc.map (fun x => (x.1, x.2.map f))) (f i.1, i.2) = (addImage acc i).map (fun x => (x.1, x.2.map f)) := by
  induction acc with
  | nil => rfl
  | cons x t ih =>
    obtain ⟨p, s⟩ := x
    rw [List.map_cons, addImage, addImage]
    simp only
    split
    · rw [List.map_cons]
      congr 1
      simp only [Prod.mk.injEq, true_and]
      have : f i.1 ∈ s.map f ↔ i.1 ∈ s := by simp [hf.eq_iff]
      simp only [this]
      split <;> simp
    · rw [List.map_cons, ih]

/-- The support of a pattern does not depend on the numbers of vertices. -/
theorem support_renamed {f : ℕ → ℕ} (hf : Function.Injective f) (es : List Embedding) : getSupport (es.map (Embedding.renamed f)) = getSupport es := by
  have key : ∀ (L : List (ℕ × ℕ)) (acc : List (ℕ × List ℕ)), (L.map (fun x => (f x.1, x.2))).foldl addImage (acc.map (fun x => (x.1, x.2.map f))) = (L.foldl addImage acc).map (fun x => (x.1, x.2.map f)) := by
    intro L
    induction L with
    | nil => intro acc; rfl
    | cons i t ih => intro acc; rw [List.map_cons, List.foldl_cons, List.foldl_cons, addImage_renamed hf, ih]
  have h1 : (es.map (Embedding.renamed f)).flatten = es.flatten.map (fun x => (f x.1, x.2)) := by
    rw [List.map_flatten]; rfl
  have h2 := key es.flatten []
  rw [List.map_nil] at h2
  unfold getSupport
  rw [h1, h2]
  simp [List.map_map, Function.comp_def]

/-! ## The search -/

theorem tableRows_renamed (f : ℕ → ℕ) (emb : LGraph σ → List Embedding) (pats : List (LGraph σ)) : tableRows (embRenamed f emb) pats = (tableRows emb pats).map (Row.renamed f) := by
  simp [tableRows, embRenamed, Row.renamed, List.map_map, Function.comp_def]

theorem piece_apart {nm : Names σ} {d : LGraph σ} (hap : NamesApart nm d) {rows : List (Row σ)} {m : Marks σ} {r : Marks σ × List (Row σ) × List (Piece σ)} (h : cover d.view rows m = .ok r) :
    ∀ pc ∈ r.2.2, ∀ v, (pc.node nm).label ≠ nm.vertex v := by
  obtain ⟨h1, h2⟩ := cover_uses _ _ _ _ h
  intro pc hpc v
  cases pc with
  | emb i e ports => exact hap.rows i v
  | edge u w l => exact hap.vertex v l (h1 u w l hpc)
  | vertex w l => exact hap.vertex v l (h2 w l hpc)

/-- The cover of the data with other vertices by the same table. -/
theorem cover_for {f : ℕ → ℕ} (hf : Function.Injective f) (emb : LGraph σ → List Embedding) (d : LGraph σ) (pats : List (LGraph σ)) :
    Lift (fun x y => y.2.2 = x.2.2.map (Piece.renamed f)) (cover d.view (tableRows emb pats) Marks.fresh) (cover (d.renamed f).view (tableRows (embRenamed f emb) pats) Marks.fresh) := by
  have h := cover_renamed hf d.view (tableRows emb pats) (m := Marks.fresh) (n := Marks.fresh) ⟨rfl, fun _ _ _ => rfl, fun _ _ => rfl⟩
  rw [← tableRows_renamed, ← view_renamed] at h
  cases h1 : cover d.view (tableRows emb pats) Marks.fresh <;> cases h2 : cover (d.renamed f).view (tableRows (embRenamed f emb) pats) Marks.fresh <;> rw [h1, h2] at h
  · exact h
  · exact h.elim
  · exact h.elim
  · exact h.2.2

/-- The total description length of a table does not depend on the numbers of vertices. -/
theorem total_length_renamed {f : ℕ → ℕ} (hf : Function.Injective f) {nm : Names σ} (hnm : nm.Ok) (d : LGraph σ) (hap : NamesApart nm d) (blank : σ → Bool) (t : LabelTable σ) (emb : LGraph σ → List Embedding) (pats : List (LGraph σ)) :
    totalLength blank t nm (embRenamed f emb) (d.renamed f) pats = totalLength blank t nm emb d pats := by
  have h := cover_for hf emb d pats
  unfold totalLength
  cases h1 : cover d.view (tableRows emb pats) Marks.fresh with
  | error s =>
    cases h2 : cover (d.renamed f).view (tableRows (embRenamed f emb) pats) Marks.fresh with
    | error s' => rw [h1, h2] at h; cases h; rfl
    | ok y => rw [h1, h2] at h; exact h.elim
  | ok x =>
    obtain ⟨y, h2, h3⟩ := h.ok_left h1
    simp only [h2, Except.bind]
    rw [h3, tableDescription_renamed, rewriteDesc_for (rewriteGraph_for hnm hf x.2.2 (piece_apart hap h1))]

/-- The usage of a row does not depend on the numbers of vertices. -/
theorem usage_renamed {f : ℕ → ℕ} (hf : Function.Injective f) (d : LGraph σ) (emb : LGraph σ → List Embedding) (pats : List (LGraph σ)) (i : ℕ) :
    (cover (d.renamed f).view (tableRows (embRenamed f emb) pats) Marks.fresh).map (fun x => rowUsage x.2.2 i) = (cover d.view (tableRows emb pats) Marks.fresh).map (fun x => rowUsage x.2.2 i) := by
  have h := cover_for hf emb d pats
  cases h1 : cover d.view (tableRows emb pats) Marks.fresh with
  | error s =>
    cases h2 : cover (d.renamed f).view (tableRows (embRenamed f emb) pats) Marks.fresh with
    | error s' => rw [h1, h2] at h; cases h; rfl
    | ok y => rw [h1, h2] at h; exact h.elim
  | ok x =>
    obtain ⟨y, h2, h3⟩ := h.ok_left h1
    rw [h2]
    simp only [Except.map, h3, rowUsage_renamed]

/-- The candidates generated from the cover by a table do not depend on the numbers of vertices, whatever was covered before. -/
theorem candidates_renamed {f : ℕ → ℕ} (hf : Function.Injective f) {nm : Names σ} (hnm : nm.Ok) (d : LGraph σ) (hap : NamesApart nm d) (emb : LGraph σ → List Embedding) (pats : List (LGraph σ)) (genv : GenEnv σ) (hg : genv.Ok)
    (res : Except String (List (GCand σ))) :
    (∃ m r, History d.view m ∧ cover d.view (tableRows emb pats) m = .ok r ∧ generate genv (rewriteGraph nm r.2.2) = res) ↔
      ∃ m r, History (d.renamed f).view m ∧ cover (d.renamed f).view (tableRows (embRenamed f emb) pats) m = .ok r ∧ generate genv (rewriteGraph nm r.2.2) = res := by
  have toFresh : ∀ (g : DGraph σ) (rows : List (Row σ)) (m : Marks σ) (r : Marks σ × List (Row σ) × List (Piece σ)), History g m → cover g rows m = .ok r → ∃ r', cover g rows Marks.fresh = .ok r' ∧ r'.2.2 = r.2.2 := by
    intro g rows m r hm hr
    have := cover_history g rows m Marks.fresh hm .fresh
    rw [hr] at this
    cases h : cover g rows Marks.fresh with
    | error s => rw [h] at this; cases this
    | ok r' =>
      rw [h] at this
      simp only [Except.map, Except.ok.injEq] at this
      exact ⟨r', rfl, by rw [this]⟩
  constructor
  · rintro ⟨m, r, hm, hr, h⟩
    obtain ⟨x, h1, h2⟩ := toFresh _ _ _ _ hm hr
    obtain ⟨y, h3, h4⟩ := (cover_for hf emb d pats).ok_left h1
    refine ⟨Marks.fresh, y, .fresh, h3, ?_⟩
    rw [h4, generate_same (readsSame_of (rewriteGraph_for hnm hf x.2.2 (piece_apart hap h1))) genv hg, h2, h]
  · rintro ⟨m, r, hm, hr, h⟩
    obtain ⟨y, h1, h2⟩ := toFresh _ _ _ _ hm hr
    obtain ⟨x, h3, h4⟩ := (cover_for hf emb d pats).ok_right h1
    refine ⟨Marks.fresh, x, .fresh, h3, ?_⟩
    rw [← h, ← h2, h4, generate_same (readsSame_of (rewriteGraph_for hnm hf x.2.2 (piece_apart hap h3))) genv hg]

/-- C136: with other numbers for the vertices, and the embeddings of every pattern listed in the same order, the search is the same one: the same lengths, usages, orders of rows and candidates, and so the same table and the same
patterns. No label is the name of a vertex or of a row, vertices have different names. -/
theorem vertex_numbers_partial {f : ℕ → ℕ} (hf : Function.Injective f) {nm : Names σ} (hnm : nm.Ok) (d : LGraph σ) (hap : NamesApart nm d) (blank : σ → Bool) (t : LabelTable σ) (emb : LGraph σ → List Embedding) (env : SEnv (Tried σ) ℝ) :
    WholeSearch blank t nm emb d env ↔ WholeSearch blank t nm (embRenamed f emb) (d.renamed f) env := by
  have hgen : ∀ (s : SState (Tried σ) ℝ) (c : Tried σ), (∃ pats m r genv cs, pats.Perm (patsOf s.rows) ∧ History d.view m ∧ cover d.view (tableRows emb pats) m = .ok r ∧ genv.Ok ∧
        generate genv (rewriteGraph nm r.2.2) = .ok cs ∧ c.cand ∈ cs ∧ finalPattern (patsOf s.rows) c.cand = .ok c.pattern) ↔
      ∃ pats m r genv cs, pats.Perm (patsOf s.rows) ∧ History (d.renamed f).view m ∧ cover (d.renamed f).view (tableRows (embRenamed f emb) pats) m = .ok r ∧ genv.Ok ∧
        generate genv (rewriteGraph nm r.2.2) = .ok cs ∧ c.cand ∈ cs ∧ finalPattern (patsOf s.rows) c.cand = .ok c.pattern := by
    intro s c
    constructor
    · rintro ⟨pats, m, r, genv, cs, h1, h2, h3, h4, h5, h6, h7⟩
      obtain ⟨m', r', h8, h9, h10⟩ := (candidates_renamed hf hnm d hap emb pats genv h4 (.ok cs)).1 ⟨m, r, h2, h3, h5⟩
      exact ⟨pats, m', r', genv, cs, h1, h8, h9, h4, h10, h6, h7⟩
    · rintro ⟨pats, m, r, genv, cs, h1, h2, h3, h4, h5, h6, h7⟩
      obtain ⟨m', r', h8, h9, h10⟩ := (candidates_renamed hf hnm d hap emb pats genv h4 (.ok cs)).2 ⟨m, r, h2, h3, h5⟩
      exact ⟨pats, m', r', genv, cs, h1, h8, h9, h4, h10, h6, h7⟩
  constructor
  · rintro ⟨⟨h1, h2, h3⟩, h4, h5⟩
    refine ⟨⟨fun rows => ?_, h2, fun s c hc => (hgen s c).1 (h3 s c hc)⟩, fun c => ?_, fun rows r => ?_⟩
    · rw [h1, total_length_renamed hf hnm d hap]
    · rw [h4, embRenamed, support_renamed hf]
    · rw [h5, usage_renamed hf]
  · rintro ⟨⟨h1, h2, h3⟩, h4, h5⟩
    refine ⟨⟨fun rows => ?_, h2, fun s c hc => (hgen s c).2 (h3 s c hc)⟩, fun c => ?_, fun rows r => ?_⟩
    · rw [h1, total_length_renamed hf hnm d hap]
    · rw [h4, embRenamed, support_renamed hf]
    · rw [h5, usage_renamed hf]

/-! ## Witnesses -/

/-- Edges from 1 to 2 and from 2 to 3. The label of the first edge is the name of the vertex 2. -/
def vertexNamed : LGraph ℕ := ⟨[(1, .none), (2, .none), (3, .none)], [(1, 2, .str 105), (2, 3, .str 7)]⟩

/-- The vertex 2 becomes the vertex 4, and 4 becomes 2. -/
def swap24 (v : ℕ) : ℕ := if v = 2 then 4 else if v = 4 then 2 else v

theorem swap24_injective : Function.Injective swap24 := by
  intro a b h
  unfold swap24 at h
  split_ifs at h <;> omega

/-- C136 is false when a label of the data is the name of a vertex: there is no candidate, and with another number for the vertex there is one. -/
theorem label_named_vertex : vertexNamed.view.Uses (witnessNames.vertex 2) ∧ ∃ env, GenEnv.Ok env ∧
    (∃ r, cover vertexNamed.view [] Marks.fresh = .ok r ∧ env.For witnessNames [] r.2.2 ∧ generate env (rewriteGraph witnessNames r.2.2) = .ok []) ∧
    ∃ r c, cover (vertexNamed.renamed swap24).view [] Marks.fresh = .ok r ∧ env.For witnessNames [] r.2.2 ∧ generate env (rewriteGraph witnessNames r.2.2) = .ok [c] := by
  refine ⟨.inr ⟨1, 2, by decide⟩, _, witnessEnv_ok 0 [105, 7] [], ?_, ?_⟩
  · obtain ⟨m', rows', ps, h1, -⟩ := cover_partial vertexNamed.view (by decide) [] (by simp) Marks.fresh .fresh
    have e1 : (cover vertexNamed.view [] Marks.fresh).toOption.map (fun x => x.2.2) = some [.edge 1 2 105, .edge 2 3 7] := by decide +kernel
    rw [h1] at e1
    have e1 : ps = _ := Option.some.inj e1
    subst e1
    have hg : generate (witnessEnv 0 [105, 7] []) (rewriteGraph witnessNames [.edge 1 2 105, .edge 2 3 7]) = .ok [] := toOption_ok (by decide +kernel)
    exact ⟨_, h1, witnessEnv_for [] [.edge 1 2 105, .edge 2 3 7], hg⟩
  · obtain ⟨m', rows', ps, h1, -⟩ := cover_partial (vertexNamed.renamed swap24).view (by decide) [] (by simp) Marks.fresh .fresh
    have e1 : (cover (vertexNamed.renamed swap24).view [] Marks.fresh).toOption.map (fun x => x.2.2) = some [.edge 1 4 105, .edge 4 3 7] := by decide +kernel
    rw [h1] at e1
    have e1 : ps = _ := Option.some.inj e1
    subst e1
    have hg : generate (witnessEnv 0 [105, 7] []) (rewriteGraph witnessNames [.edge 1 4 105, .edge 4 3 7]) = .ok [⟨7, 105, [(1, 2)], {3}, some (.edge 7), some (.edge 105), 1, 1⟩] := toOption_ok (by decide +kernel)
    exact ⟨_, _, h1, witnessEnv_for [] [.edge 1 4 105, .edge 4 3 7], hg⟩

/-- Four edges in a row. -/
def fourInRow : LGraph ℕ := ⟨[(1, .none), (2, .none), (3, .none), (4, .none), (5, .none)], [(1, 2, .str 7), (2, 3, .str 7), (3, 4, .str 7), (4, 5, .str 7)]⟩

/-- Two edges in a row. -/
def twoInRow : LGraph ℕ := ⟨[(1, .none), (2, .none), (3, .none)], [(1, 2, .str 7), (2, 3, .str 7)]⟩

/-- The embedding that starts at a vertex. -/
def startAt (v : ℕ) : Embedding := [(v, 1), (v + 1, 2), (v + 2, 3)]

/-- The row of the pattern of two edges, its embeddings listed by where they start. -/
def fourRow (starts : List ℕ) : Row ℕ := ⟨twoInRow.view, starts.map startAt, []⟩

theorem fourRow_ok (starts : List ℕ) (h : ∀ v ∈ starts, v = 1 ∨ v = 2 ∨ v = 3) : RowOk fourInRow.view (fourRow starts) := by
  have h0 : ∀ v, v = 1 ∨ v = 2 ∨ v = 3 → IsEmbedding fourInRow.view twoInRow.view (startAt v) := by
    intro v hv
    rcases hv with rfl | rfl | rfl
    all_goals exact isEmbedding_of _ _ _ rfl (by decide) (by decide) (by decide) (by decide) (by decide)
  have h1 : ∀ n ∈ twoInRow.view.nodes.map Prod.fst, twoInRow.view.labels n ≠ [] → ∃ x ∈ twoInRow.view.edges, x.1 = n ∨ x.2.1 = n := by decide
  have h2 : twoInRow.view.edges ≠ [] := by decide
  refine rowOk_of _ _ ?_ (fun _ => h1) (fun hne => absurd hne h2)
  intro e he
  simp only [fourRow, List.mem_map] at he
  obtain ⟨v, hv, rfl⟩ := he
  exact h0 v (h v hv)

/-- C136 is false when the embeddings of a pattern are listed in another order: the pattern of two edges is used twice or once in four edges in a row. -/
theorem embedding_order_matters : ∃ a b : Row ℕ, RowOk fourInRow.view a ∧ RowOk fourInRow.view b ∧ a.pattern = b.pattern ∧ a.embeddings.Perm b.embeddings ∧
    ∃ r r', cover fourInRow.view [a] Marks.fresh = .ok r ∧ cover fourInRow.view [b] Marks.fresh = .ok r' ∧ rowUsage r.2.2 0 = 2 ∧ rowUsage r'.2.2 0 = 1 := by
  have h : ∀ (rows : List (Row ℕ)) (k : ℕ), (cover fourInRow.view rows Marks.fresh).toOption.map (fun x => rowUsage x.2.2 0) = some k → ∃ r, cover fourInRow.view rows Marks.fresh = .ok r ∧ rowUsage r.2.2 0 = k := by
    intro rows k h
    cases hc : cover fourInRow.view rows Marks.fresh with
    | error s => rw [hc] at h; cases h
    | ok r => rw [hc] at h; exact ⟨r, rfl, Option.some.inj h⟩
  obtain ⟨r, h1, h2⟩ := h [fourRow [1, 2, 3]] 2 (by decide +kernel)
  obtain ⟨r', h3, h4⟩ := h [fourRow [2, 1, 3]] 1 (by decide +kernel)
  exact ⟨_, _, fourRow_ok [1, 2, 3] (by decide), fourRow_ok [2, 1, 3] (by decide), rfl, by unfold fourRow; decide, r, r', h1, h3, h2, h4⟩

/-- The four edges in a row have their names apart, and exchanging 2 and 4 gives another graph with the same lengths. -/
example : NamesApart witnessNames fourInRow ∧ fourInRow.renamed swap24 ≠ fourInRow ∧ ∀ (t : LabelTable ℕ) (emb : LGraph ℕ → List Embedding), totalLength (fun _ => false) t witnessNames (embRenamed swap24 emb) (fourInRow.renamed swap24) [twoInRow] =
    totalLength (fun _ => false) t witnessNames emb fourInRow [twoInRow] := by
  have hap : NamesApart witnessNames fourInRow := ⟨names_apart _ (by decide) (by decide), names_apart_vertex _ (by decide) (by decide), fun i v => by simp [witnessNames]; omega⟩
  exact ⟨hap, by decide, fun t emb => total_length_renamed swap24_injective witnessNames_ok fourInRow hap _ t emb _⟩

end Verif.Graph
