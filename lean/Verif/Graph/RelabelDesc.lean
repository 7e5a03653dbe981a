import Verif.Graph.RelabelCover

/-!
# Lengths and candidates of a data graph with other names for its labels
-/

set_option autoImplicit false
set_option linter.unusedSectionVars false

namespace Verif.Graph

variable {σ τ : Type} [DecidableEq σ] [DecidableEq τ]

/-! ## The rewritten graph -/

/-- A node with the new names. -/
def RNode.relabel (g : σ ≃ τ) (n : RNode σ) : RNode τ := ⟨g n.label, n.isPattern, n.isSingleton⟩

/-- The rewritten graph with the new names. -/
def RGraph.relabel (g : σ ≃ τ) (rg : RGraph σ) : RGraph τ := ⟨rg.nodes.map (RNode.relabel g), rg.edges⟩

theorem addEdge_relabel (g : σ ≃ τ) (rg : RGraph σ) (x y a : ℕ) : (rg.relabel g).addEdge x y a = (rg.addEdge x y a).relabel g := rfl

theorem rewriteEdge_relabel {g : σ ≃ τ} {nm : Names σ} {nm' : Names τ} (hn : NamesKept g nm nm') (x : ℕ) (rg : RGraph σ) (port : ℕ × ℕ) : rewriteEdge nm' x (rg.relabel g) port = (rewriteEdge nm x rg port).relabel g := by
  have h : (rg.relabel g).nodes.findIdx (fun n => decide (n.label = nm'.vertex port.1)) = rg.nodes.findIdx (fun n => decide (n.label = nm.vertex port.1)) := by
    simp only [RGraph.relabel, List.findIdx_map, Function.comp_def, RNode.relabel, hn.vertex, g.injective.eq_iff]
  have hl : (rg.relabel g).nodes.length = rg.nodes.length := by simp [RGraph.relabel]
  unfold rewriteEdge
  simp only [h, hl]
  split
  · rfl
  · rw [← addEdge_relabel]
    congr 1
    simp [RGraph.relabel, RNode.relabel, hn.vertex]

theorem pieceNode_relabel {g : σ ≃ τ} {nm : Names σ} {nm' : Names τ} (hn : NamesKept g nm nm') (pc : Piece σ) : (pc.relabel g).node nm' = (pc.node nm).relabel g := by
  cases pc <;> simp [Piece.relabel, Piece.node, RNode.relabel, hn.row]

theorem piecePorts_relabel (g : σ ≃ τ) (pc : Piece σ) : (pc.relabel g).ports = pc.ports := by cases pc <;> rfl

theorem addPiece_relabel {g : σ ≃ τ} {nm : Names σ} {nm' : Names τ} (hn : NamesKept g nm nm') (rg : RGraph σ) (n : RNode σ) (ports : List (ℕ × ℕ)) : addPiece nm' (rg.relabel g) (n.relabel g) ports = (addPiece nm rg n ports).relabel g := by
  unfold addPiece
  have h0 : ({ rg.relabel g with nodes := (rg.relabel g).nodes ++ [n.relabel g] } : RGraph τ) = RGraph.relabel g { rg with nodes := rg.nodes ++ [n] } := by simp [RGraph.relabel]
  have hl : (rg.relabel g).nodes.length = rg.nodes.length := by simp [RGraph.relabel]
  rw [h0, hl]
  generalize ({ rg with nodes := rg.nodes ++ [n] } : RGraph σ) = r0
  induction ports generalizing r0 with
  | nil => rfl
  | cons p t ih => rw [List.foldl_cons, List.foldl_cons, rewriteEdge_relabel hn, ih]

/-- The rewritten graph of the cover with the new names. -/
theorem rewriteGraph_relabel {g : σ ≃ τ} {nm : Names σ} {nm' : Names τ} (hn : NamesKept g nm nm') (ps : List (Piece σ)) : rewriteGraph nm' (ps.map (Piece.relabel g)) = (rewriteGraph nm ps).relabel g := by
  unfold rewriteGraph
  rw [show (⟨[], []⟩ : RGraph τ) = RGraph.relabel g ⟨[], []⟩ from rfl]
  generalize (⟨[], []⟩ : RGraph σ) = r0
  induction ps generalizing r0 with
  | nil => rfl
  | cons p t ih => rw [List.map_cons, List.foldl_cons, List.foldl_cons, pieceNode_relabel hn, piecePorts_relabel, addPiece_relabel hn, ih]

/-! ## Usages -/

/-- Counts with the new names. -/
def mapKeys {β : Type} (g : σ ≃ τ) (l : List (σ × β)) : List (τ × β) := l.map (fun x => (g x.1, x.2))

theorem mapKeys_snd {β : Type} (g : σ ≃ τ) (l : List (σ × β)) : (mapKeys g l).map Prod.snd = l.map Prod.snd := by simp [mapKeys, List.map_map, Function.comp_def]

theorem lookup_mapKeys {β : Type} (g : σ ≃ τ) (k : σ) : ∀ l : List (σ × β), (mapKeys g l).lookup (g k) = l.lookup k
  | [] => rfl
  | (a, b) :: t => by
    have ih := lookup_mapKeys g k t
    simp only [mapKeys, List.map_cons, List.lookup_cons] at ih ⊢
    rw [ih]
    have : (g k == g a) = (k == a) := by rw [Bool.eq_iff_iff, beq_iff_eq, beq_iff_eq, g.injective.eq_iff]
    rw [this]

theorem bump_relabel (g : σ ≃ τ) (k : σ) : ∀ l : List (σ × ℕ), bump (g k) (mapKeys g l) = mapKeys g (bump k l)
  | [] => rfl
  | (a, n) :: t => by
    have ih := bump_relabel g k t
    simp only [mapKeys, List.map_cons] at ih ⊢
    rw [bump, bump]
    simp only [g.injective.eq_iff]
    split
    · rfl
    · rw [ih]; rfl

theorem bumps_relabel (g : σ ≃ τ) (ks : List σ) (acc : List (σ × ℕ)) : (ks.map g).foldl (fun acc l => bump l acc) (mapKeys g acc) = mapKeys g (ks.foldl (fun acc l => bump l acc) acc) := by
  induction ks generalizing acc with
  | nil => rfl
  | cons k t ih => rw [List.map_cons, List.foldl_cons, List.foldl_cons, bump_relabel, ih]

theorem kind_relabel (g : σ ≃ τ) (pc : Piece σ) : (pc.relabel g).kind = pc.kind.relabel g := by cases pc <;> rfl

theorem kind_row (g : σ ≃ τ) (k : PKind σ) (i : ℕ) : k.relabel g = .row i ↔ k = .row i := by cases k <;> simp [PKind.relabel]

theorem rowUsage_relabel (g : σ ≃ τ) (ps : List (Piece σ)) (i : ℕ) : rowUsage (ps.map (Piece.relabel g)) i = rowUsage ps i := by
  simp [rowUsage, List.filter_map, Function.comp_def, kind_relabel, kind_row]

theorem portUsage_relabel (g : σ ≃ τ) (ps : List (Piece σ)) (i : ℕ) : portUsage (ps.map (Piece.relabel g)) i = portUsage ps i := by
  simp [portUsage, List.filter_map, Function.comp_def, kind_relabel, kind_row, List.flatMap_map, piecePorts_relabel]

theorem edgeUsage_relabel (g : σ ≃ τ) (ps : List (Piece σ)) : edgeUsage (ps.map (Piece.relabel g)) = mapKeys g (edgeUsage ps) := by
  have : (ps.map (Piece.relabel g)).filterMap Piece.edgeLabel? = (ps.filterMap Piece.edgeLabel?).map g := by
    rw [List.filterMap_map, List.map_filterMap]
    congr 1
    funext pc
    cases pc <;> rfl
  unfold edgeUsage
  rw [this]
  exact bumps_relabel g _ []

theorem vertexUsage_relabel (g : σ ≃ τ) (ps : List (Piece σ)) : vertexUsage (ps.map (Piece.relabel g)) = mapKeys g (vertexUsage ps) := by
  have : (ps.map (Piece.relabel g)).filterMap Piece.vertexLabel? = (ps.filterMap Piece.vertexLabel?).map g := by
    rw [List.filterMap_map, List.map_filterMap]
    congr 1
    funext pc
    cases pc <;> rfl
  unfold vertexUsage
  rw [this]
  exact bumps_relabel g _ []

theorem usedRows_relabel (g : σ ≃ τ) (n : ℕ) (ps : List (Piece σ)) : usedRows n (ps.map (Piece.relabel g)) = usedRows n ps := by simp [usedRows, rowUsage_relabel]

theorem rewriteDesc_relabel (g : σ ≃ τ) (n : ℕ) (ps : List (Piece σ)) (rg : RGraph σ) : rewriteDesc n (ps.map (Piece.relabel g)) (rg.relabel g) = rewriteDesc n ps rg := by
  have h0 : (rg.relabel g).nodes = [] ↔ rg.nodes = [] := by simp [RGraph.relabel]
  have h1 : ((rg.relabel g).nodes.filter (fun x => x.isPattern)).length = (rg.nodes.filter (fun x => x.isPattern)).length := by simp [RGraph.relabel, List.filter_map, Function.comp_def, RNode.relabel]
  have h2 : ((rg.relabel g).nodes.filter (fun x => !x.isPattern)).length = (rg.nodes.filter (fun x => !x.isPattern)).length := by simp [RGraph.relabel, List.filter_map, Function.comp_def, RNode.relabel]
  have h3 : (rg.relabel g).portDegrees = rg.portDegrees := by
    unfold RGraph.portDegrees RGraph.relabel
    simp only [List.zipIdx_map, List.filter_map, List.map_map, Function.comp_def, RNode.relabel, Prod.map]
    rfl
  have h4 : edgesPerVertex n (ps.map (Piece.relabel g)) = edgesPerVertex n ps := by
    simp [edgesPerVertex, usedRows_relabel, rowUsage_relabel, portUsage_relabel, vertexUsage_relabel, edgeUsage_relabel, mapKeys, List.map_map, Function.comp_def]
  have h5 : edgesLabel n (ps.map (Piece.relabel g)) = edgesLabel n ps := by
    simp [edgesLabel, usedRows_relabel, portUsage_relabel, edgeUsage_relabel, mapKeys, List.map_map, Function.comp_def]
  have h6 : rowUsage (ps.map (Piece.relabel g)) = rowUsage ps := funext (rowUsage_relabel g ps)
  unfold rewriteDesc
  simp only [h0, h1, h2, h3, h4, h5, h6, usedRows_relabel, vertexUsage_relabel, edgeUsage_relabel, mapKeys_snd]

/-! ## Labels and patterns -/

theorem labelValues_relabel (g : σ ≃ τ) : ∀ l : List (Label σ), labelValues (l.map (Label.relabel g)) = (labelValues l).map (Sum.map g (List.map g))
  | [] => rfl
  | .none :: t => by simpa [labelValues, Label.relabel] using labelValues_relabel g t
  | .str s :: t => by simpa [labelValues, Label.relabel] using labelValues_relabel g t
  | .tuple l :: t => by simpa [labelValues, Label.relabel, Function.comp_def] using labelValues_relabel g t
  | .list l :: t => by simpa [labelValues, Label.relabel] using labelValues_relabel g t

theorem counter_relabel (g : σ ≃ τ) : ∀ (l : List (σ ⊕ List σ)) (acc : List (σ × ℕ)), counter (l.map (Sum.map g (List.map g))) (mapKeys g acc) = (counter l acc).map (mapKeys g)
  | [], acc => rfl
  | .inl s :: t, acc => by
    rw [List.map_cons, Sum.map_inl, counter, counter, bump_relabel]
    exact counter_relabel g t _
  | .inr _ :: _, acc => rfl

theorem countVertex_relabel (g : σ ≃ τ) (p : LGraph σ) : countVertex (p.relabel g) = (countVertex p).map (mapKeys g) := by
  unfold countVertex
  rw [← counter_relabel, ← labelValues_relabel]
  simp [LGraph.relabel, List.map_map, Function.comp_def, mapKeys]

theorem countEdge_relabel (g : σ ≃ τ) (p : LGraph σ) : countEdge (p.relabel g) = (countEdge p).map (mapKeys g) := by
  unfold countEdge
  rw [← counter_relabel, ← labelValues_relabel]
  simp [LGraph.relabel, List.map_map, Function.comp_def, mapKeys]

theorem setKey_relabel (g : σ ≃ τ) (k : σ) (v : ℕ) : ∀ l : List (σ × ℕ), setKey (g k) v (mapKeys g l) = mapKeys g (setKey k v l)
  | [] => rfl
  | (a, n) :: t => by
    have ih := setKey_relabel g k v t
    simp only [mapKeys, List.map_cons] at ih ⊢
    rw [setKey, setKey]
    simp only [g.injective.eq_iff]
    split
    · rfl
    · rw [ih]; rfl

theorem update_relabel (g : σ ≃ τ) (d e : List (σ × ℕ)) : update (mapKeys g d) (mapKeys g e) = mapKeys g (update d e) := by
  unfold update
  induction e generalizing d with
  | nil => rfl
  | cons x t ih =>
    simp only [mapKeys, List.map_cons, List.foldl_cons] at ih ⊢
    have := setKey_relabel g x.1 x.2 d
    simp only [mapKeys] at this
    rw [this, ih]

theorem totalLabel_relabel (g : σ ≃ τ) (p : LGraph σ) : totalLabel (p.relabel g) = totalLabel p := by
  unfold totalLabel
  rw [countVertex_relabel, countEdge_relabel]
  cases countEdge p <;> cases countVertex p <;> simp only [Except.map, update_relabel, mapKeys_snd]

theorem codesOf_relabel (g : σ ≃ τ) (n : ℕ) : ∀ d : List (σ × ℕ), codesOf n (mapKeys g d) = (codesOf n d).map (mapKeys g)
  | [] => rfl
  | x :: t => by
    have ih := codesOf_relabel g n t
    unfold codesOf at ih ⊢
    simp only [mapKeys, List.map_cons, List.mapM_cons] at ih ⊢
    cases log2 x.2 n with
    | error s => rfl
    | ok c =>
      simp only [Except.map, bind, Except.bind] at ih ⊢
      rw [ih]
      generalize List.mapM (m := Except String) _ t = r
      cases r <;> rfl

/-- The code lengths of labels follow their names. -/
theorem label_codes_relabel (g : σ ≃ τ) (d : LGraph σ) : labelCodes (d.relabel g) = (labelCodes d).map (LabelTable.relabel g) := by
  unfold labelCodes
  rw [totalLabel_relabel, countVertex_relabel, countEdge_relabel]
  cases totalLabel d with
  | error s => rfl
  | ok n =>
    cases countVertex d with
    | error s => rfl
    | ok v =>
      simp only [Except.bind, Except.map, codesOf_relabel]
      cases codesOf n v with
      | error s => rfl
      | ok vc =>
        simp only
        cases countEdge d with
        | error s => rfl
        | ok e =>
          simp only [codesOf_relabel]
          cases codesOf n e with
          | error s => rfl
          | ok ec => rfl

theorem describeLabels_relabel (g : σ ≃ τ) (codes : List (σ × ℝ)) (N : ℕ) : ∀ l : List (σ × ℕ), describeLabels (mapKeys g codes) N (mapKeys g l) = describeLabels codes N l
  | [] => rfl
  | (a, k) :: t => by
    have ih := describeLabels_relabel g codes N t
    have h := lookup_mapKeys g a codes
    simp only [mapKeys, List.map_cons] at ih h ⊢
    rw [describeLabels, describeLabels, h, ih]

theorem encode_relabel (g : σ ≃ τ) (t : LabelTable σ) (p : LGraph σ) : encode (t.relabel g) (p.relabel g) = encode t p := by
  have h1 : (t.relabel g).vertex = mapKeys g t.vertex := rfl
  have h2 : (t.relabel g).edge = mapKeys g t.edge := rfl
  have h3 : (p.relabel g).nodes.length = p.nodes.length := by simp [LGraph.relabel]
  have h4 : ∀ l : List (σ × ℝ), (mapKeys g l).length = l.length := fun l => by simp [mapKeys]
  unfold encode
  rw [countVertex_relabel, countEdge_relabel, Except.bind_map']
  refine Except.bind_congr' _ (fun e => ?_)
  rw [Except.bind_map']
  refine Except.bind_congr' _ (fun v => ?_)
  rw [h1, h2, h3, h4, h4]
  simp only [describeLabels_relabel]

theorem encodeSingleton_relabel (g : σ ≃ τ) (blank : σ → Bool) (t : LabelTable σ) (n : ℕ) (l : σ) : encodeSingleton (fun x => blank (g.symm x)) (t.relabel g) n (g l) = encodeSingleton blank t n l := by
  have h1 : (t.relabel g).vertex.length = t.vertex.length := by simp [LabelTable.relabel]
  have h2 : (t.relabel g).edge.length = t.edge.length := by simp [LabelTable.relabel]
  have h3 : (t.relabel g).vertex.lookup (g l) = t.vertex.lookup l := lookup_mapKeys g l _
  have h4 : (t.relabel g).edge.lookup (g l) = t.edge.lookup l := lookup_mapKeys g l _
  unfold encodeSingleton encodeVertexSingleton encodeEdgeSingleton
  simp only [h1, h2, h3, h4, Equiv.symm_apply_apply]

theorem rowDescription_relabel (g : σ ≃ τ) (t : LabelTable σ) (p : LGraph σ) (k : ℕ) : rowDescription (t.relabel g) (p.relabel g) k = rowDescription t p k := by
  unfold rowDescription
  rw [encode_relabel]
  simp [LGraph.relabel]

theorem tableDescription_relabel (g : σ ≃ τ) (blank : σ → Bool) (t : LabelTable σ) (pats : List (LGraph σ)) (ps : List (Piece σ)) :
    tableDescription (fun x => blank (g.symm x)) (t.relabel g) (pats.map (LGraph.relabel g)) (ps.map (Piece.relabel g)) = tableDescription blank t pats ps := by
  have h1 : singletonDescription (fun x => blank (g.symm x)) (t.relabel g) (ps.map (Piece.relabel g)) = singletonDescription blank t ps := by
    unfold singletonDescription
    rw [vertexUsage_relabel, edgeUsage_relabel]
    simp only [mapKeys, List.map_map, Function.comp_def, encodeSingleton_relabel]
  have h2 : ((pats.map (LGraph.relabel g)).zipIdx.filter (fun x => decide (rowUsage (ps.map (Piece.relabel g)) x.2 ≠ 0))).map (fun x => rowDescription (t.relabel g) x.1 (portUsage (ps.map (Piece.relabel g)) x.2).length) =
      (pats.zipIdx.filter (fun x => decide (rowUsage ps x.2 ≠ 0))).map (fun x => rowDescription t x.1 (portUsage ps x.2).length) := by
    simp only [List.zipIdx_map, List.filter_map, List.map_map, Function.comp_def, Prod.map, id, rowUsage_relabel, portUsage_relabel, rowDescription_relabel]
  unfold tableDescription
  rw [h1, h2]
  simp

end Verif.Graph
