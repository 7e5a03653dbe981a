import Verif.Graph.VertexLemmas
import Verif.Graph.RewriteLemmas
import Mathlib.Data.List.Forall2

/-!
# Rewritten graphs, lengths and candidates of a data graph with other vertices
-/

set_option autoImplicit false
set_option linter.unusedSectionVars false

namespace Verif.Graph

variable {σ : Type} [DecidableEq σ]

/-! ## Labels of pieces -/

theorem singleEdges_real (g : DGraph σ) : ∀ (L : List (ℕ × ℕ × σ)) (m : Marks σ) (pc : Piece σ), pc ∈ (singleEdges g L m).2 → ∃ e ∈ L, pc = .edge e.1 e.2.1 e.2.2
  | [], m, pc, h => by simp [singleEdges] at h
  | (u, v, l) :: t, m, pc, h => by
    rw [singleEdges] at h
    split at h
    · obtain ⟨e, he, h⟩ := singleEdges_real g t _ pc h
      exact ⟨e, by simp [he], h⟩
    · simp only [List.mem_cons] at h
      rcases h with h | h
      · exact ⟨(u, v, l), by simp, h⟩
      · obtain ⟨e, he, h⟩ := singleEdges_real g t _ pc h
        exact ⟨e, by simp [he], h⟩

/-- The labels of the singletons of a cover are used in the data. -/
theorem cover_uses (g : DGraph σ) (rows : List (Row σ)) (m : Marks σ) (r : Marks σ × List (Row σ) × List (Piece σ)) (h : cover g rows m = .ok r) :
    (∀ u v l, Piece.edge u v l ∈ r.2.2 → g.Uses l) ∧ ∀ v l, Piece.vertex v l ∈ r.2.2 → g.Uses l := by
  have hrow : ∀ (i : ℕ) (rows : List (Row σ)) (m : Marks σ) (x : Marks σ × List (Row σ) × List (Piece σ)), coverRows g i rows m = .ok x → ∀ pc ∈ x.2.2, ∃ j e ports, pc = .emb j e ports := by
    have hE : ∀ (p : DGraph σ) (i : ℕ) (es : List Embedding) (m : Marks σ) (x : Marks σ × List (Piece σ)), coverEmbs g p i es m = .ok x → ∀ pc ∈ x.2, ∃ j e ports, pc = .emb j e ports := by
      intro p i es
      induction es with
      | nil => intro m x hx; simp only [coverEmbs, Except.ok.injEq] at hx; subst hx; simp
      | cons e t ih =>
        intro m x hx
        rw [coverEmbs] at hx
        cases hb : embMarked g p m e with
        | error s => simp [hb, Except.bind] at hx
        | ok b =>
          simp only [hb, Except.bind] at hx
          split at hx
          · exact ih m x hx
          · cases hm : markEmb g p m e with
            | error s => simp [hm] at hx
            | ok m' =>
              simp only [hm] at hx
              cases hc : coverEmbs g p i t m' with
              | error s => simp [hc, Except.map] at hx
              | ok y =>
                simp only [hc, Except.map, Except.ok.injEq] at hx
                subst hx
                intro pc hpc
                simp only [List.mem_cons] at hpc
                rcases hpc with rfl | hpc
                · exact ⟨_, _, _, rfl⟩
                · exact ih m' y hc pc hpc
    have hV : ∀ (p : DGraph σ) (i : ℕ) (e : Embedding) (L : List (ℕ × ℕ)) (m : Marks σ) (x : Marks σ × List (Piece σ)), coverVerts g p i e L m = .ok x → ∀ pc ∈ x.2, ∃ j e ports, pc = .emb j e ports := by
      intro p i e L
      induction L with
      | nil => intro m x hx; simp only [coverVerts, Except.ok.injEq] at hx; subst hx; simp
      | cons y t ih =>
        obtain ⟨v, a⟩ := y
        intro m x hx
        rw [coverVerts] at hx
        split at hx
        · cases hx
        · split at hx
          · cases hx
          · split at hx
            · exact ih m x hx
            · cases hc : coverVerts g p i e t (markNode g m v (p.labels a)) with
              | error s => simp [hc, Except.map] at hx
              | ok y =>
                simp only [hc, Except.map, Except.ok.injEq] at hx
                subst hx
                intro pc hpc
                simp only [List.mem_cons] at hpc
                rcases hpc with rfl | hpc
                · exact ⟨_, _, _, rfl⟩
                · exact ih _ y hc pc hpc
    have hN : ∀ (p : DGraph σ) (i : ℕ) (es : List Embedding) (m : Marks σ) (x : Marks σ × List (Piece σ)), coverNodes g p i es m = .ok x → ∀ pc ∈ x.2, ∃ j e ports, pc = .emb j e ports := by
      intro p i es
      induction es with
      | nil => intro m x hx; simp only [coverNodes, Except.ok.injEq] at hx; subst hx; simp
      | cons e t ih =>
        intro m x hx
        rw [coverNodes] at hx
        cases hb : coverVerts g p i e e m with
        | error s => simp [hb, Except.bind] at hx
        | ok b =>
          simp only [hb, Except.bind] at hx
          cases hc : coverNodes g p i t b.1 with
          | error s => simp [hc, Except.map] at hx
          | ok y =>
            simp only [hc, Except.map, Except.ok.injEq] at hx
            subst hx
            intro pc hpc
            simp only [List.mem_append] at hpc
            rcases hpc with hpc | hpc
            · exact hV p i e e m b hb pc hpc
            · exact ih _ y hc pc hpc
    intro i rows
    induction rows generalizing i with
    | nil => intro m x hx; simp only [coverRows, Except.ok.injEq] at hx; subst hx; simp
    | cons r t ih =>
      intro m x hx
      rw [coverRows] at hx
      cases hb : rowCover g i r m with
      | error s => simp [hb, Except.bind] at hx
      | ok b =>
        simp only [hb, Except.bind] at hx
        cases hc : coverRows g (i + 1) t b.1 with
        | error s => simp [hc, Except.map] at hx
        | ok y =>
          simp only [hc, Except.map, Except.ok.injEq] at hx
          subst hx
          intro pc hpc
          simp only [List.mem_append] at hpc
          rcases hpc with hpc | hpc
          · unfold rowCover at hb
            split at hb
            · exact hE _ _ _ _ _ hb pc hpc
            · exact hN _ _ _ _ _ hb pc hpc
          · exact ih (i + 1) _ y hc pc hpc
  unfold cover at h
  cases hc : coverRows g 0 rows { m with marker := m.marker + 1 } with
  | error s => simp [hc, Except.map] at h
  | ok x =>
    simp only [hc, Except.map, Except.ok.injEq] at h
    subst h
    constructor
    · intro u v l hp
      simp only [List.mem_append] at hp
      rcases hp with (hp | hp) | hp
      · obtain ⟨_, _, _, h⟩ := hrow 0 rows _ x hc _ hp; cases h
      · obtain ⟨⟨a, b, c⟩, he, h⟩ := singleEdges_real g _ _ _ hp
        cases h
        exact .inr ⟨_, _, he⟩
      · exfalso
        have hnode : ∀ (L : List (ℕ × List σ)) (m : Marks σ), ∀ pc ∈ (singleNodes L m).2, ∃ v l, pc = Piece.vertex v l := by
          intro L
          induction L with
          | nil => intro m; simp [singleNodes]
          | cons y t ih =>
            obtain ⟨w, ls⟩ := y
            intro m pc hpc
            rw [singleNodes] at hpc
            simp only [List.mem_append] at hpc
            rcases hpc with hpc | hpc
            · clear ih
              induction ls generalizing m with
              | nil => simp [singleLabels] at hpc
              | cons l t ih =>
                rw [singleLabels] at hpc
                split at hpc
                · exact ih _ hpc
                · simp only [List.mem_cons] at hpc
                  rcases hpc with hpc | hpc
                  · exact ⟨_, _, hpc⟩
                  · exact ih _ hpc
            · exact ih _ _ hpc
        obtain ⟨_, _, h⟩ := hnode _ _ _ hp
        cases h
    · intro v l hp
      simp only [List.mem_append] at hp
      rcases hp with (hp | hp) | hp
      · obtain ⟨_, _, _, h⟩ := hrow 0 rows _ x hc _ hp; cases h
      · obtain ⟨_, _, h⟩ := singleEdges_real g _ _ _ hp; cases h
      · obtain ⟨ls, h1, h2⟩ := singleNodes_real _ _ v l hp
        exact .inl ⟨v, ls, h1, h2⟩

/-! ## The rewritten graph -/

/-- The same node: a node of a pattern has the same name, a port has the name of the other vertex. -/
def NodeFor (nm : Names σ) (f : ℕ → ℕ) (n n' : RNode σ) : Prop :=
  n'.isSingleton = n.isSingleton ∧ n'.isPattern = n.isPattern ∧ (n.isPattern = true → n' = n ∧ ∀ v, n.label ≠ nm.vertex v) ∧ (n.isPattern = false → ∃ v, n.label = nm.vertex v ∧ n'.label = nm.vertex (f v))

/-- The same rewritten graph but for the names of ports. Edges leave nodes of patterns. -/
structure GraphFor (nm : Names σ) (f : ℕ → ℕ) (rg rg' : RGraph σ) : Prop where
  nodes : List.Forall₂ (NodeFor nm f) rg.nodes rg'.nodes
  edges : rg'.edges = rg.edges
  src : ∀ e ∈ rg.edges, ∃ n, rg.node? e.1 = some n ∧ n.isPattern = true

theorem findIdx_for {nm : Names σ} (hnm : nm.Ok) {f : ℕ → ℕ} (hf : Function.Injective f) (v : ℕ) {L L' : List (RNode σ)} (h : List.Forall₂ (NodeFor nm f) L L') :
    L'.findIdx (fun n => decide (n.label = nm.vertex (f v))) = L.findIdx (fun n => decide (n.label = nm.vertex v)) := by
  induction h with
  | nil => rfl
  | @cons n n' t t' hn _ ih =>
    have : decide (n'.label = nm.vertex (f v)) = decide (n.label = nm.vertex v) := by
      obtain ⟨_, _, h3, h4⟩ := hn
      cases hp : n.isPattern with
      | true =>
        obtain ⟨h3, h5⟩ := h3 hp
        rw [h3]
        simp [h5]
      | false =>
        obtain ⟨w, h4, h5⟩ := h4 hp
        rw [h4, h5]
        have : nm.vertex (f w) = nm.vertex (f v) ↔ nm.vertex w = nm.vertex v := ⟨fun h => by rw [hf (hnm.vertex _ _ h)], fun h => by rw [hnm.vertex _ _ h]⟩
        simp [this]
    rw [List.findIdx_cons, List.findIdx_cons, this, ih]

theorem node?_append (rg : RGraph σ) (n : RNode σ) (E : List (ℕ × ℕ × ℕ)) (x : ℕ) (y : RNode σ) (h : rg.node? x = some y) : RGraph.node? ⟨rg.nodes ++ [n], E⟩ x = some y := by
  unfold RGraph.node? at h ⊢
  split at h
  · cases h
  · rename_i hx
    simp only [hx, if_false]
    rw [List.getElem?_append_left]
    · exact h
    · exact (List.getElem?_eq_some_iff.1 h).1

theorem addEdge_for {nm : Names σ} {f : ℕ → ℕ} {rg rg' : RGraph σ} (h : GraphFor nm f rg rg') (x y a : ℕ) (hx : ∃ n, rg.node? x = some n ∧ n.isPattern = true) :
    GraphFor nm f (rg.addEdge x y a) (rg'.addEdge x y a) := by
  refine ⟨h.nodes, ?_, ?_⟩
  · unfold RGraph.addEdge
    simp only [h.edges]
  · intro e he
    unfold RGraph.addEdge at he
    have hn : ∀ z, (rg.addEdge x y a).node? z = rg.node? z := fun _ => rfl
    rw [hn]
    simp only at he
    split at he
    · rw [List.mem_map] at he
      obtain ⟨e', he', rfl⟩ := he
      split
      · exact hx
      · exact h.src _ he'
    · rw [List.mem_append, List.mem_singleton] at he
      rcases he with he | rfl
      · exact h.src _ he
      · exact hx

theorem addNode_for {nm : Names σ} {f : ℕ → ℕ} {rg rg' : RGraph σ} (h : GraphFor nm f rg rg') {n n' : RNode σ} (hn : NodeFor nm f n n') :
    GraphFor nm f { rg with nodes := rg.nodes ++ [n] } { rg' with nodes := rg'.nodes ++ [n'] } := by
  refine ⟨List.rel_append h.nodes (.cons hn .nil), h.edges, ?_⟩
  intro e he
  obtain ⟨y, h1, h2⟩ := h.src e he
  exact ⟨y, node?_append rg n _ _ y h1, h2⟩

theorem rewriteEdge_for {nm : Names σ} (hnm : nm.Ok) {f : ℕ → ℕ} (hf : Function.Injective f) {rg rg' : RGraph σ} (h : GraphFor nm f rg rg') (x : ℕ) (hx : ∃ n, rg.node? x = some n ∧ n.isPattern = true) (port : ℕ × ℕ) :
    GraphFor nm f (rewriteEdge nm x rg port) (rewriteEdge nm x rg' (f port.1, port.2)) ∧ ∃ n, (rewriteEdge nm x rg port).node? x = some n ∧ n.isPattern = true := by
  unfold rewriteEdge
  simp only [findIdx_for hnm hf port.1 h.nodes, ← h.nodes.length_eq]
  split
  · exact ⟨addEdge_for h _ _ _ hx, hx⟩
  · have h1 : GraphFor nm f { rg with nodes := rg.nodes ++ [⟨nm.vertex port.1, false, false⟩] } { rg' with nodes := rg'.nodes ++ [⟨nm.vertex (f port.1), false, false⟩] } :=
      addNode_for h ⟨rfl, rfl, by simp, fun _ => ⟨port.1, rfl, rfl⟩⟩
    obtain ⟨n, h2, h3⟩ := hx
    have h4 := node?_append rg ⟨nm.vertex port.1, false, false⟩ rg.edges x n h2
    exact ⟨addEdge_for h1 _ _ _ ⟨n, h4, h3⟩, n, h4, h3⟩

theorem addPiece_for {nm : Names σ} (hnm : nm.Ok) {f : ℕ → ℕ} (hf : Function.Injective f) {rg rg' : RGraph σ} (h : GraphFor nm f rg rg') (n : RNode σ) (hn : n.isPattern = true) (hl : ∀ v, n.label ≠ nm.vertex v)
    (ports : List (ℕ × ℕ)) : GraphFor nm f (addPiece nm rg n ports) (addPiece nm rg' n (Embedding.renamed f ports)) := by
  unfold addPiece
  rw [← h.nodes.length_eq]
  have h1 : GraphFor nm f { rg with nodes := rg.nodes ++ [n] } { rg' with nodes := rg'.nodes ++ [n] } := addNode_for h ⟨rfl, rfl, fun _ => ⟨rfl, hl⟩, fun h => by rw [hn] at h; cases h⟩
  have h2 : ∃ y, RGraph.node? { rg with nodes := rg.nodes ++ [n] } (rg.nodes.length + 1) = some y ∧ y.isPattern = true := ⟨n, by simp [RGraph.node?], hn⟩
  generalize ({ rg with nodes := rg.nodes ++ [n] } : RGraph σ) = A at h1 h2
  generalize ({ rg' with nodes := rg'.nodes ++ [n] } : RGraph σ) = B at h1
  generalize rg.nodes.length + 1 = x at h2
  induction ports generalizing A B with
  | nil => exact h1
  | cons p t ih =>
    obtain ⟨h3, h4⟩ := rewriteEdge_for hnm hf h1 x h2 p
    exact ih _ _ h3 h4

theorem node_renamed (nm : Names σ) (f : ℕ → ℕ) (pc : Piece σ) : (pc.renamed f).node nm = pc.node nm := by cases pc <;> rfl

theorem ports_renamed (f : ℕ → ℕ) (pc : Piece σ) : (pc.renamed f).ports = Embedding.renamed f pc.ports := by cases pc <;> rfl

theorem kind_renamed (f : ℕ → ℕ) (pc : Piece σ) : (pc.renamed f).kind = pc.kind := by cases pc <;> rfl

theorem rewriteGraph_for {nm : Names σ} (hnm : nm.Ok) {f : ℕ → ℕ} (hf : Function.Injective f) (ps : List (Piece σ)) (hps : ∀ pc ∈ ps, ∀ v, (pc.node nm).label ≠ nm.vertex v) :
    GraphFor nm f (rewriteGraph nm ps) (rewriteGraph nm (ps.map (Piece.renamed f))) := by
  unfold rewriteGraph
  have h0 : GraphFor nm f ⟨[], []⟩ ⟨[], []⟩ := ⟨.nil, rfl, by simp⟩
  generalize (⟨[], []⟩ : RGraph σ) = A at h0
  have : ∀ A B : RGraph σ, GraphFor nm f A B → GraphFor nm f (ps.foldl (fun rg pc => addPiece nm rg (pc.node nm) pc.ports) A) ((ps.map (Piece.renamed f)).foldl (fun rg pc => addPiece nm rg (pc.node nm) pc.ports) B) := by
    induction ps with
    | nil => exact fun A B h => h
    | cons pc t ih =>
      intro A B h
      rw [List.map_cons, List.foldl_cons, List.foldl_cons]
      refine ih (fun q hq => hps q (by simp [hq])) _ _ ?_
      rw [node_renamed, ports_renamed]
      exact addPiece_for hnm hf h _ (by cases pc <;> rfl) (hps pc (by simp)) _
  exact this A A h0

/-! ## Lengths -/

theorem rowUsage_renamed (f : ℕ → ℕ) (ps : List (Piece σ)) (i : ℕ) : rowUsage (ps.map (Piece.renamed f)) i = rowUsage ps i := by
  unfold rowUsage
  rw [List.filter_map, List.length_map]
  simp only [Function.comp_def, kind_renamed]

theorem portUsage_renamed (f : ℕ → ℕ) (ps : List (Piece σ)) (i : ℕ) : portUsage (ps.map (Piece.renamed f)) i = portUsage ps i := by
  unfold portUsage
  rw [List.filter_map, List.flatMap_map]
  simp only [Function.comp_def, kind_renamed, ports_renamed, Embedding.renamed, List.map_map]

theorem edgeUsage_renamed (f : ℕ → ℕ) (ps : List (Piece σ)) : edgeUsage (ps.map (Piece.renamed f)) = edgeUsage ps := by
  unfold edgeUsage
  rw [List.filterMap_map]
  have : (Piece.edgeLabel? ∘ Piece.renamed f) = (Piece.edgeLabel? (σ := σ)) := funext (fun pc => by cases pc <;> rfl)
  rw [this]

theorem vertexUsage_renamed (f : ℕ → ℕ) (ps : List (Piece σ)) : vertexUsage (ps.map (Piece.renamed f)) = vertexUsage ps := by
  unfold vertexUsage
  rw [List.filterMap_map]
  have : (Piece.vertexLabel? ∘ Piece.renamed f) = (Piece.vertexLabel? (σ := σ)) := funext (fun pc => by cases pc <;> rfl)
  rw [this]

theorem tableDescription_renamed (f : ℕ → ℕ) (blank : σ → Bool) (t : LabelTable σ) (pats : List (LGraph σ)) (ps : List (Piece σ)) : tableDescription blank t pats (ps.map (Piece.renamed f)) = tableDescription blank t pats ps := by
  unfold tableDescription singletonDescription
  simp only [List.map_eq_nil_iff, rowUsage_renamed, portUsage_renamed, edgeUsage_renamed, vertexUsage_renamed]

theorem filter_for {nm : Names σ} {f : ℕ → ℕ} {L L' : List (RNode σ)} (h : List.Forall₂ (NodeFor nm f) L L') :
    (L'.filter (fun x => x.isPattern)).length = (L.filter (fun x => x.isPattern)).length ∧ (L'.filter (fun x => !x.isPattern)).length = (L.filter (fun x => !x.isPattern)).length := by
  induction h with
  | nil => exact ⟨rfl, rfl⟩
  | @cons n n' t t' hn _ ih =>
    have := hn.2.1
    cases hp : n.isPattern <;> rw [hp] at this <;> simp [hp, this, ih.1, ih.2]

theorem portDegrees_for {nm : Names σ} {f : ℕ → ℕ} {rg rg' : RGraph σ} (h : GraphFor nm f rg rg') : rg'.portDegrees = rg.portDegrees := by
  unfold RGraph.portDegrees
  have hd : ∀ x, rg'.inDegree x = rg.inDegree x := fun x => by unfold RGraph.inDegree; rw [h.edges]
  simp only [hd]
  have : ∀ (k : ℕ) (L L' : List (RNode σ)), List.Forall₂ (NodeFor nm f) L L' → ((L'.zipIdx k).filter (fun n => !n.1.isPattern)).map (fun n => rg.inDegree (n.2 + 1)) = ((L.zipIdx k).filter (fun n => !n.1.isPattern)).map (fun n => rg.inDegree (n.2 + 1)) := by
    intro k L L' h
    induction h generalizing k with
    | nil => rfl
    | @cons n n' t t' hn _ ih =>
      have := hn.2.1
      cases hp : n.isPattern <;> rw [hp] at this <;> simp [List.zipIdx_cons, hp, this, ih (k + 1)]
  exact this 0 _ _ h.nodes

theorem rewriteDesc_for {nm : Names σ} {f : ℕ → ℕ} {rg rg' : RGraph σ} (h : GraphFor nm f rg rg') (n : ℕ) (ps : List (Piece σ)) : rewriteDesc n (ps.map (Piece.renamed f)) rg' = rewriteDesc n ps rg := by
  have h1 : rg'.nodes = [] ↔ rg.nodes = [] := by
    rw [← List.length_eq_zero_iff, ← List.length_eq_zero_iff, h.nodes.length_eq]
  have h2 : ∀ i, rowUsage (ps.map (Piece.renamed f)) i = rowUsage ps i := rowUsage_renamed f ps
  have h3 : rowUsage (ps.map (Piece.renamed f)) = rowUsage ps := funext h2
  unfold rewriteDesc edgesPerVertex edgesLabel usedRows
  simp only [h1, (filter_for h.nodes).1, (filter_for h.nodes).2, portDegrees_for h, h3, portUsage_renamed, edgeUsage_renamed, vertexUsage_renamed]

/-! ## Candidates -/

/-- What the generation reads is the same: ports, edges, the nodes edges leave, and how many nodes have a name that is not that of a vertex. -/
structure ReadsSame (good : σ → Prop) (rg rg' : RGraph σ) : Prop where
  ports : rg'.portNodes = rg.portNodes
  edges : rg'.edges = rg.edges
  src : ∀ e ∈ rg.edges, ∃ n, rg.node? e.1 = some n ∧ rg'.node? e.1 = some n ∧ good n.label
  count : ∀ l, good l → nodesWith rg' l = nodesWith rg l

theorem forall₂_getElem? {α β : Type} {R : α → β → Prop} {L : List α} {L' : List β} (h : List.Forall₂ R L L') (i : ℕ) : (L[i]? = none ∧ L'[i]? = none) ∨ ∃ a b, L[i]? = some a ∧ L'[i]? = some b ∧ R a b := by
  induction h generalizing i with
  | nil => simp
  | @cons a b t t' hab _ ih =>
    cases i with
    | zero => exact .inr ⟨a, b, rfl, rfl, hab⟩
    | succ i => simpa using ih i

theorem node?_for {nm : Names σ} {f : ℕ → ℕ} {rg rg' : RGraph σ} (h : GraphFor nm f rg rg') (x : ℕ) : (rg.node? x = none ∧ rg'.node? x = none) ∨ ∃ n n', rg.node? x = some n ∧ rg'.node? x = some n' ∧ NodeFor nm f n n' := by
  unfold RGraph.node?
  split
  · exact .inl ⟨rfl, rfl⟩
  · exact forall₂_getElem? h.nodes _

theorem readsSame_of {nm : Names σ} {f : ℕ → ℕ} {rg rg' : RGraph σ} (h : GraphFor nm f rg rg') : ReadsSame (fun l => ∀ v, l ≠ nm.vertex v) rg rg' := by
  refine ⟨?_, h.edges, ?_, ?_⟩
  · unfold RGraph.portNodes
    rw [← h.nodes.length_eq]
    refine List.filter_congr (fun x _ => ?_)
    rcases node?_for h x with ⟨h1, h2⟩ | ⟨n, n', h1, h2, h3⟩
    · rw [h1, h2]
    · simp only [h1, h2, h3.2.1]
  · intro e he
    obtain ⟨n, h1, h2⟩ := h.src e he
    rcases node?_for h e.1 with ⟨h3, _⟩ | ⟨k, n', h3, h4, h5⟩
    · rw [h1] at h3; cases h3
    · rw [h1] at h3
      cases h3
      obtain ⟨h6, h7⟩ := h5.2.2.1 h2
      exact ⟨n, h1, by rw [h4, h6], h7⟩
  · intro l hl
    unfold nodesWith
    have := h.nodes
    generalize rg.nodes = L at this
    generalize rg'.nodes = L' at this
    induction this with
    | nil => rfl
    | @cons n n' t t' hn _ ih =>
      rw [List.countP_cons, List.countP_cons, ih]
      congr 1
      have : decide (n'.label = l) = decide (n.label = l) := by
        cases hp : n.isPattern with
        | true => rw [(hn.2.2.1 hp).1]
        | false =>
          obtain ⟨v, h1, h2⟩ := hn.2.2.2 hp
          rw [h1, h2]
          have h3 := fun v => (hl v).symm
          simp [h3]
      rw [this]

section
variable {good : σ → Prop} {rg rg' : RGraph σ} (h : ReadsSame good rg rg')
include h

theorem sources_same (p : ℕ) : rg'.sources p = rg.sources p := by
  unfold RGraph.sources
  rw [h.edges]

theorem sharedPorts_same (x y : ℕ) : rg'.sharedPorts x y = rg.sharedPorts x y := by
  unfold RGraph.sharedPorts
  simp only [h.ports, sources_same h]

theorem portTuples_same (ports : List ℕ) (x y : ℕ) (b : Bool) : portTuples rg' ports x y b = portTuples rg ports x y b := by
  unfold portTuples RGraph.edgeLabel
  rw [h.edges]

theorem infos_same (p : ℕ) : rg'.infos p = rg.infos p := by
  unfold RGraph.infos
  rw [h.edges]
  refine List.filterMap_congr (fun e he => ?_)
  obtain ⟨n, h1, h2, _⟩ := h.src e (List.mem_filter.1 he).1
  rw [h1, h2]

theorem patternUsage_same (fmt : List (σ × ℕ)) (ports : Finset ℕ) : patternUsage rg' fmt ports = patternUsage rg fmt ports := by
  unfold patternUsage
  simp only [infos_same h]

theorem candUsage_same (env : GenEnv σ) (c : GCand σ) (hc : good c.first) : candUsage env rg' c = candUsage env rg c := by
  unfold candUsage
  simp only [patternUsage_same h, h.count _ hc]

theorem makeCand_same (env : GenEnv σ) (x y : ℕ) (n m : RNode σ) (hx : rg.node? x = some n) (hx' : rg'.node? x = some n) (hn : good n.label) (hy : rg.node? y = some m) (hy' : rg'.node? y = some m) (hm : good m.label) :
    makeCand env rg' x y = makeCand env rg x y ∧ ∀ c, makeCand env rg x y = .ok c → good c.first ∧ good c.second := by
  constructor
  · unfold makeCand
    simp only [hx, hx', hy, hy', sharedPorts_same h, portTuples_same h]
  · intro c hc
    unfold makeCand at hc
    simp only [hx, hy] at hc
    split at hc
    · cases h1 : rowPattern env (env.idx (if (!decide (env.idx n.label < env.idx m.label)) = true then m.label else n.label)) with
      | error s => simp only [h1, Except.bind] at hc; cases hc
      | ok k1 =>
        cases h2 : rowPattern env (env.idx (if (!decide (env.idx n.label < env.idx m.label)) = true then n.label else m.label)) with
        | error s => simp only [h1, h2, Except.bind, Except.map] at hc; cases hc
        | ok k2 =>
          simp only [h1, h2, Except.bind, Except.map, Except.ok.injEq] at hc
          subst hc
          simp only
          split <;> exact ⟨by assumption, by assumption⟩
    · split at hc
      · cases h1 : rowPattern env (env.idx m.label) with
        | error s => simp [h1, Except.map] at hc
        | ok k1 =>
          simp only [h1, Except.map, Except.ok.injEq] at hc
          subst hc
          exact ⟨hm, hn⟩
      · split at hc
        · cases h1 : rowPattern env (env.idx n.label) with
          | error s => simp [h1, Except.bind] at hc
          | ok k1 =>
            cases h2 : singletonPattern env m.label with
            | error s => simp [h1, h2, Except.bind, Except.map] at hc
            | ok k2 =>
              simp only [h1, h2, Except.bind, Except.map, Except.ok.injEq] at hc
              subst hc
              exact ⟨hn, hm⟩
        · split at hc
          · cases hc; exact ⟨hn, hm⟩
          · cases hc; exact ⟨hm, hn⟩

theorem collect_same (env : GenEnv σ) : ∀ (L : List (ℕ × ℕ)) (cs : List (GCand σ)), (∀ q ∈ L, (∃ e ∈ rg.edges, e.1 = q.1) ∧ ∃ e ∈ rg.edges, e.1 = q.2) → (∀ c ∈ cs, good c.first ∧ good c.second) →
    collect env rg' L cs = collect env rg L cs ∧ ∀ ds, collect env rg L cs = .ok ds → ∀ c ∈ ds, good c.first ∧ good c.second
  | [], cs, _, hcs => ⟨rfl, fun ds hds => by simp only [collect, Except.ok.injEq] at hds; subst hds; exact hcs⟩
  | q :: t, cs, hL, hcs => by
    obtain ⟨⟨e1, he1, hq1⟩, ⟨e2, he2, hq2⟩⟩ := hL q (by simp)
    obtain ⟨n, h1, h2, h3⟩ := h.src e1 he1
    obtain ⟨m, h4, h5, h6⟩ := h.src e2 he2
    rw [hq1] at h1 h2
    rw [hq2] at h4 h5
    obtain ⟨h7, h8⟩ := makeCand_same h env q.1 q.2 n m h1 h2 h3 h4 h5 h6
    rw [collect, collect, h7]
    cases hc : makeCand env rg q.1 q.2 with
    | error s => exact ⟨rfl, fun ds hds => by simp [Except.bind] at hds⟩
    | ok c =>
      simp only [Except.bind]
      refine collect_same env t _ (fun q hq => hL q (by simp [hq])) ?_
      have h9 := h8 c hc
      have : ∀ (cs : List (GCand σ)), (∀ c ∈ cs, good c.first ∧ good c.second) → ∀ d ∈ addCand cs c, good d.first ∧ good d.second := by
        intro cs
        induction cs with
        | nil => intro _ d hd; simp only [addCand, List.mem_singleton] at hd; subst hd; exact h9
        | cons a u ih =>
          intro hcs d hd
          rw [addCand] at hd
          split at hd
          · rw [List.mem_cons] at hd
            rcases hd with rfl | hd
            · exact hcs a (by simp)
            · exact hcs d (by simp [hd])
          · rw [List.mem_cons] at hd
            rcases hd with rfl | hd
            · exact hcs d (by simp)
            · exact ih (fun c hc => hcs c (by simp [hc])) d hd
      exact this cs hcs

theorem finish_same (env : GenEnv σ) : ∀ (L done : List (GCand σ)), (∀ c ∈ L, good c.first ∧ good c.second) → finish env rg' done L = finish env rg done L
  | [], done, _ => rfl
  | r :: t, done, hL => by
    rw [finish, finish, candUsage_same h env r (hL r (by simp)).1]
    congr 1
    funext u
    congr 1
    funext k
    exact finish_same env t _ (fun c hc => hL c (by simp [hc]))

theorem mem_pairsOf {L : List ℕ} {q : ℕ × ℕ} : q ∈ pairsOf L → q.1 ∈ L ∧ q.2 ∈ L := by
  clear h
  induction L with
  | nil => simp [pairsOf]
  | cons x t ih =>
    intro hq
    rw [pairsOf, List.mem_append, List.mem_map] at hq
    rcases hq with ⟨y, hy, rfl⟩ | hq
    · exact ⟨by simp, by simp [hy]⟩
    · exact ⟨by simp [(ih hq).1], by simp [(ih hq).2]⟩

theorem generate_same (env : GenEnv σ) (henv : env.Ok) : generate env rg' = generate env rg := by
  unfold generate
  have hv : visited env rg' = visited env rg := by
    unfold visited
    rw [h.ports]
    congr 1
    funext p
    rw [sources_same h]
  have hq : ∀ q ∈ visited env rg, (∃ e ∈ rg.edges, e.1 = q.1) ∧ ∃ e ∈ rg.edges, e.1 = q.2 := by
    intro q hq
    unfold visited at hq
    rw [List.mem_flatMap] at hq
    obtain ⟨p, _, hq⟩ := hq
    have := (henv.pairs _).mem_iff.1 hq
    rw [List.mem_dedup] at this
    have hs : ∀ x, x ∈ rg.sources p → ∃ e ∈ rg.edges, e.1 = x := by
      intro x hx
      unfold RGraph.sources at hx
      rw [List.mem_map] at hx
      obtain ⟨e, he, hx⟩ := hx
      exact ⟨e, (List.mem_filter.1 he).1, hx⟩
    have hh : q.1 ∈ rg.sources p ∧ q.2 ∈ rg.sources p := mem_pairsOf h this
    exact ⟨hs _ hh.1, hs _ hh.2⟩
  obtain ⟨h1, h2⟩ := collect_same h env (visited env rg) [] hq (by simp)
  rw [hv, h1]
  cases hc : collect env rg (visited env rg) [] with
  | error s => rfl
  | ok cs => exact finish_same h env cs [] (h2 cs hc)

end

end Verif.Graph
