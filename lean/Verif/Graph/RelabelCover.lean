import Verif.Graph.RelabelSpec

/-!
# Covers of a data graph with other names for its labels
-/

set_option autoImplicit false
set_option linter.unusedSectionVars false

namespace Verif.Graph

variable {σ τ : Type} [DecidableEq σ] [DecidableEq τ]

theorem Except.bind_map' {α β γ ε : Type} (x : Except ε α) (f : α → β) (k : β → Except ε γ) : (x.map f).bind k = x.bind (fun a => k (f a)) := by cases x <;> rfl

theorem Except.map_bind' {α β γ ε : Type} (x : Except ε α) (k : α → Except ε β) (f : β → γ) : (x.bind k).map f = x.bind (fun a => (k a).map f) := by cases x <;> rfl

theorem Except.map_map' {α β γ ε : Type} (x : Except ε α) (f : α → β) (h : β → γ) : (x.map f).map h = x.map (fun a => h (f a)) := by cases x <;> rfl

theorem Except.bind_congr' {α β ε : Type} (x : Except ε α) {k l : α → Except ε β} (h : ∀ a, k a = l a) : x.bind k = x.bind l := by cases x <;> simp [Except.bind, h]

theorem Except.map_id' {α ε : Type} (x : Except ε α) : x.map (fun a => a) = x := by cases x <;> rfl

/-! ## Graphs, marks and pieces -/

/-- The data as the cover reads it. -/
def DGraph.relabel (g : σ ≃ τ) (d : DGraph σ) : DGraph τ := ⟨d.multi, d.nodes.map (fun n => (n.1, n.2.map g)), d.edges.map (fun e => (e.1, e.2.1, g e.2.2))⟩

/-- The same marks. -/
def Marks.relabel (g : σ ≃ τ) (m : Marks σ) : Marks τ := ⟨m.marker, fun x => m.emark (x.1, x.2.1, g.symm x.2.2), fun x => m.nmark (x.1, g.symm x.2)⟩

/-- A piece with the new names. -/
def Piece.relabel (g : σ ≃ τ) : Piece σ → Piece τ
  | .emb i e ports => .emb i e ports
  | .edge u v l => .edge u v (g l)
  | .vertex v l => .vertex v (g l)

/-- A row with the new names. -/
def Row.relabel (g : σ ≃ τ) (r : Row σ) : Row τ := ⟨r.pattern.relabel g, r.embeddings, r.used⟩

theorem Label.relabel_names (g : σ ≃ τ) (l : Label σ) : (l.relabel g).names = l.names.map g := by cases l <;> rfl

theorem view_relabel (g : σ ≃ τ) (d : LGraph σ) : (d.relabel g).view = d.view.relabel g := by
  unfold LGraph.view LGraph.relabel DGraph.relabel
  simp only [DGraph.mk.injEq, true_and, List.map_map, List.filterMap_map, List.map_filterMap]
  refine ⟨List.map_congr_left (fun n _ => by simp [Label.relabel_names]), ?_⟩
  congr 1
  funext e
  simp only [Function.comp]
  cases e.2.2 <;> rfl

theorem labels_relabel (g : σ ≃ τ) (d : DGraph σ) (v : ℕ) : (d.relabel g).labels v = (d.labels v).map g := by
  unfold DGraph.labels DGraph.relabel
  simp only
  induction d.nodes with
  | nil => rfl
  | cons x t ih =>
    rw [List.map_cons, List.lookup_cons, List.lookup_cons]
    cases v == x.1
    · exact ih
    · rfl

theorem hasEdge_relabel (g : σ ≃ τ) (d : DGraph σ) (u v : ℕ) : (d.relabel g).hasEdge u v = d.hasEdge u v := by
  simp [DGraph.hasEdge, DGraph.relabel, List.any_map, Function.comp_def]

theorem edgeLabels_relabel (g : σ ≃ τ) (d : DGraph σ) (u v : ℕ) : (d.relabel g).edgeLabels u v = (d.edgeLabels u v).map g := by
  simp [DGraph.edgeLabels, DGraph.relabel, List.filter_map, Function.comp_def]

theorem degree_relabel (g : σ ≃ τ) (d : DGraph σ) (v : ℕ) : (d.relabel g).degree v = d.degree v := by
  simp [DGraph.degree, DGraph.relabel, List.filter_map, Function.comp_def]

theorem edges_relabel (g : σ ≃ τ) (d : DGraph σ) (u v : ℕ) (l : σ) : (u, v, g l) ∈ (d.relabel g).edges ↔ (u, v, l) ∈ d.edges := by
  simp only [DGraph.relabel, List.mem_map, Prod.mk.injEq]
  constructor
  · rintro ⟨⟨a, b, c⟩, h, h1, h2, h3⟩
    rw [← h1, ← h2, ← g.injective h3]; exact h
  · intro h; exact ⟨_, h, rfl, rfl, rfl⟩

theorem edgesIn_relabel (g : σ ≃ τ) (e : Embedding) (p : DGraph σ) : edgesIn e (p.relabel g) = edgesIn e p := by
  simp [edgesIn, DGraph.relabel, List.map_map, Function.comp_def]

theorem edgeMarked_relabel (g : σ ≃ τ) (d : DGraph σ) (m : Marks σ) (u v : ℕ) (l : σ) : edgeMarked (d.relabel g) (m.relabel g) u v (g l) = edgeMarked d m u v l := by
  unfold edgeMarked
  simp only [edges_relabel]
  simp only [Marks.relabel, Equiv.symm_apply_apply]
  rfl

theorem markEdgeAt_relabel (g : σ ≃ τ) (m : Marks σ) (u v : ℕ) (l : σ) : ({ m.relabel g with emark := fun x => if x = (u, v, g l) then (m.relabel g).marker else (m.relabel g).emark x } : Marks τ) =
    Marks.relabel g { m with emark := fun x => if x = (u, v, l) then m.marker else m.emark x } := by
  simp only [Marks.relabel, Marks.mk.injEq, and_true, true_and]
  funext x
  obtain ⟨a, b, c⟩ := x
  simp only [Prod.mk.injEq, Equiv.symm_apply_eq]

theorem markEdge_relabel (g : σ ≃ τ) (d : DGraph σ) (m : Marks σ) (u v : ℕ) (l : σ) : markEdge (d.relabel g) (m.relabel g) u v (g l) = (markEdge d m u v l).map (Marks.relabel g) := by
  unfold markEdge
  simp only [edges_relabel]
  split
  · rw [Except.map, markEdgeAt_relabel]
  · rfl

theorem mem_map_equiv (g : σ ≃ τ) (l : List σ) (x : τ) : x ∈ l.map g ↔ g.symm x ∈ l := by
  rw [List.mem_map]
  constructor
  · rintro ⟨a, h, rfl⟩; simpa using h
  · intro h; exact ⟨_, h, by simp⟩

theorem markNode_relabel (g : σ ≃ τ) (d : DGraph σ) (m : Marks σ) (v : ℕ) (ls : List σ) : markNode (d.relabel g) (m.relabel g) v (ls.map g) = (markNode d m v ls).relabel g := by
  unfold markNode
  simp only [labels_relabel, mem_map_equiv]
  rfl

theorem anyMarked_relabel (g : σ ≃ τ) (d p : DGraph σ) (m : Marks σ) (e : Embedding) : ∀ l : List (ℕ × ℕ), anyMarked (d.relabel g) (p.relabel g) (m.relabel g) e l = anyMarked d p m e l
  | [] => rfl
  | (a, b) :: t => by
    rw [anyMarked, anyMarked, anyMarked_relabel g d p m e t]
    simp only [hasEdge_relabel, edgeLabels_relabel, List.any_map, Function.comp_def, edgeMarked_relabel]

theorem embMarked_relabel (g : σ ≃ τ) (d p : DGraph σ) (m : Marks σ) (e : Embedding) : embMarked (d.relabel g) (p.relabel g) (m.relabel g) e = embMarked d p m e := by
  unfold embMarked
  rw [edgesIn_relabel, anyMarked_relabel]

theorem markLabels_relabel (g : σ ≃ τ) (d : DGraph σ) (u v : ℕ) : ∀ (ls : List σ) (m : Marks σ), markLabels (d.relabel g) u v (ls.map g) (m.relabel g) = (markLabels d u v ls m).map (Marks.relabel g)
  | [], m => rfl
  | l :: t, m => by
    rw [List.map_cons, markLabels, markLabels, markEdge_relabel, Except.bind_map', Except.map_bind']
    exact Except.bind_congr' _ (fun m => markLabels_relabel g d u v t m)

theorem markEdges_relabel (g : σ ≃ τ) (d p : DGraph σ) (e : Embedding) : ∀ (l : List (ℕ × ℕ)) (m : Marks σ), markEdges (d.relabel g) (p.relabel g) e l (m.relabel g) = (markEdges d p e l m).map (Marks.relabel g)
  | [], m => rfl
  | (a, b) :: t, m => by
    rw [markEdges, markEdges]
    simp only [hasEdge_relabel, edgeLabels_relabel, labels_relabel, markLabels_relabel]
    have : ∀ x : Except String (Marks σ), (x.map (Marks.relabel g)).bind (fun m => markEdges (d.relabel g) (p.relabel g) e t (markNode (d.relabel g) (markNode (d.relabel g) m (keyOf e a) ((p.labels a).map g)) (keyOf e b) ((p.labels b).map g))) =
        (x.bind (fun m => markEdges d p e t (markNode d (markNode d m (keyOf e a) (p.labels a)) (keyOf e b) (p.labels b)))).map (Marks.relabel g) := by
      intro x
      rw [Except.bind_map', Except.map_bind']
      refine Except.bind_congr' _ (fun m => ?_)
      rw [markNode_relabel, markNode_relabel, markEdges_relabel g d p e t]
    rw [← this]
    congr 1
    split
    · rfl
    · split <;> rfl

theorem markEmb_relabel (g : σ ≃ τ) (d p : DGraph σ) (m : Marks σ) (e : Embedding) : markEmb (d.relabel g) (p.relabel g) (m.relabel g) e = (markEmb d p m e).map (Marks.relabel g) := by
  unfold markEmb
  rw [edgesIn_relabel, markEdges_relabel]

theorem searchPort_relabel (g : σ ≃ τ) (d p : DGraph σ) (m : Marks σ) (e : Embedding) : searchPort (d.relabel g) (p.relabel g) (m.relabel g) e = searchPort d p m e := by
  unfold searchPort allLabelsMarked
  simp only [degree_relabel, labels_relabel, List.all_map, Function.comp_def]
  simp only [Marks.relabel, Equiv.symm_apply_apply]

/-- Marks and pieces with the new names. -/
def mp (g : σ ≃ τ) (x : Marks σ × List (Piece σ)) : Marks τ × List (Piece τ) := (x.1.relabel g, x.2.map (Piece.relabel g))

theorem coverEmbs_relabel (g : σ ≃ τ) (d p : DGraph σ) (i : ℕ) : ∀ (l : List Embedding) (m : Marks σ), coverEmbs (d.relabel g) (p.relabel g) i l (m.relabel g) = (coverEmbs d p i l m).map (mp g)
  | [], m => rfl
  | e :: t, m => by
    rw [coverEmbs, coverEmbs, embMarked_relabel, Except.map_bind']
    refine Except.bind_congr' _ (fun b => ?_)
    split
    · exact coverEmbs_relabel g d p i t m
    · rw [markEmb_relabel, Except.bind_map', Except.map_bind']
      refine Except.bind_congr' _ (fun m' => ?_)
      rw [coverEmbs_relabel g d p i t m', Except.map_map', Except.map_map', searchPort_relabel]
      rfl

theorem coverVerts_relabel (g : σ ≃ τ) (d p : DGraph σ) (i : ℕ) (e : Embedding) : ∀ (l : List (ℕ × ℕ)) (m : Marks σ), coverVerts (d.relabel g) (p.relabel g) i e l (m.relabel g) = (coverVerts d p i e l m).map (mp g)
  | [], m => rfl
  | (v, a) :: t, m => by
    have h1 : ((p.relabel g).labels a = []) ↔ p.labels a = [] := by rw [labels_relabel, List.map_eq_nil_iff]
    have h2 : ((p.relabel g).labels a).any (fun l => decide (l ∉ (d.relabel g).labels v)) = (p.labels a).any (fun l => decide (l ∉ d.labels v)) := by
      simp only [labels_relabel, List.any_map, Function.comp_def, mem_map_equiv, Equiv.symm_apply_apply]
    have h3 : ((p.relabel g).labels a).all (fun l => decide ((m.relabel g).nmark (v, l) = (m.relabel g).marker)) = (p.labels a).all (fun l => decide (m.nmark (v, l) = m.marker)) := by
      simp only [labels_relabel, List.all_map, Function.comp_def, Marks.relabel, Equiv.symm_apply_apply]
    rw [coverVerts, coverVerts]
    simp only [h1, h2, h3]
    split
    · rfl
    · split
      · rfl
      · split
        · exact coverVerts_relabel g d p i e t m
        · rw [labels_relabel, markNode_relabel, coverVerts_relabel g d p i e t, Except.map_map', Except.map_map', searchPort_relabel]
          rfl

theorem coverNodes_relabel (g : σ ≃ τ) (d p : DGraph σ) (i : ℕ) : ∀ (l : List Embedding) (m : Marks σ), coverNodes (d.relabel g) (p.relabel g) i l (m.relabel g) = (coverNodes d p i l m).map (mp g)
  | [], m => rfl
  | e :: t, m => by
    rw [coverNodes, coverNodes, coverVerts_relabel, Except.bind_map', Except.map_bind']
    refine Except.bind_congr' _ (fun r => ?_)
    rw [show (mp g r).1 = r.1.relabel g from rfl, coverNodes_relabel g d p i t, Except.map_map', Except.map_map']
    simp only [mp, List.map_append]

theorem rowCover_relabel (g : σ ≃ τ) (d : DGraph σ) (i : ℕ) (r : Row σ) (m : Marks σ) : rowCover (d.relabel g) i (r.relabel g) (m.relabel g) = (rowCover d i r m).map (mp g) := by
  unfold rowCover
  have : (r.relabel g).pattern.edges ≠ [] ↔ r.pattern.edges ≠ [] := by simp [Row.relabel, DGraph.relabel]
  simp only [this]
  split
  · exact coverEmbs_relabel g d r.pattern i r.embeddings m
  · exact coverNodes_relabel g d r.pattern i r.embeddings m

theorem entry_relabel (g : σ ≃ τ) (pc : Piece σ) : (pc.relabel g).entry? = pc.entry? := by cases pc <;> rfl

/-- The result of a cover with the new names. -/
def mrp (g : σ ≃ τ) (x : Marks σ × List (Row σ) × List (Piece σ)) : Marks τ × List (Row τ) × List (Piece τ) := (x.1.relabel g, x.2.1.map (Row.relabel g), x.2.2.map (Piece.relabel g))

theorem coverRows_relabel (g : σ ≃ τ) (d : DGraph σ) : ∀ (rows : List (Row σ)) (i : ℕ) (m : Marks σ), coverRows (d.relabel g) i (rows.map (Row.relabel g)) (m.relabel g) = (coverRows d i rows m).map (mrp g)
  | [], i, m => rfl
  | r :: t, i, m => by
    rw [List.map_cons, coverRows, coverRows, rowCover_relabel, Except.bind_map', Except.map_bind']
    refine Except.bind_congr' _ (fun x => ?_)
    rw [show (mp g x).1 = x.1.relabel g from rfl, coverRows_relabel g d t, Except.map_map', Except.map_map']
    have : ((mp g x).2.filterMap Piece.entry?) = x.2.filterMap Piece.entry? := by
      simp only [mp, List.filterMap_map]
      congr 1
      funext pc
      exact entry_relabel g pc
    simp only [this]
    simp only [mrp, mp, List.map_cons, List.map_append, Row.relabel]

theorem singleEdges_relabel (g : σ ≃ τ) (d : DGraph σ) : ∀ (l : List (ℕ × ℕ × σ)) (m : Marks σ), singleEdges (d.relabel g) (l.map (fun e => (e.1, e.2.1, g e.2.2))) (m.relabel g) = mp g (singleEdges d l m)
  | [], m => rfl
  | (u, v, l) :: t, m => by
    rw [List.map_cons, singleEdges, singleEdges]
    simp only [edgeMarked_relabel]
    split
    · exact singleEdges_relabel g d t m
    · rw [markEdgeAt_relabel, singleEdges_relabel g d t]
      rfl

theorem singleLabels_relabel (g : σ ≃ τ) (v : ℕ) : ∀ (l : List σ) (m : Marks σ), singleLabels v (l.map g) (m.relabel g) = mp g (singleLabels v l m)
  | [], m => rfl
  | l :: t, m => by
    rw [List.map_cons, singleLabels, singleLabels]
    have h : (m.relabel g).nmark (v, g l) = (m.relabel g).marker ↔ m.nmark (v, l) = m.marker := by simp [Marks.relabel]
    simp only [h]
    split
    · exact singleLabels_relabel g v t m
    · have : ({ m.relabel g with nmark := fun x => if x = (v, g l) then (m.relabel g).marker else (m.relabel g).nmark x } : Marks τ) = Marks.relabel g { m with nmark := fun x => if x = (v, l) then m.marker else m.nmark x } := by
        simp only [Marks.relabel, Marks.mk.injEq, true_and]
        funext x
        obtain ⟨a, c⟩ := x
        simp only [Prod.mk.injEq, Equiv.symm_apply_eq]
      rw [this, singleLabels_relabel g v t]
      rfl

theorem singleNodes_relabel (g : σ ≃ τ) : ∀ (l : List (ℕ × List σ)) (m : Marks σ), singleNodes (l.map (fun n => (n.1, n.2.map g))) (m.relabel g) = mp g (singleNodes l m)
  | [], m => rfl
  | (v, ls) :: t, m => by
    rw [List.map_cons, singleNodes, singleNodes]
    simp only [singleLabels_relabel]
    rw [show (mp g (singleLabels v ls m)).1 = (singleLabels v ls m).1.relabel g from rfl, singleNodes_relabel g t]
    simp only [mp, List.map_append]

/-- The cover with the new names. -/
theorem cover_relabel (g : σ ≃ τ) (d : DGraph σ) (rows : List (Row σ)) (m : Marks σ) : cover (d.relabel g) (rows.map (Row.relabel g)) (m.relabel g) = (cover d rows m).map (mrp g) := by
  unfold cover
  have h := coverRows_relabel g d rows 0 { m with marker := m.marker + 1 }
  rw [show ({ m.relabel g with marker := (m.relabel g).marker + 1 } : Marks τ) = Marks.relabel g { m with marker := m.marker + 1 } from rfl, h, Except.map_map', Except.map_map']
  congr 1
  funext x
  have h1 : singleEdges (d.relabel g) (d.relabel g).edges (mrp g x).1 = mp g (singleEdges d d.edges x.1) := singleEdges_relabel g d d.edges x.1
  have h2 : ∀ m, singleNodes (d.relabel g).nodes (Marks.relabel g m) = mp g (singleNodes d.nodes m) := fun m => singleNodes_relabel g d.nodes m
  simp only [h1]
  rw [show (mp g (singleEdges d d.edges x.1)).1 = (singleEdges d d.edges x.1).1.relabel g from rfl, h2]
  simp only [mrp, mp, List.map_append]

theorem fresh_relabel (g : σ ≃ τ) : (Marks.fresh : Marks σ).relabel g = Marks.fresh := rfl

theorem history_relabel (g : σ ≃ τ) (d : DGraph σ) {m : Marks σ} (h : History d m) : History (d.relabel g) (m.relabel g) := by
  induction h with
  | fresh => exact .fresh
  | cover m m' rows rows' ps _ hc ih =>
    have := cover_relabel g d rows m
    rw [hc] at this
    exact .cover _ _ _ _ _ ih this

end Verif.Graph
