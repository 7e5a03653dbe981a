import Verif.Graph.VertexSpec
import Verif.Graph.CoverHistory

/-!
# Covers of a data graph with other vertices
-/

set_option autoImplicit false
set_option linter.unusedSectionVars false

namespace Verif.Graph

variable {σ : Type} [DecidableEq σ]

/-! ## Results in relation -/

/-- Both raise the same error, or the values are in relation. -/
def Lift {α β : Type} (R : α → β → Prop) : Except String α → Except String β → Prop
  | .ok a, .ok b => R a b
  | .error e, .error f => e = f
  | _, _ => False

theorem Lift.bind {α β γ δ : Type} {R : α → β → Prop} {S : γ → δ → Prop} {x : Except String α} {y : Except String β} {f : α → Except String γ} {g : β → Except String δ} (h : Lift R x y)
    (hfg : ∀ a b, R a b → Lift S (f a) (g b)) : Lift S (x.bind f) (y.bind g) := by
  cases x <;> cases y
  · exact h
  · exact h.elim
  · exact h.elim
  · exact hfg _ _ h

theorem Lift.map {α β γ δ : Type} {R : α → β → Prop} {S : γ → δ → Prop} {x : Except String α} {y : Except String β} {f : α → γ} {g : β → δ} (h : Lift R x y) (hfg : ∀ a b, R a b → S (f a) (g b)) :
    Lift S (x.map f) (y.map g) := by
  cases x <;> cases y
  · exact h
  · exact h.elim
  · exact h.elim
  · exact hfg _ _ h

theorem Lift.ok_left {α β : Type} {R : α → β → Prop} {x : Except String α} {y : Except String β} (h : Lift R x y) {a : α} (hx : x = .ok a) : ∃ b, y = .ok b ∧ R a b := by
  subst hx
  cases y
  · exact h.elim
  · exact ⟨_, rfl, h⟩

theorem Lift.ok_right {α β : Type} {R : α → β → Prop} {x : Except String α} {y : Except String β} (h : Lift R x y) {b : β} (hy : y = .ok b) : ∃ a, x = .ok a ∧ R a b := by
  subst hy
  cases x
  · exact h.elim
  · exact ⟨_, rfl, h⟩

/-! ## The graph with other vertices -/

/-- The data as the cover reads it, with other vertices. -/
def DGraph.renamed (f : ℕ → ℕ) (g : DGraph σ) : DGraph σ := ⟨g.multi, g.nodes.map (fun n => (f n.1, n.2)), g.edges.map (fun e => (f e.1, f e.2.1, e.2.2))⟩

theorem view_renamed (f : ℕ → ℕ) (g : LGraph σ) : (g.renamed f).view = g.view.renamed f := by
  unfold LGraph.view LGraph.renamed DGraph.renamed
  simp only [DGraph.mk.injEq, true_and, List.map_map, List.filterMap_map, List.map_filterMap]
  refine ⟨List.map_congr_left (fun n _ => rfl), ?_⟩
  congr 1
  funext e
  simp only [Function.comp]
  cases e.2.2 <;> rfl

/-- A piece of the cover, with other vertices. -/
def Piece.renamed (f : ℕ → ℕ) : Piece σ → Piece σ
  | .emb i e ports => .emb i (Embedding.renamed f e) (Embedding.renamed f ports)
  | .edge u v l => .edge (f u) (f v) l
  | .vertex v l => .vertex (f v) l

/-- A row whose embeddings are in the data with other vertices. -/
def Row.renamed (f : ℕ → ℕ) (r : Row σ) : Row σ := ⟨r.pattern, r.embeddings.map (Embedding.renamed f), r.used.map (fun x => (Embedding.renamed f x.1, Embedding.renamed f x.2))⟩

/-- The same marks on the data with other vertices. -/
structure MarksFor (f : ℕ → ℕ) (m n : Marks σ) : Prop where
  marker : n.marker = m.marker
  emark : ∀ u v l, n.emark (f u, f v, l) = m.emark (u, v, l)
  nmark : ∀ v l, n.nmark (f v, l) = m.nmark (v, l)

theorem lookup_renamed {β : Type} {f : ℕ → ℕ} (hf : Function.Injective f) (L : List (ℕ × β)) (v : ℕ) : (L.map (fun n => (f n.1, n.2))).lookup (f v) = L.lookup v := by
  induction L with
  | nil => rfl
  | cons x t ih =>
    obtain ⟨u, y⟩ := x
    rw [List.map_cons, List.lookup_cons, List.lookup_cons, ih]
    have : (f v == f u) = (v == u) := by
      rw [Bool.eq_iff_iff, beq_iff_eq, beq_iff_eq, hf.eq_iff]
    rw [this]

theorem labels_renamed {f : ℕ → ℕ} (hf : Function.Injective f) (g : DGraph σ) (v : ℕ) : (g.renamed f).labels (f v) = g.labels v := by
  unfold DGraph.labels DGraph.renamed
  rw [lookup_renamed hf]

theorem hasEdge_renamed {f : ℕ → ℕ} (hf : Function.Injective f) (g : DGraph σ) (u v : ℕ) : (g.renamed f).hasEdge (f u) (f v) = g.hasEdge u v := by
  unfold DGraph.hasEdge DGraph.renamed
  simp only [List.any_map, Function.comp_def, hf.eq_iff]

theorem degree_renamed {f : ℕ → ℕ} (hf : Function.Injective f) (g : DGraph σ) (v : ℕ) : (g.renamed f).degree (f v) = g.degree v := by
  unfold DGraph.degree DGraph.renamed
  simp only [List.filter_map, List.length_map, Function.comp_def, hf.eq_iff]

theorem mem_edges_renamed {f : ℕ → ℕ} (hf : Function.Injective f) (g : DGraph σ) (u v : ℕ) (l : σ) : (f u, f v, l) ∈ (g.renamed f).edges ↔ (u, v, l) ∈ g.edges := by
  unfold DGraph.renamed
  simp only [List.mem_map, Prod.mk.injEq]
  constructor
  · rintro ⟨⟨a, b, c⟩, h, h1, h2, h3⟩
    rw [← hf h1, ← hf h2, ← h3]; exact h
  · intro h; exact ⟨_, h, rfl, rfl, rfl⟩

theorem edgesIn_renamed (f : ℕ → ℕ) (e : Embedding) (p : DGraph σ) : edgesIn (Embedding.renamed f e) p = edgesIn e p := by
  have : (Embedding.renamed f e).map Prod.snd = e.map Prod.snd := by simp [Embedding.renamed, List.map_map, Function.comp_def]
  unfold edgesIn
  rw [this]

theorem keyOf_renamed (f : ℕ → ℕ) (e : Embedding) (a : ℕ) (h : a ∈ e.map Prod.snd) : keyOf (Embedding.renamed f e) a = f (keyOf e a) := by
  unfold keyOf Embedding.renamed
  induction e with
  | nil => simp at h
  | cons x t ih =>
    rw [List.map_cons, List.find?_cons, List.find?_cons]
    by_cases hx : x.2 = a
    · simp [hx]
    · simp only [hx, decide_false]
      refine ih ?_
      rw [List.map_cons, List.mem_cons] at h
      exact h.resolve_left (fun h => hx h.symm)

theorem ends_mem (e : Embedding) (p : DGraph σ) : ∀ x ∈ edgesIn e p, x.1 ∈ e.map Prod.snd ∧ x.2 ∈ e.map Prod.snd := by
  intro x hx
  unfold edgesIn at hx
  rw [List.mem_dedup, List.mem_filter] at hx
  exact of_decide_eq_true hx.2

/-! ## Marks -/

theorem edgeMarked_renamed {f : ℕ → ℕ} (hf : Function.Injective f) (g : DGraph σ) {m n : Marks σ} (h : MarksFor f m n) (u v : ℕ) (l : σ) :
    edgeMarked (g.renamed f) n (f u) (f v) l = edgeMarked g m u v l := by
  unfold edgeMarked
  simp only [mem_edges_renamed hf, h.emark, h.marker]
  rfl

theorem marksFor_edge {f : ℕ → ℕ} (hf : Function.Injective f) {m n : Marks σ} (h : MarksFor f m n) (u v : ℕ) (l : σ) :
    MarksFor f { m with emark := fun x => if x = (u, v, l) then m.marker else m.emark x } { n with emark := fun x => if x = (f u, f v, l) then n.marker else n.emark x } := by
  refine ⟨h.marker, fun a b k => ?_, h.nmark⟩
  simp only [Prod.mk.injEq, hf.eq_iff, h.marker, h.emark]

theorem marksFor_label {f : ℕ → ℕ} (hf : Function.Injective f) {m n : Marks σ} (h : MarksFor f m n) (v : ℕ) (l : σ) :
    MarksFor f { m with nmark := fun x => if x = (v, l) then m.marker else m.nmark x } { n with nmark := fun x => if x = (f v, l) then n.marker else n.nmark x } := by
  refine ⟨h.marker, h.emark, fun a k => ?_⟩
  simp only [Prod.mk.injEq, hf.eq_iff, h.marker, h.nmark]

theorem marksFor_markNode {f : ℕ → ℕ} (hf : Function.Injective f) (g : DGraph σ) {m n : Marks σ} (h : MarksFor f m n) (v : ℕ) (ls : List σ) :
    MarksFor f (markNode g m v ls) (markNode (g.renamed f) n (f v) ls) := by
  refine ⟨h.marker, h.emark, fun a k => ?_⟩
  simp only [markNode, hf.eq_iff, h.marker, h.nmark, labels_renamed hf]

theorem anyMarked_renamed {f : ℕ → ℕ} (hf : Function.Injective f) (g p : DGraph σ) {m n : Marks σ} (h : MarksFor f m n) (e : Embedding) :
    ∀ L : List (ℕ × ℕ), (∀ x ∈ L, x.1 ∈ e.map Prod.snd ∧ x.2 ∈ e.map Prod.snd) → anyMarked (g.renamed f) p n (Embedding.renamed f e) L = anyMarked g p m e L
  | [], _ => rfl
  | (a, b) :: t, hL => by
    have h1 := hL (a, b) (by simp)
    rw [anyMarked, anyMarked, keyOf_renamed f e a h1.1, keyOf_renamed f e b h1.2, hasEdge_renamed hf, hasEdge_renamed hf, anyMarked_renamed hf g p h e t (fun x hx => hL x (by simp [hx]))]
    have h2 : edgeMarked (g.renamed f) n (f (keyOf e a)) (f (keyOf e b)) = edgeMarked g m (keyOf e a) (keyOf e b) := funext (fun l => edgeMarked_renamed hf g h ..)
    rw [h2]

theorem embMarked_renamed {f : ℕ → ℕ} (hf : Function.Injective f) (g p : DGraph σ) {m n : Marks σ} (h : MarksFor f m n) (e : Embedding) : embMarked (g.renamed f) p n (Embedding.renamed f e) = embMarked g p m e := by
  unfold embMarked
  rw [edgesIn_renamed, anyMarked_renamed hf g p h e _ (ends_mem e p)]

theorem markLabels_renamed {f : ℕ → ℕ} (hf : Function.Injective f) (g : DGraph σ) (u v : ℕ) : ∀ (ls : List σ) {m n : Marks σ}, MarksFor f m n →
    Lift (MarksFor f) (markLabels g u v ls m) (markLabels (g.renamed f) (f u) (f v) ls n)
  | [], _, _, h => h
  | l :: t, m, n, h => by
    rw [markLabels, markLabels]
    refine Lift.bind ?_ (fun a b hab => markLabels_renamed hf g u v t hab)
    unfold markEdge
    simp only [mem_edges_renamed hf]
    split
    · exact marksFor_edge hf h u v l
    · rfl

theorem markEdges_renamed {f : ℕ → ℕ} (hf : Function.Injective f) (g p : DGraph σ) (e : Embedding) : ∀ (L : List (ℕ × ℕ)) {m n : Marks σ}, (∀ x ∈ L, x.1 ∈ e.map Prod.snd ∧ x.2 ∈ e.map Prod.snd) →
    MarksFor f m n → Lift (MarksFor f) (markEdges g p e L m) (markEdges (g.renamed f) p (Embedding.renamed f e) L n)
  | [], _, _, _, h => h
  | (a, b) :: t, m, n, hL, h => by
    have h1 := hL (a, b) (by simp)
    rw [markEdges, markEdges, keyOf_renamed f e a h1.1, keyOf_renamed f e b h1.2, hasEdge_renamed hf, hasEdge_renamed hf]
    refine Lift.bind ?_ (fun a' b' hab => markEdges_renamed hf g p e t (fun x hx => hL x (by simp [hx])) (marksFor_markNode hf g (marksFor_markNode hf g hab ..) ..))
    split
    · exact markLabels_renamed hf g _ _ _ h
    · split
      · rfl
      · exact h

theorem markEmb_renamed {f : ℕ → ℕ} (hf : Function.Injective f) (g p : DGraph σ) {m n : Marks σ} (h : MarksFor f m n) (e : Embedding) :
    Lift (MarksFor f) (markEmb g p m e) (markEmb (g.renamed f) p n (Embedding.renamed f e)) := by
  unfold markEmb
  rw [edgesIn_renamed]
  exact markEdges_renamed hf g p e _ (ends_mem e p) h

theorem searchPort_renamed {f : ℕ → ℕ} (hf : Function.Injective f) (g p : DGraph σ) {m n : Marks σ} (h : MarksFor f m n) (e : Embedding) :
    searchPort (g.renamed f) p n (Embedding.renamed f e) = Embedding.renamed f (searchPort g p m e) := by
  unfold searchPort allLabelsMarked Embedding.renamed
  rw [List.filter_map]
  congr 1
  simp only [Function.comp_def, degree_renamed hf, labels_renamed hf, h.nmark, h.marker]

/-! ## The cover -/

/-- Marks in relation, and the pieces with the other vertices. -/
def PiecesFor (f : ℕ → ℕ) (x y : Marks σ × List (Piece σ)) : Prop := MarksFor f x.1 y.1 ∧ y.2 = x.2.map (Piece.renamed f)

theorem coverEmbs_renamed {f : ℕ → ℕ} (hf : Function.Injective f) (g p : DGraph σ) (i : ℕ) : ∀ (es : List Embedding) {m n : Marks σ}, MarksFor f m n →
    Lift (PiecesFor f) (coverEmbs g p i es m) (coverEmbs (g.renamed f) p i (es.map (Embedding.renamed f)) n)
  | [], _, _, h => ⟨h, rfl⟩
  | e :: t, m, n, h => by
    rw [List.map_cons, coverEmbs, coverEmbs, embMarked_renamed hf g p h]
    cases embMarked g p m e with
    | error s => rfl
    | ok b =>
      simp only [Except.bind]
      split
      · exact coverEmbs_renamed hf g p i t h
      · refine Lift.bind (markEmb_renamed hf g p h e) (fun a b hab => Lift.map (coverEmbs_renamed hf g p i t hab) (fun x y hxy => ⟨hxy.1, ?_⟩))
        rw [List.map_cons, hxy.2, searchPort_renamed hf g p hab]
        rfl

theorem coverVerts_renamed {f : ℕ → ℕ} (hf : Function.Injective f) (g p : DGraph σ) (i : ℕ) (e : Embedding) : ∀ (L : List (ℕ × ℕ)) {m n : Marks σ}, MarksFor f m n →
    Lift (PiecesFor f) (coverVerts g p i e L m) (coverVerts (g.renamed f) p i (Embedding.renamed f e) (Embedding.renamed f L) n)
  | [], _, _, h => ⟨h, rfl⟩
  | (v, a) :: t, m, n, h => by
    have hc : Embedding.renamed f ((v, a) :: t) = (f v, a) :: Embedding.renamed f t := rfl
    rw [hc, coverVerts, coverVerts]
    simp only [labels_renamed hf, h.nmark, h.marker]
    split
    · rfl
    · split
      · rfl
      · split
        · exact coverVerts_renamed hf g p i e t h
        · refine Lift.map (coverVerts_renamed hf g p i e t (marksFor_markNode hf g h v _)) (fun x y hxy => ⟨hxy.1, ?_⟩)
          rw [List.map_cons, hxy.2, searchPort_renamed hf g p h]
          rfl

theorem coverNodes_renamed {f : ℕ → ℕ} (hf : Function.Injective f) (g p : DGraph σ) (i : ℕ) : ∀ (es : List Embedding) {m n : Marks σ}, MarksFor f m n →
    Lift (PiecesFor f) (coverNodes g p i es m) (coverNodes (g.renamed f) p i (es.map (Embedding.renamed f)) n)
  | [], _, _, h => ⟨h, rfl⟩
  | e :: t, m, n, h => by
    rw [List.map_cons, coverNodes, coverNodes]
    refine Lift.bind (coverVerts_renamed hf g p i e e h) (fun a b hab => Lift.map (coverNodes_renamed hf g p i t hab.1) (fun x y hxy => ⟨hxy.1, ?_⟩))
    rw [List.map_append, hxy.2, hab.2]

theorem rowCover_renamed {f : ℕ → ℕ} (hf : Function.Injective f) (g : DGraph σ) (i : ℕ) (r : Row σ) {m n : Marks σ} (h : MarksFor f m n) :
    Lift (PiecesFor f) (rowCover g i r m) (rowCover (g.renamed f) i (r.renamed f) n) := by
  unfold rowCover
  have hp : (r.renamed f).pattern = r.pattern := rfl
  rw [hp]
  split
  · exact coverEmbs_renamed hf g _ i _ h
  · exact coverNodes_renamed hf g _ i _ h

theorem entries_renamed (f : ℕ → ℕ) (ps : List (Piece σ)) : (ps.map (Piece.renamed f)).filterMap Piece.entry? = (ps.filterMap Piece.entry?).map (fun x => (Embedding.renamed f x.1, Embedding.renamed f x.2)) := by
  rw [List.filterMap_map, List.map_filterMap]
  congr 1
  funext pc
  cases pc <;> rfl

theorem coverRows_renamed {f : ℕ → ℕ} (hf : Function.Injective f) (g : DGraph σ) : ∀ (i : ℕ) (rows : List (Row σ)) {m n : Marks σ}, MarksFor f m n →
    Lift (fun x y => MarksFor f x.1 y.1 ∧ y.2.1 = x.2.1.map (Row.renamed f) ∧ y.2.2 = x.2.2.map (Piece.renamed f)) (coverRows g i rows m) (coverRows (g.renamed f) i (rows.map (Row.renamed f)) n)
  | _, [], _, _, h => ⟨h, rfl, rfl⟩
  | i, r :: t, m, n, h => by
    rw [List.map_cons, coverRows, coverRows]
    refine Lift.bind (rowCover_renamed hf g i r h) (fun a b hab => Lift.map (coverRows_renamed hf g (i + 1) t hab.1) (fun x y hxy => ⟨hxy.1, ?_, ?_⟩))
    · rw [List.map_cons, hxy.2.1]
      simp only [Row.renamed, hab.2, entries_renamed, List.map_append]
    · rw [List.map_append, hxy.2.2, hab.2]

theorem singleEdges_renamed {f : ℕ → ℕ} (hf : Function.Injective f) (g : DGraph σ) : ∀ (L : List (ℕ × ℕ × σ)) {m n : Marks σ}, MarksFor f m n →
    PiecesFor f (singleEdges g L m) (singleEdges (g.renamed f) (L.map (fun e => (f e.1, f e.2.1, e.2.2))) n)
  | [], _, _, h => ⟨h, rfl⟩
  | (u, v, l) :: t, m, n, h => by
    rw [List.map_cons, singleEdges, singleEdges, edgeMarked_renamed hf g h]
    split
    · exact singleEdges_renamed hf g t h
    · have := singleEdges_renamed hf g t (marksFor_edge hf h u v l)
      refine ⟨this.1, ?_⟩
      simp only [List.map_cons, this.2]
      rfl

theorem singleLabels_renamed {f : ℕ → ℕ} (hf : Function.Injective f) (v : ℕ) : ∀ (L : List σ) {m n : Marks σ}, MarksFor f m n → PiecesFor f (singleLabels v L m) (singleLabels (f v) L n)
  | [], _, _, h => ⟨h, rfl⟩
  | l :: t, m, n, h => by
    rw [singleLabels, singleLabels, h.nmark, h.marker]
    split
    · exact singleLabels_renamed hf v t h
    · have h2 := marksFor_label hf h v l
      rw [h.marker] at h2
      have := singleLabels_renamed hf v t h2
      refine ⟨this.1, ?_⟩
      simp only [List.map_cons, this.2]
      rfl

theorem singleNodes_renamed {f : ℕ → ℕ} (hf : Function.Injective f) : ∀ (L : List (ℕ × List σ)) {m n : Marks σ}, MarksFor f m n →
    PiecesFor f (singleNodes L m) (singleNodes (L.map (fun x => (f x.1, x.2))) n)
  | [], _, _, h => ⟨h, rfl⟩
  | (v, ls) :: t, m, n, h => by
    rw [List.map_cons, singleNodes, singleNodes]
    have h1 := singleLabels_renamed hf v ls h
    have h2 := singleNodes_renamed hf t h1.1
    refine ⟨h2.1, ?_⟩
    simp only [List.map_append, h1.2, h2.2]

theorem cover_renamed {f : ℕ → ℕ} (hf : Function.Injective f) (g : DGraph σ) (rows : List (Row σ)) {m n : Marks σ} (h : MarksFor f m n) :
    Lift (fun x y => MarksFor f x.1 y.1 ∧ y.2.1 = x.2.1.map (Row.renamed f) ∧ y.2.2 = x.2.2.map (Piece.renamed f)) (cover g rows m) (cover (g.renamed f) (rows.map (Row.renamed f)) n) := by
  unfold cover
  have h0 : MarksFor f { m with marker := m.marker + 1 } { n with marker := n.marker + 1 } := ⟨by simp [h.marker], h.emark, h.nmark⟩
  refine Lift.map (coverRows_renamed hf g 0 rows h0) (fun x y hxy => ?_)
  have h1 := singleEdges_renamed hf g g.edges hxy.1
  have h2 := singleNodes_renamed hf g.nodes h1.1
  refine ⟨h2.1, hxy.2.1, ?_⟩
  simp only [List.map_append]
  rw [hxy.2.2]
  congr 1
  · congr 1
    exact h1.2
  · exact h2.2

end Verif.Graph
