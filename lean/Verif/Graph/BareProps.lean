import Verif.Graph.BareSpec
import Verif.Graph.MatchProps
import Verif.Graph.RelabelProps

/-!
# Vertices without label and edges: property C152
-/

set_option autoImplicit false
set_option linter.unusedSectionVars false

namespace Verif.Graph

variable {σ : Type} [DecidableEq σ]

/-! ## The cover reads the edges and the labels -/

/-- Two graphs the cover cannot tell apart, except for the list of vertices. -/
structure SameView (g g' : DGraph σ) : Prop where
  multi : g'.multi = g.multi
  edges : g'.edges = g.edges
  labels : ∀ v, g'.labels v = g.labels v

variable {g g' : DGraph σ}

theorem SameView.hasEdge (h : SameView g g') : g'.hasEdge = g.hasEdge := by
  funext u v; unfold DGraph.hasEdge; rw [h.edges]

theorem SameView.edgeMarked (h : SameView g g') : edgeMarked g' = edgeMarked g := by
  funext m u v l; unfold Verif.Graph.edgeMarked; rw [h.multi, h.edges]

theorem SameView.markEdge (h : SameView g g') : markEdge g' = markEdge g := by
  funext m u v l; unfold Verif.Graph.markEdge; rw [h.multi, h.edges]

theorem SameView.markNode (h : SameView g g') : markNode g' = markNode g := by
  funext m v ls; unfold Verif.Graph.markNode; rw [h.labels]

theorem SameView.degree (h : SameView g g') : g'.degree = g.degree := by
  funext v; unfold DGraph.degree; rw [h.edges]

theorem SameView.anyMarked (h : SameView g g') (p : DGraph σ) (m : Marks σ) (e : Embedding) (L : List (ℕ × ℕ)) : anyMarked g' p m e L = anyMarked g p m e L := by
  induction L with
  | nil => rfl
  | cons x t ih => simp only [Verif.Graph.anyMarked, ih, h.hasEdge, h.edgeMarked]

theorem SameView.markLabels (h : SameView g g') (u v : ℕ) (L : List σ) : markLabels g' u v L = markLabels g u v L := by
  induction L with
  | nil => rfl
  | cons l t ih => funext m; simp only [Verif.Graph.markLabels, ih, h.markEdge]

theorem SameView.markEdges (h : SameView g g') (p : DGraph σ) (e : Embedding) (L : List (ℕ × ℕ)) : markEdges g' p e L = markEdges g p e L := by
  induction L with
  | nil => rfl
  | cons x t ih => funext m; simp only [Verif.Graph.markEdges, ih, h.hasEdge, h.markLabels, h.markNode]

theorem SameView.searchPort (h : SameView g g') (p : DGraph σ) (m : Marks σ) (e : Embedding) : searchPort g' p m e = searchPort g p m e := by
  unfold Verif.Graph.searchPort allLabelsMarked
  simp only [h.degree, h.labels]

theorem SameView.coverEmbs (h : SameView g g') (p : DGraph σ) (i : ℕ) (L : List Embedding) : coverEmbs g' p i L = coverEmbs g p i L := by
  induction L with
  | nil => rfl
  | cons e t ih => funext m; simp only [Verif.Graph.coverEmbs, embMarked, markEmb, ih, h.anyMarked, h.markEdges, h.searchPort]

theorem SameView.coverVerts (h : SameView g g') (p : DGraph σ) (i : ℕ) (e : Embedding) (L : List (ℕ × ℕ)) : coverVerts g' p i e L = coverVerts g p i e L := by
  induction L with
  | nil => rfl
  | cons x t ih => funext m; simp only [Verif.Graph.coverVerts, ih, h.labels, h.markNode, h.searchPort]

theorem SameView.coverNodes (h : SameView g g') (p : DGraph σ) (i : ℕ) (L : List Embedding) : coverNodes g' p i L = coverNodes g p i L := by
  induction L with
  | nil => rfl
  | cons e t ih => funext m; simp only [Verif.Graph.coverNodes, ih, h.coverVerts]

theorem SameView.coverRows (h : SameView g g') (rows : List (Row σ)) : ∀ i, coverRows g' i rows = coverRows g i rows := by
  induction rows with
  | nil => intro i; rfl
  | cons r t ih => intro i; funext m; simp only [Verif.Graph.coverRows, rowCover, ih, h.coverEmbs, h.coverNodes]

theorem SameView.singleEdges (h : SameView g g') (L : List (ℕ × ℕ × σ)) : singleEdges g' L = singleEdges g L := by
  induction L with
  | nil => rfl
  | cons e t ih => funext m; simp only [Verif.Graph.singleEdges, ih, h.edgeMarked]

theorem singleNodes_bare {N N' : List (ℕ × List σ)} (h : N.Sublist N') : (∀ n ∈ N', n ∉ N → n.2 = []) → (N'.map Prod.fst).Nodup → singleNodes N' = singleNodes N := by
  induction h with
  | slnil => intro _ _; rfl
  | cons a hs ih =>
    rename_i l₁ l₂
    intro hb hn
    rw [List.map_cons, List.nodup_cons] at hn
    have ha : a ∉ l₁ := fun hm => hn.1 (List.mem_map.2 ⟨a, hs.subset hm, rfl⟩)
    have h0 := hb a (List.mem_cons_self ..) ha
    rw [← ih (fun n hm => hb n (List.mem_cons_of_mem _ hm)) hn.2]
    obtain ⟨v, ls⟩ := a
    obtain rfl : ls = [] := h0
    funext m
    rfl
  | cons_cons a hs ih =>
    rename_i l₁ l₂
    intro hb hn
    rw [List.map_cons, List.nodup_cons] at hn
    have := ih (fun n hm hno => hb n (List.mem_cons_of_mem _ hm) (by
      rw [List.mem_cons, not_or]
      refine ⟨?_, hno⟩
      rintro rfl
      exact hn.1 (List.mem_map.2 ⟨_, hm, rfl⟩))) hn.2
    funext m
    simp only [singleNodes, this]

/-! ## Vertices without label and edges -/

variable {d d' : LGraph σ}

theorem AddsBare.lookup (h : AddsBare d d') (v : ℕ) : d'.labelAt v = d.labelAt v := by
  have key : ∀ {N N' : List (ℕ × Label σ)}, N.Sublist N' → (∀ n ∈ N', n ∉ N → n.2 = .none) → (N'.map Prod.fst).Nodup → (N'.lookup v).getD .none = (N.lookup v).getD .none := by
    intro N N' hs
    induction hs with
    | slnil => intro _ _; rfl
    | cons a hs ih =>
      rename_i l₁ l₂
      intro hb hn
      rw [List.map_cons, List.nodup_cons] at hn
      have ha : a ∉ l₁ := fun hm => hn.1 (List.mem_map.2 ⟨a, hs.subset hm, rfl⟩)
      have h0 := hb a (List.mem_cons_self ..) ha
      obtain ⟨u, l⟩ := a
      obtain rfl : l = .none := h0
      rw [List.lookup_cons]
      by_cases hv : v = u
      · subst hv
        have hno : l₁.lookup v = none := by
          rw [List.lookup_eq_none_iff]
          intro x hx
          rw [bne_iff_ne]
          intro e
          exact hn.1 (List.mem_map.2 ⟨x, hs.subset hx, e.symm⟩)
        rw [hno]
        simp
      · rw [beq_false_of_ne hv]
        exact ih (fun n hm => hb n (List.mem_cons_of_mem _ hm)) hn.2
    | cons_cons a hs ih =>
      rename_i l₁ l₂
      intro hb hn
      rw [List.map_cons, List.nodup_cons] at hn
      obtain ⟨u, l⟩ := a
      rw [List.lookup_cons, List.lookup_cons]
      cases v == u
      · exact ih (fun n hm hno => hb n (List.mem_cons_of_mem _ hm) (by
          rw [List.mem_cons, not_or]
          refine ⟨?_, hno⟩
          rintro rfl
          exact hn.1 (List.mem_map.2 ⟨_, hm, rfl⟩))) hn.2
      · rfl
  exact key h.nodes (fun n hn hno => (h.bare n hn hno).1) h.nodup

theorem AddsBare.same (h : AddsBare d d') : SameView d.view d'.view :=
  ⟨rfl, by simp only [LGraph.view, h.edges], fun v => by rw [view_labels, view_labels, namesAt_eq, namesAt_eq, h.lookup]⟩

theorem AddsBare.view_nodup (h : AddsBare d d') : (d'.view.nodes.map Prod.fst).Nodup := by
  have := h.nodup
  unfold LGraph.verts at this
  simpa [LGraph.view, List.map_map, Function.comp_def] using this

/-- The cover is the same, with any table and after any covers. -/
theorem AddsBare.cover_eq (h : AddsBare d d') (rows : List (Row σ)) (m : Marks σ) : cover d'.view rows m = cover d.view rows m := by
  have hn : singleNodes d'.view.nodes = singleNodes d.view.nodes := by
    refine singleNodes_bare (h.nodes.map _) ?_ h.view_nodup
    intro n hn hno
    obtain ⟨x, hx, rfl⟩ := List.mem_map.1 hn
    have hx' : x ∉ d.nodes := fun hm => hno (List.mem_map.2 ⟨x, hm, rfl⟩)
    simp only [(h.bare x hx hx').1, Label.names]
  unfold cover
  simp only [h.same.coverRows, h.same.singleEdges, h.same.edges, hn]

theorem AddsBare.history (h : AddsBare d d') (m : Marks σ) : History d'.view m ↔ History d.view m := by
  constructor
  · intro hm
    induction hm with
    | fresh => exact .fresh
    | cover m m' rows rows' ps _ hc ih => rw [h.cover_eq] at hc; exact .cover m m' rows rows' ps ih hc
  · intro hm
    induction hm with
    | fresh => exact .fresh
    | cover m m' rows rows' ps _ hc ih => rw [← h.cover_eq] at hc; exact .cover m m' rows rows' ps ih hc

theorem AddsBare.uses (h : AddsBare d d') (l : σ) : d'.view.Uses l ↔ d.view.Uses l := by
  unfold DGraph.Uses
  rw [h.same.edges]
  have : (∃ v ls, (v, ls) ∈ d'.view.nodes ∧ l ∈ ls) ↔ ∃ v ls, (v, ls) ∈ d.view.nodes ∧ l ∈ ls := by
    constructor
    · rintro ⟨v, ls, hm, hl⟩
      obtain ⟨x, hx, e⟩ := List.mem_map.1 hm
      by_cases hd : x ∈ d.nodes
      · exact ⟨v, ls, List.mem_map.2 ⟨x, hd, e⟩, hl⟩
      · simp only [Prod.mk.injEq] at e
        rw [← e.2, (h.bare x hx hd).1] at hl
        simp [Label.names] at hl
    · rintro ⟨v, ls, hm, hl⟩
      obtain ⟨x, hx, e⟩ := List.mem_map.1 hm
      exact ⟨v, ls, List.mem_map.2 ⟨x, h.nodes.subset hx, e⟩, hl⟩
  rw [this]

theorem AddsBare.symmSearch {lt : σ → σ → Bool} {blank : σ → Bool} {t : LabelTable σ} {nm : Names σ} {emb : LGraph σ → List Embedding} {env : SEnv (Tried σ) ℝ}
    {d d' : LGraph σ} (hc : ∀ rows m, cover d'.view rows m = cover d.view rows m) (hh : ∀ m, History d'.view m ↔ History d.view m) (hu : ∀ l, d'.view.Uses l ↔ d.view.Uses l)
    (h : LabelSearch lt blank t nm emb d env) : LabelSearch lt blank t nm emb d' env := by
  have hl : ∀ pats, totalLength blank t nm emb d' pats = totalLength blank t nm emb d pats := fun pats => by unfold totalLength; rw [hc]
  refine { dl := ?_, same := h.same, gen := ?_, size := h.size, usage := ?_, tests := ?_, sorted := h.sorted }
  · intro rows; rw [hl]; exact h.dl rows
  · intro s c hcm
    obtain ⟨pats, m, r, genv, cs, h1, h2, h3, h4⟩ := h.gen s c hcm
    exact ⟨pats, m, r, genv, cs, h1, (hh m).2 h2, by rw [hc]; exact h3, h4⟩
  · intro rows r; rw [hc]; exact h.usage rows r
  · intro s
    obtain ⟨pats, m, genv, h1, h2, h3, h4, h5⟩ := h.tests s
    refine ⟨pats, m, genv, h1, (hh m).2 h2, h3, ⟨h4.idx, h4.nRows, fun l hl => (hu l).2 (h4.used l hl), fun a b ha hb => h4.lt a b ((hu a).1 ha) ((hu b).1 hb)⟩, ?_⟩
    unfold triedOf at h5 ⊢
    rw [hc]
    exact h5

/-- C152, search: what is a search of the data graph is a search of the graph with further bare vertices, and conversely. -/
theorem bare_search (h : AddsBare d d') (lt : σ → σ → Bool) (blank : σ → Bool) (t : LabelTable σ) (nm : Names σ) (emb : LGraph σ → List Embedding) (env : SEnv (Tried σ) ℝ) :
    LabelSearch lt blank t nm emb d env ↔ LabelSearch lt blank t nm emb d' env :=
  ⟨AddsBare.symmSearch h.cover_eq h.history h.uses, AddsBare.symmSearch (fun r m => (h.cover_eq r m).symm) (fun m => (h.history m).symm) (fun l => (h.uses l).symm)⟩

/-- C152, length: every table has the same description length. -/
theorem bare_length (h : AddsBare d d') (blank : σ → Bool) (t : LabelTable σ) (nm : Names σ) (emb : LGraph σ → List Embedding) (pats : List (LGraph σ)) :
    totalLength blank t nm emb d' pats = totalLength blank t nm emb d pats := by
  unfold totalLength
  rw [h.cover_eq]

theorem labelValues_bare {N N' : List (ℕ × Label σ)} (h : N.Sublist N') : (∀ n ∈ N', n ∉ N → n.2 = .none) → (N'.map Prod.fst).Nodup → labelValues (N'.map Prod.snd) = labelValues (N.map Prod.snd) := by
  induction h with
  | slnil => intro _ _; rfl
  | cons a hs ih =>
    rename_i l₁ l₂
    intro hb hn
    rw [List.map_cons, List.nodup_cons] at hn
    have ha : a ∉ l₁ := fun hm => hn.1 (List.mem_map.2 ⟨a, hs.subset hm, rfl⟩)
    rw [← ih (fun n hm => hb n (List.mem_cons_of_mem _ hm)) hn.2, List.map_cons, hb a (List.mem_cons_self ..) ha]
    rfl
  | cons_cons a hs ih =>
    rename_i l₁ l₂
    intro hb hn
    rw [List.map_cons, List.nodup_cons] at hn
    have := ih (fun n hm hno => hb n (List.mem_cons_of_mem _ hm) (by
      rw [List.mem_cons, not_or]
      refine ⟨?_, hno⟩
      rintro rfl
      exact hn.1 (List.mem_map.2 ⟨_, hm, rfl⟩))) hn.2
    rw [List.map_cons, List.map_cons]
    cases a.2 <;> simp only [labelValues, this]

/-- C152, labels: the code lengths of the labels are the same. -/
theorem bare_label_codes (h : AddsBare d d') : labelCodes d' = labelCodes d := by
  have hv : countVertex d' = countVertex d := by
    unfold countVertex
    rw [labelValues_bare h.nodes (fun n hn hno => (h.bare n hn hno).1) h.nodup]
  have he : countEdge d' = countEdge d := by unfold countEdge; rw [h.edges]
  unfold labelCodes totalLabel
  rw [hv, he]

/-- C152, embeddings: a pattern whose vertices all have a label or an edge is found at the same places. -/
theorem bare_embeddings (h : AddsBare d d') (multi : Bool) (p : LGraph σ) (hp : EachTouched p) (hpe : ∀ e ∈ p.edges, e.1 ∈ p.verts ∧ e.2.1 ∈ p.verts) (f : ℕ → ℕ) : Found multi d' p f ↔ Found multi d p f := by
  have hE : ∀ u v, d'.edgeData u v = d.edgeData u v := fun u v => by unfold LGraph.edgeData; rw [h.edges]
  have hsub : ∀ v ∈ d.verts, v ∈ d'.verts := fun v hv => (h.nodes.map Prod.fst).subset hv
  constructor
  · intro hf
    refine ⟨?_, hf.inj, fun a ha b hb => by rw [← hE]; exact hf.number a ha b hb, fun a ha => by rw [← h.lookup]; exact hf.nodes a ha, fun a ha b hb hne => by rw [← hE]; exact hf.edges a ha b hb hne⟩
    intro a ha
    by_contra hno
    obtain ⟨n, hn, hna⟩ := List.mem_map.1 (hf.verts a ha)
    have hnd : n ∉ d.nodes := fun hm => hno (List.mem_map.2 ⟨n, hm, hna⟩)
    obtain ⟨hb1, hb2⟩ := h.bare n hn hnd
    rcases hp a ha with hl | ⟨⟨x, y, l⟩, he, hxy⟩
    · have h1 := ((nodeMatch_iff _ _).1 (hf.nodes a ha)).1
      have h2 : d'.labelAt (f a) = .none := by
        rw [h.lookup]
        unfold LGraph.labelAt
        have : d.nodes.lookup (f a) = none := by
          rw [List.lookup_eq_none_iff]
          intro x hx
          rw [bne_iff_ne]
          intro e
          exact hno (List.mem_map.2 ⟨x, hx, e.symm⟩)
        rw [this]; rfl
      rw [h2] at h1
      rw [namesAt_eq] at hl
      obtain ⟨s, hs⟩ := List.exists_mem_of_ne_nil _ hl
      exact absurd (h1 s hs) (by simp [Label.names])
    · have hv := hpe _ he
      have hnum := hf.number x hv.1 y hv.2
      have hpos : 0 < (p.edgeData x y).length := List.length_pos_of_mem ((mem_edgeData p x y l).2 he)
      obtain ⟨k, hk⟩ := List.exists_mem_of_length_pos (lt_of_lt_of_le hpos hnum)
      rw [hE, mem_edgeData] at hk
      have := hb2 _ hk
      rcases hxy with hx | hy
      · simp only at hx
        subst hx
        exact this.1 hna.symm
      · simp only at hy
        subst hy
        exact this.2 hna.symm
  · intro hf
    exact ⟨fun a ha => hsub _ (hf.verts a ha), hf.inj, fun a ha b hb => by rw [hE]; exact hf.number a ha b hb, fun a ha => by rw [h.lookup]; exact hf.nodes a ha, fun a ha b hb hne => by rw [hE]; exact hf.edges a ha b hb hne⟩

/-- All patterns made by the search are of this kind. -/
theorem made_each_touched (multi : Bool) (p : LGraph σ) (h : Made multi p) : EachTouched p := by
  induction h with
  | edge l =>
    intro a ha
    simp only [edgeSingleton, LGraph.verts, List.map_cons, List.map_nil, List.mem_cons, List.not_mem_nil, or_false] at ha
    refine .inr ⟨(1, 2, .str l), by simp [edgeSingleton], ?_⟩
    rcases ha with rfl | rfl
    · exact .inl rfl
    · exact .inr rfl
  | vertex l =>
    intro a ha
    simp only [vertexSingleton, LGraph.verts, List.map_cons, List.map_nil, List.mem_singleton] at ha
    subst ha
    exact .inl (by simp [vertexSingleton, LGraph.namesAt, Label.names])
  | merge p q g ports hp hq h1 h2 h3 ih1 ih2 =>
    obtain ⟨g', f, k1, k2, -, -, -, k6, k7, k8, -⟩ := merge_glues multi p q ports (made_patterns multi p hp) (made_patterns multi q hq) h1 h2
    rw [k1] at h3
    obtain rfl := Except.ok.inj h3
    intro a ha
    rcases (k6 a).1 ha with ha | ⟨b, hb, rfl⟩
    · rcases ih1 a ha with hl | ⟨e, he, hea⟩
      · obtain ⟨x, hx⟩ := List.exists_mem_of_ne_nil _ hl
        exact .inl (List.ne_nil_of_mem ((k7 a x).2 (.inl hx)))
      · exact .inr ⟨e, by rw [k8]; exact List.mem_append_left _ he, hea⟩
    · rcases ih2 b hb with hl | ⟨e, he, heb⟩
      · obtain ⟨x, hx⟩ := List.exists_mem_of_ne_nil _ hl
        exact .inl (List.ne_nil_of_mem ((k7 (f b) x).2 (.inr ⟨b, hb, rfl, hx⟩)))
      · refine .inr ⟨(f e.1, f e.2.1, e.2.2), by rw [k8]; exact List.mem_append_right _ (List.mem_map.2 ⟨e, he, rfl⟩), ?_⟩
        rcases heb with rfl | rfl
        · exact .inl rfl
        · exact .inr rfl

/-- C152: further vertices without label and edges change nothing: the code lengths of the labels, the places of every pattern the search can make, the searches and the length of every table are the same. -/
theorem bare_vertices (h : AddsBare d d') :
    labelCodes d' = labelCodes d ∧ (∀ multi p f, Made multi p → (Found multi d' p f ↔ Found multi d p f)) ∧
    (∀ lt blank t nm emb env, LabelSearch lt blank t nm emb d env ↔ LabelSearch lt blank t nm emb d' env) ∧
    ∀ blank t nm emb pats, totalLength blank t nm emb d' pats = totalLength blank t nm emb d pats :=
  ⟨bare_label_codes h, fun multi p f hp => bare_embeddings h multi p (made_each_touched multi p hp) (fun e he => ⟨((made_patterns multi p hp).ends e he).1, ((made_patterns multi p hp).ends e he).2.1⟩) f,
    bare_search h, bare_length h⟩

/-- Two bare vertices among four. -/
example : AddsBare (⟨[(2, .str 7), (4, .none)], [(2, 4, .str 9)]⟩ : LGraph ℕ) ⟨[(1, .none), (2, .str 7), (3, .none), (4, .none)], [(2, 4, .str 9)]⟩ := by
  refine ⟨by decide, rfl, by decide, ?_⟩
  intro n hn hno
  simp only [List.mem_cons, List.not_mem_nil, or_false] at hn
  rcases hn with rfl | rfl | rfl | rfl
  · exact ⟨rfl, by simp⟩
  · simp at hno
  · exact ⟨rfl, by simp⟩
  · simp at hno

/-- A vertex that has a label does matter: the total of the labels changes. -/
example : totalLabel (⟨[(1, .str 7)], []⟩ : LGraph ℕ) = .ok 1 ∧ totalLabel (⟨[(1, .str 7), (2, .str 7)], []⟩ : LGraph ℕ) = .ok 2 := ⟨rfl, rfl⟩

end Verif.Graph
