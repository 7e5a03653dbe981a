import Verif.Graph.OccSpec
import Verif.Graph.MatchProps
import Verif.Graph.GenProps
import Verif.Graph.RewriteRead

/-!
# The patterns tested by GraphMDL: lemmas
-/

set_option autoImplicit false
set_option linter.unusedSectionVars false

namespace Verif.Graph

variable {σ : Type} [DecidableEq σ]

/-! ## The view of a graph -/

theorem view_edges (g : LGraph σ) (a b : ℕ) (l : σ) : (a, b, l) ∈ g.view.edges ↔ (a, b, Label.str l) ∈ g.edges := by
  unfold LGraph.view
  simp only [List.mem_filterMap]
  constructor
  · rintro ⟨⟨u, v, k⟩, h1, h2⟩
    cases k with
    | str s =>
      simp only [Option.some.injEq, Prod.mk.injEq] at h2
      obtain ⟨rfl, rfl, rfl⟩ := h2
      exact h1
    | none => cases h2
    | tuple _ => cases h2
    | list _ => cases h2
  · intro h
    exact ⟨_, h, rfl⟩

theorem lookup_map_names (L : List (ℕ × Label σ)) (v : ℕ) : (L.map (fun n => (n.1, n.2.names))).lookup v = (L.lookup v).map Label.names := by
  induction L with
  | nil => rfl
  | cons n L ih =>
    obtain ⟨w, l⟩ := n
    rw [List.map_cons, List.lookup_cons, List.lookup_cons]
    cases v == w
    · exact ih
    · rfl

theorem view_labels (g : LGraph σ) (v : ℕ) : g.view.labels v = g.namesAt v := by
  unfold DGraph.labels LGraph.namesAt LGraph.view
  rw [lookup_map_names]

theorem view_nodup (g : LGraph σ) (h : (g.edges.map (fun e => (e.1, e.2.1))).Nodup) : g.view.edges.Nodup := by
  unfold LGraph.view
  simp only
  generalize g.edges = L at h
  induction L with
  | nil => simp
  | cons e L ih =>
    obtain ⟨u, v, k⟩ := e
    rw [List.map_cons, List.nodup_cons] at h
    rw [List.filterMap_cons]
    cases k with
    | str s =>
      simp only
      rw [List.nodup_cons]
      refine ⟨fun hm => h.1 ?_, ih h.2⟩
      obtain ⟨⟨u', v', k'⟩, h1, h2⟩ := List.mem_filterMap.1 hm
      cases k' with
      | str s' =>
        simp only [Option.some.injEq, Prod.mk.injEq] at h2
        obtain ⟨rfl, rfl, rfl⟩ := h2
        exact List.mem_map.2 ⟨_, h1, rfl⟩
      | none => cases h2
      | tuple _ => cases h2
      | list _ => cases h2
    | none => exact ih h.2
    | tuple _ => exact ih h.2
    | list _ => exact ih h.2

theorem PlainData.simpleData {d : LGraph σ} (hd : PlainData d) : SimpleData d :=
  ⟨hd.simple, fun e he => by obtain ⟨l, hl⟩ := hd.str e he; rw [hl]; simp⟩

/-! ## Patterns of the search -/

/-- A pattern of the search: edges are labelled by strings; without edge it is one vertex with labels; with edges every vertex has one. -/
structure Linked (p : LGraph σ) : Prop where
  str : ∀ e ∈ p.edges, ∃ l, e.2.2 = .str l
  bare : p.edges = [] → ∃ l : Label σ, p.nodes = [(1, l)] ∧ l.names ≠ []
  touched : p.edges ≠ [] → ∀ a ∈ p.verts, ∃ e ∈ p.edges, e.1 = a ∨ e.2.1 = a

theorem linked_edge (l : σ) : Linked (edgeSingleton l) :=
  ⟨by simp [edgeSingleton], by simp [edgeSingleton], by simp [edgeSingleton, LGraph.verts]⟩

theorem linked_vertex (l : σ) : Linked (vertexSingleton l) :=
  ⟨by simp [vertexSingleton], fun _ => ⟨.str l, rfl, by simp [Label.names]⟩, by simp [vertexSingleton]⟩

theorem bare_verts {p : LGraph σ} (hl : Linked p) (h : p.edges = []) : p.verts = [1] := by
  obtain ⟨l, hl, -⟩ := hl.bare h
  simp [LGraph.verts, hl]

theorem linked_merge {p q g : LGraph σ} {ports : List (ℕ × ℕ)} (hp : IsPattern false p) (hq : IsPattern false q) (lp : Linked p) (lq : Linked q) (hports : PortsOk p q ports) (hc : NoCommonEdge p q ports) (hne : ports ≠ [])
    (hg : mergeCand false p q ports = .ok g) : Linked g := by
  obtain ⟨g', f, k1, k2, k3, k4, k5, k6, k7, k8, -⟩ := merge_glues false p q ports hp hq hports (fun _ => hc)
  rw [k1] at hg
  obtain rfl := Except.ok.inj hg
  obtain ⟨⟨a0, b0⟩, h0⟩ := List.exists_mem_of_ne_nil _ hne
  obtain ⟨ha0, hb0⟩ := hports.mem _ h0
  simp only at ha0 hb0
  have hf0 : f b0 = a0 := (k4 a0 ha0 b0 hb0).2 h0
  refine ⟨?_, ?_, ?_⟩
  · intro e he
    rw [k8, List.mem_append] at he
    rcases he with he | he
    · exact lp.str e he
    · obtain ⟨e', h1, rfl⟩ := List.mem_map.1 he
      exact lq.str e' h1
  · intro h
    rw [k8, List.append_eq_nil_iff, List.map_eq_nil_iff] at h
    obtain ⟨l, hl, hl'⟩ := lp.bare h.1
    obtain ⟨k, hk, hk'⟩ := lq.bare h.2
    have hlen : g'.nodes.length = 1 := by
      have hpl : 0 < ports.length := List.length_pos_iff.2 hne
      have hv : 1 ∈ g'.verts := (k6 1).2 (.inl (by simp [LGraph.verts, hl]))
      have : 0 < g'.nodes.length := by
        rw [← List.length_map (f := Prod.fst)]
        exact List.length_pos_of_mem hv
      rw [hl, hk] at k3
      simp only [List.length_singleton] at k3
      omega
    obtain ⟨⟨v, x⟩, hx⟩ := List.length_eq_one_iff.1 hlen
    have hv : v = 1 := by
      have := k2.verts
      rw [LGraph.verts, hx] at this
      simpa using this
    subst hv
    refine ⟨x, hx, ?_⟩
    obtain ⟨s, hs⟩ := List.exists_mem_of_ne_nil _ hl'
    have h1 : s ∈ p.namesAt 1 := by simp [LGraph.namesAt, hl, hs]
    have h2 := (k7 1 s).2 (.inl h1)
    simp only [LGraph.namesAt, hx, List.lookup_cons, beq_self_eq_true, Option.map_some, Option.getD_some] at h2
    exact List.ne_nil_of_mem h2
  · intro h a ha
    have hq1 : p.edges = [] → q.edges ≠ [] := by
      intro h1 h2
      apply h
      rw [k8, h1, h2]
      rfl
    have hpe : ∀ a ∈ p.verts, p.edges ≠ [] → ∃ e ∈ g'.edges, e.1 = a ∨ e.2.1 = a := by
      intro a ha h1
      obtain ⟨e, he, h2⟩ := lp.touched h1 a ha
      exact ⟨e, by rw [k8]; exact List.mem_append_left _ he, h2⟩
    have hqe : ∀ b ∈ q.verts, q.edges ≠ [] → ∃ e ∈ g'.edges, e.1 = f b ∨ e.2.1 = f b := by
      intro b hb h1
      obtain ⟨e, he, h2⟩ := lq.touched h1 b hb
      refine ⟨_, by rw [k8]; exact List.mem_append_right _ (List.mem_map.2 ⟨e, he, rfl⟩), ?_⟩
      rcases h2 with h2 | h2
      · exact .inl (by rw [h2])
      · exact .inr (by rw [h2])
    rcases (k6 a).1 ha with ha | ⟨b, hb, rfl⟩
    · by_cases h1 : p.edges = []
      · have e1 : a = a0 := by
          rw [bare_verts lp h1, List.mem_singleton] at ha ha0
          rw [ha, ha0]
        rw [e1, ← hf0]
        exact hqe b0 hb0 (hq1 h1)
      · exact hpe a ha h1
    · by_cases h1 : q.edges = []
      · have e1 : b = b0 := by
          rw [bare_verts lq h1, List.mem_singleton] at hb hb0
          rw [hb, hb0]
        have h2 : p.edges ≠ [] := fun h2 => hq1 h2 h1
        rw [e1, hf0]
        exact hpe a0 ha0 h2
      · exact hqe b hb h1

/-! ## Rows of patterns -/

/-- A dictionary that stands for an occurrence is an embedding. -/
theorem isEmbedding_of_occurs {d p : LGraph σ} (hp : IsPattern false p) (h : ℕ → ℕ) (ho : Occurs d p h) (e : Embedding) (he : e.Perm (p.verts.map (fun a => (h a, a)))) : IsEmbedding d.view p.view e := by
  have hnd : p.verts.Nodup := by rw [hp.verts]; exact List.nodup_range'
  have hmem : ∀ v a, (v, a) ∈ e ↔ a ∈ p.verts ∧ h a = v := by
    intro v a
    rw [he.mem_iff, List.mem_map]
    constructor
    · rintro ⟨b, hb, hh⟩
      obtain ⟨rfl, rfl⟩ := Prod.mk.inj hh
      exact ⟨hb, rfl⟩
    · rintro ⟨h1, rfl⟩
      exact ⟨a, h1, rfl⟩
  have hsnd : ∀ a, a ∈ e.map Prod.snd ↔ a ∈ p.verts := by
    intro a
    simp only [List.mem_map, Prod.exists, exists_eq_right]
    constructor
    · rintro ⟨v, hv⟩; exact ((hmem v a).1 hv).1
    · intro ha; exact ⟨h a, (hmem _ _).2 ⟨ha, rfl⟩⟩
  refine ⟨?_, ?_, ?_, ?_, ?_⟩
  · rw [(he.map Prod.fst).nodup_iff, List.map_map]
    rw [List.nodup_map_iff_inj_on hnd]
    exact fun a ha b hb hab => ho.inj a ha b hb hab
  · rw [(he.map Prod.snd).nodup_iff, List.map_map]
    rw [List.nodup_map_iff_inj_on hnd]
    exact fun a _ b _ hab => hab
  · intro a b l hab
    rw [view_edges] at hab
    obtain ⟨h1, h2, -⟩ := hp.ends _ hab
    exact ⟨(hsnd a).2 h1, (hsnd b).2 h2⟩
  · intro a b l hab u v hu hv
    have : d.view.multi = false := rfl
    rw [this]
    simp only [Bool.false_eq_true, if_false]
    rw [view_edges] at hab ⊢
    obtain ⟨-, rfl⟩ := (hmem u a).1 hu
    obtain ⟨-, rfl⟩ := (hmem v b).1 hv
    exact ho.edges _ hab
  · intro v a hva l hl
    rw [view_labels] at hl ⊢
    obtain ⟨h1, rfl⟩ := (hmem v a).1 hva
    exact ho.labels a h1 l hl

theorem namesAt_verts (p : LGraph σ) (a : ℕ) (h : p.namesAt a ≠ []) : a ∈ p.verts := by
  by_contra hc
  apply h
  unfold LGraph.namesAt
  rw [lookup_eq_none_of _ _ hc]
  rfl

/-- The rows of patterns of the search. -/
theorem rowOk_of_rowFor {d p : LGraph σ} (hd : PlainData d) (hp : IsPattern false p) (hl : Linked p) {r : Row σ} (hr : RowFor d p r) : RowOk d.view r := by
  refine ⟨?_, ?_, ?_⟩
  · intro e he
    obtain ⟨h, h1, h2⟩ := hr.embs e he
    rw [hr.pattern]
    exact isEmbedding_of_occurs hp h ((found_iff false d p hd.simpleData hp h).1 h1).1 e h2
  · rw [hr.pattern]
    intro hne a ha
    rw [view_labels] at ha
    have h0 : p.edges ≠ [] := by
      intro h0
      apply hne
      simp [LGraph.view, h0]
    obtain ⟨⟨u, v, k⟩, he, h1⟩ := hl.touched h0 a (namesAt_verts p a ha)
    obtain ⟨l, hk⟩ := hl.str _ he
    simp only at hk h1
    subst hk
    rcases h1 with rfl | rfl
    · exact ⟨v, l, .inl ((view_edges p _ _ _).2 he)⟩
    · exact ⟨u, l, .inr ((view_edges p _ _ _).2 he)⟩
  · rw [hr.pattern]
    intro h0 e he x hx
    have h0 : p.edges = [] := by
      by_contra hc
      obtain ⟨⟨u, v, k⟩, h1⟩ := List.exists_mem_of_ne_nil _ hc
      obtain ⟨l, hk⟩ := hl.str _ h1
      simp only at hk
      subst hk
      have := (view_edges p _ _ _).2 h1
      rw [h0] at this
      simp at this
    obtain ⟨l, h1, h2⟩ := hl.bare h0
    obtain ⟨h, -, h3⟩ := hr.embs e he
    have h4 := h3.mem_iff.1 hx
    rw [bare_verts hl h0] at h4
    simp only [List.map_cons, List.map_nil, List.mem_singleton] at h4
    rw [h4, view_labels]
    simpa [LGraph.namesAt, h1] using h2

end Verif.Graph
