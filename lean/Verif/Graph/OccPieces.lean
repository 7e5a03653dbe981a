import Verif.Graph.OccLemmas
import Verif.Graph.RewriteProps

/-!
# The patterns tested by GraphMDL: pieces of a cover are occurrences
-/

set_option autoImplicit false
set_option linter.unusedSectionVars false

namespace Verif.Graph

variable {σ : Type} [DecidableEq σ]

theorem coverRows_search (g : DGraph σ) (L : List (Row σ)) (i : ℕ) (m : Marks σ) (r : Marks σ × List (Row σ) × List (Piece σ)) (h : coverRows g i L m = .ok r) :
    ∀ pc ∈ r.2.2, ∃ (j : ℕ) (row : Row σ), L[j]? = some row ∧ ∃ e ∈ row.embeddings, ∃ ports, pc = .emb (i + j) e ports ∧ ports.Sublist e ∧
      (row.pattern.edges ≠ [] → ∃ mk, ports = searchPort g row.pattern mk e) := by
  induction L generalizing i m r with
  | nil => rw [← Except.ok.inj h]; simp
  | cons x t ih =>
    obtain ⟨y, h1, h2⟩ := bind_ok h
    obtain ⟨z, h3, rfl⟩ := map_ok h2
    intro pc hpc
    rcases List.mem_append.1 hpc with hpc | hpc
    · refine ⟨0, x, rfl, ?_⟩
      unfold rowCover at h1
      split at h1
      · obtain ⟨e, he, mk, h4, -⟩ := coverEmbs_trace _ _ _ _ _ _ h1 pc hpc
        exact ⟨e, he, _, h4, List.filter_sublist, fun _ => ⟨mk, rfl⟩⟩
      · rename_i h0
        obtain ⟨e, he, ports, h4, h5⟩ := coverNodes_emb _ _ _ _ _ _ h1 pc hpc
        exact ⟨e, he, ports, h4, h5, fun hc => absurd hc h0⟩
    · obtain ⟨j, row, h4, e, he, ports, h5, h6⟩ := ih (i + 1) y.1 z h3 pc hpc
      exact ⟨j + 1, row, h4, e, he, ports, by rw [h5]; congr 1; omega, h6⟩

theorem cover_search (g : DGraph σ) (rows : List (Row σ)) (m : Marks σ) (r : Marks σ × List (Row σ) × List (Piece σ)) (h : cover g rows m = .ok r) (i : ℕ) (e : Embedding) (ports : List (ℕ × ℕ)) (hpc : Piece.emb i e ports ∈ r.2.2) :
    ∃ row : Row σ, rows[i]? = some row ∧ e ∈ row.embeddings ∧ ports.Sublist e ∧ (row.pattern.edges ≠ [] → ∃ mk, ports = searchPort g row.pattern mk e) := by
  obtain ⟨x, h1, rfl⟩ := map_ok h
  rcases List.mem_append.mp hpc with hpc | hpc
  · rcases List.mem_append.mp hpc with hpc | hpc
    · obtain ⟨j, row, h4, e', he, ports', h5, h6, h7⟩ := coverRows_search g rows 0 _ x h1 _ hpc
      rw [Nat.zero_add] at h5
      simp only [Piece.emb.injEq] at h5
      obtain ⟨rfl, rfl, rfl⟩ := h5
      exact ⟨row, h4, he, h6, h7⟩
    · obtain ⟨-, -, -, e2⟩ := singleEdges_step g rows g.edges (fun _ h => h) x.1
      obtain ⟨u, v, l, h5⟩ := e2 _ hpc
      cases h5
  · obtain ⟨s3, -⟩ := singleNodes_step g.nodes (singleEdges g g.edges x.1).1
    obtain ⟨v, l, h5⟩ := s3.verts _ hpc
    cases h5

/-- What a piece of a cover has to do with its pattern. -/
structure PieceFor (d : LGraph σ) (rows : List (Row σ)) (pc : Piece σ) (p : LGraph σ) : Prop where
  made : Made false p
  linked : Linked p
  keys : (pc.verts.map Prod.fst).Nodup
  values : (pc.verts.map Prod.snd).Nodup
  verts : ∀ a, a ∈ pc.verts.map Prod.snd ↔ a ∈ p.verts
  occ : Occurs d p (keyOf pc.verts)
  covers : ∀ a b l, (a, b, Label.str l) ∈ p.edges → ∀ u v, (u, a) ∈ pc.verts → (v, b) ∈ pc.verts → pc.coversEdge rows (u, v, l) = true
  kept : ∀ x ∈ pc.kept, x ∈ pc.verts
  port : p.edges ≠ [] → ∀ v a, (v, a) ∈ pc.verts → (v, a) ∉ pc.kept → (∀ w l, (v, w, Label.str l) ∈ d.edges → pc.coversEdge rows (v, w, l) = true) ∧ ∀ w l, (w, v, Label.str l) ∈ d.edges → pc.coversEdge rows (w, v, l) = true

/-- The patterns of a table. -/
def GoodPats (pats : List (LGraph σ)) : Prop := ∀ p ∈ pats, Made false p ∧ Linked p

theorem rows_ok {d : LGraph σ} (hd : PlainData d) {pats : List (LGraph σ)} (hpats : GoodPats pats) {rows : List (Row σ)} (ht : TableFor d pats rows) : ∀ r ∈ rows, RowOk d.view r := by
  unfold TableFor at ht
  induction ht with
  | nil => simp
  | cons h _ ih =>
    intro r hr
    rcases List.mem_cons.1 hr with rfl | hr
    · obtain ⟨h1, h2⟩ := hpats _ List.mem_cons_self
      exact rowOk_of_rowFor hd (made_patterns false _ h1) h2 h
    · exact ih (fun p hp => hpats p (List.mem_cons_of_mem _ hp)) r hr

theorem table_get {d : LGraph σ} {pats : List (LGraph σ)} {rows : List (Row σ)} (ht : TableFor d pats rows) (i : ℕ) (row : Row σ) (h : rows[i]? = some row) : ∃ p, pats[i]? = some p ∧ RowFor d p row := by
  unfold TableFor at ht
  induction ht generalizing i with
  | nil => simp at h
  | cons h1 _ ih =>
    cases i with
    | zero => simp only [List.getElem?_cons_zero, Option.some.injEq] at h ⊢; exact ⟨_, rfl, h ▸ h1⟩
    | succ i => simpa using ih i (by simpa using h)

theorem edges_of_view {p : LGraph σ} (hl : Linked p) (h : p.edges ≠ []) : p.view.edges ≠ [] := by
  obtain ⟨⟨u, v, k⟩, h1⟩ := List.exists_mem_of_ne_nil _ h
  obtain ⟨l, hk⟩ := hl.str _ h1
  simp only at hk
  subst hk
  exact List.ne_nil_of_mem ((view_edges p _ _ _).2 h1)

theorem piece_for {d : LGraph σ} (hd : PlainData d) {pats : List (LGraph σ)} (hpats : GoodPats pats) {rows : List (Row σ)} (ht : TableFor d pats rows) (m : Marks σ) (hm : History d.view m)
    (r : Marks σ × List (Row σ) × List (Piece σ)) (hc : cover d.view rows m = .ok r) (pc : Piece σ) (hpc : pc ∈ r.2.2) : ∃ p, patternOf pats (some pc.kind) = some p ∧ PieceFor d rows pc p := by
  have hrows := rows_ok hd hpats ht
  obtain ⟨m', rows', ps, h1, h2, -, h4⟩ := cover_partial d.view (view_nodup d hd.simple) rows hrows m hm
  rw [hc] at h1
  obtain rfl := Except.ok.inj h1
  have hcov : ∀ y, pc.coversEdge rows y = true → y ∈ d.view.edges := by
    intro y hy
    rw [← List.count_pos_iff, ← h2 y, List.countP_pos_iff]
    exact ⟨pc, hpc, hy⟩
  cases pc with
  | emb i e ports =>
    obtain ⟨row, hrow, he, hsub, hsearch⟩ := cover_search _ _ _ _ hc i e ports hpc
    obtain ⟨p, hp, hfor⟩ := table_get ht i row hrow
    obtain ⟨hmade, hlink⟩ := hpats p (List.mem_of_getElem? hp)
    have hpat := made_patterns false p hmade
    have hemb := (hrows row (List.mem_of_getElem? hrow)).embs e he
    obtain ⟨h, hf, hperm⟩ := hfor.embs e he
    have ho := ((found_iff false d p hd.simpleData hpat h).1 hf).1
    have hmem : ∀ v a, (v, a) ∈ e ↔ a ∈ p.verts ∧ h a = v := by
      intro v a
      rw [hperm.mem_iff, List.mem_map]
      constructor
      · rintro ⟨b, hb, hh⟩
        obtain ⟨rfl, rfl⟩ := Prod.mk.inj hh
        exact ⟨hb, rfl⟩
      · rintro ⟨h1, rfl⟩
        exact ⟨a, h1, rfl⟩
    have hverts : ∀ a, a ∈ e.map Prod.snd ↔ a ∈ p.verts := by
      intro a
      simp only [List.mem_map, Prod.exists, exists_eq_right]
      constructor
      · rintro ⟨v, hv⟩; exact ((hmem v a).1 hv).1
      · intro ha; exact ⟨h a, (hmem _ _).2 ⟨ha, rfl⟩⟩
    have hkey : ∀ a ∈ p.verts, keyOf e a = h a := by
      intro a ha
      have := keyOf_mem e hemb.values a ((hverts a).2 ha)
      exact ((hmem _ _).1 this).2.symm
    have hkept : (Piece.emb (σ := σ) i e ports).kept = ports := by
      unfold Piece.kept
      rw [kept_eq]
      · rfl
      · exact (hsub.map _).nodup hemb.keys
    have hcovers : ∀ a b l, (a, b, Label.str l) ∈ p.edges → ∀ u v, (u, a) ∈ e → (v, b) ∈ e → (Piece.emb i e ports).coversEdge rows (u, v, l) = true := by
      intro a b l hab u v hu hv
      simp only [Piece.coversEdge, hrow, List.any_eq_true, decide_eq_true_eq]
      refine ⟨(a, b, l), ?_, rfl, hu, hv⟩
      rw [hfor.pattern, view_edges]
      exact hab
    refine ⟨p, hp, hmade, hlink, hemb.keys, hemb.values, hverts, ?_, hcovers, ?_, ?_⟩
    · refine ⟨?_, ?_, ?_, ?_⟩
      · intro a ha; simp only [Piece.verts]; rw [hkey a ha]; exact ho.verts a ha
      · intro a ha b hb; simp only [Piece.verts]; rw [hkey a ha, hkey b hb]; exact ho.inj a ha b hb
      · intro a ha; simp only [Piece.verts]; rw [hkey a ha]; exact ho.labels a ha
      · intro x hx
        obtain ⟨k1, k2, -⟩ := hpat.ends x hx
        simp only [Piece.verts]
        rw [hkey _ k1, hkey _ k2]
        exact ho.edges x hx
    · rw [hkept]; exact fun x hx => hsub.mem hx
    · intro hne v a hva hno
      rw [hkept] at hno
      have hva : (v, a) ∈ e := hva
      obtain ⟨mk, hmk⟩ := hsearch (by rw [hfor.pattern]; exact edges_of_view hlink hne)
      rw [hmk] at hno
      unfold searchPort at hno
      rw [List.mem_filter] at hno
      simp only [hva, true_and, Bool.or_eq_true, decide_eq_true_eq, not_or, Decidable.not_not] at hno
      obtain ⟨hout, hin⟩ := degree_all d.view row.pattern e hemb (by rw [hfor.pattern]; exact view_nodup p (hpat.simple rfl)) (by
        intro a1 b1 l1 k1 u1 v1 hu hv
        rw [hfor.pattern, view_edges] at k1
        exact hcov _ (hcovers _ _ _ k1 _ _ hu hv)) v a hva hno.1
      constructor
      · intro w l hw
        obtain ⟨b, k1, k2⟩ := hout w l ((view_edges d _ _ _).2 hw)
        rw [hfor.pattern, view_edges] at k1
        exact hcovers _ _ _ k1 _ _ hva k2
      · intro w l hw
        obtain ⟨b, k1, k2⟩ := hin w l ((view_edges d _ _ _).2 hw)
        rw [hfor.pattern, view_edges] at k1
        exact hcovers _ _ _ k1 _ _ k2 hva
  | edge u v l =>
    have he := (view_edges d _ _ _).1 (hcov (u, v, l) (by simp [Piece.coversEdge]))
    have huv : u ≠ v := hd.noLoop _ he
    obtain ⟨hu, hv⟩ := hd.ends _ he
    have hvs : (Piece.edge u v l).verts = [(u, 1), (v, 2)] := by simp [Piece.verts, huv]
    have k1 : keyOf [(u, 1), (v, 2)] 1 = u := by simp [keyOf]
    have k2 : keyOf [(u, 1), (v, 2)] 2 = v := by simp [keyOf]
    refine ⟨edgeSingleton l, rfl, .edge l, linked_edge l, ?_, ?_, ?_, ?_, ?_, ?_, ?_⟩
    · rw [hvs]; simpa using huv
    · rw [hvs]; simp
    · rw [hvs]; simp [edgeSingleton, LGraph.verts]
    · rw [hvs]
      refine ⟨?_, ?_, ?_, ?_⟩
      · intro a ha
        simp only [edgeSingleton, LGraph.verts, List.map_cons, List.map_nil, List.mem_cons, List.not_mem_nil, or_false] at ha
        rcases ha with rfl | rfl
        · rw [k1]; exact hu
        · rw [k2]; exact hv
      · intro a ha b hb hab
        simp only [edgeSingleton, LGraph.verts, List.map_cons, List.map_nil, List.mem_cons, List.not_mem_nil, or_false] at ha hb
        rcases ha with rfl | rfl <;> rcases hb with rfl | rfl
        · rfl
        · rw [k1, k2] at hab; exact absurd hab huv
        · rw [k1, k2] at hab; exact absurd hab.symm huv
        · rfl
      · intro a ha x hx
        simp only [edgeSingleton, LGraph.verts, List.map_cons, List.map_nil, List.mem_cons, List.not_mem_nil, or_false] at ha
        rcases ha with rfl | rfl <;> exact absurd hx (by simp [edgeSingleton, LGraph.namesAt, Label.names, List.lookup])
      · intro x hx
        simp only [edgeSingleton, List.mem_singleton] at hx
        subst hx
        rw [k1, k2]
        exact he
    · intro a b k hab u' v' hu' hv'
      rw [hvs] at hu' hv'
      simp only [edgeSingleton, List.mem_singleton, Prod.mk.injEq, Label.str.injEq] at hab
      obtain ⟨rfl, rfl, rfl⟩ := hab
      simp at hu' hv'
      simp [Piece.coversEdge, hu', hv']
    · intro x hx; rw [Piece.kept_edge] at hx; exact hx
    · intro _ w a hwa hno
      rw [Piece.kept_edge] at hno
      exact absurd hwa hno
  | vertex v l =>
    obtain ⟨ls, h5, h6⟩ := h4 v l hpc
    have hkey : keyOf [(v, 1)] 1 = v := by simp [keyOf]
    have hv : v ∈ d.verts := by
      simp only [LGraph.view, List.mem_map] at h5
      obtain ⟨n, hn, h7⟩ := h5
      exact List.mem_map.2 ⟨n, hn, (Prod.mk.inj h7).1⟩
    have hl : l ∈ d.namesAt v := by
      rw [← view_labels, labels_of_mem d.view ?_ v ls h5]
      · exact h6
      · have : d.view.nodes.map Prod.fst = d.verts := by simp [LGraph.view, LGraph.verts]
        rw [this]
        exact hd.verts
    refine ⟨vertexSingleton l, rfl, .vertex l, linked_vertex l, by simp [Piece.verts], by simp [Piece.verts], by simp [Piece.verts, vertexSingleton, LGraph.verts], ?_, ?_, fun x hx => hx, ?_⟩
    · simp only [Piece.verts]
      refine ⟨?_, ?_, ?_, ?_⟩
      · intro a ha
        simp only [vertexSingleton, LGraph.verts, List.map_cons, List.map_nil, List.mem_singleton] at ha
        rw [ha, hkey]; exact hv
      · intro a ha b hb _
        simp only [vertexSingleton, LGraph.verts, List.map_cons, List.map_nil, List.mem_singleton] at ha hb
        rw [ha, hb]
      · intro a ha x hx
        simp only [vertexSingleton, LGraph.verts, List.map_cons, List.map_nil, List.mem_singleton] at ha
        subst ha
        simp [vertexSingleton, LGraph.namesAt, Label.names] at hx
        rw [hkey, hx]; exact hl
      · simp [vertexSingleton]
    · simp [vertexSingleton]
    · simp [vertexSingleton]

end Verif.Graph
