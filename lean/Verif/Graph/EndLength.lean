import Verif.Graph.EndFinite

/-!
# The search of GraphMDL ends: the length of a table
-/

set_option autoImplicit false
set_option linter.unusedSectionVars false

namespace Verif.Graph

variable {σ : Type} [DecidableEq σ]

/-! ## Pieces -/

theorem emb_facts {d p : LGraph σ} (hd : StringData d) {N : ℕ} (hN : d.nodes.length ≤ N) (hp : Tame N p) {e : Embedding} {h : ℕ → ℕ} (hf : Found false d p h) (he : e.Perm (p.verts.map (fun a => (h a, a)))) :
    Joined d.view p.view e ∧ e.length ≤ N ∧ (∀ x ∈ e, x.2 ≤ N ∧ x.1 ∈ d.verts) ∧ p ∈ Occurring N d := by
  have ho := found_occurs hd hp h hf
  have hmem : ∀ v a, (v, a) ∈ e ↔ a ∈ p.verts ∧ h a = v := by
    intro v a
    rw [he.mem_iff, List.mem_map]
    constructor
    · rintro ⟨b, hb, hh⟩
      obtain ⟨rfl, rfl⟩ := Prod.mk.inj hh
      exact ⟨hb, rfl⟩
    · rintro ⟨h1, rfl⟩
      exact ⟨a, h1, rfl⟩
  have hval : (e.map Prod.snd).Nodup := by
    rw [(he.map Prod.snd).nodup_iff, List.map_map]
    exact (List.nodup_map_iff_inj_on hp.nodes.verts).2 (fun a _ b _ hab => hab)
  refine ⟨?_, ?_, ?_, hp, h, ho⟩
  · rintro ⟨a, b⟩ hab
    obtain ⟨⟨l, hl⟩, h1, h2⟩ := (mem_edgesIn e p.view a b).1 hab
    rw [view_edges] at hl
    obtain ⟨h3, h4⟩ := hp.ends _ hl
    rw [keyOf_eq e hval (h a) a ((hmem _ _).2 ⟨h3, rfl⟩), keyOf_eq e hval (h b) b ((hmem _ _).2 ⟨h4, rfl⟩), hasEdge_iff]
    exact ⟨l, (view_edges d _ _ _).2 (ho.edges _ hl)⟩
  · rw [he.length_eq, List.length_map]
    have := ho.length_le hp
    unfold LGraph.verts
    rw [List.length_map]
    omega
  · rintro ⟨v, a⟩ hx
    obtain ⟨h1, rfl⟩ := (hmem v a).1 hx
    exact ⟨ho.small hN hp a h1, hf.verts a h1⟩

theorem singleEdges_label (g : DGraph σ) (L : List (ℕ × ℕ × σ)) (m : Marks σ) : ∀ pc ∈ (singleEdges g L m).2, ∃ u v l, pc = .edge u v l ∧ (u, v, l) ∈ L := by
  induction L generalizing m with
  | nil => simp [singleEdges]
  | cons x t ih =>
    obtain ⟨u, v, l⟩ := x
    unfold singleEdges
    intro pc hpc
    split at hpc
    · obtain ⟨a, b, k, h1, h2⟩ := ih m pc hpc
      exact ⟨a, b, k, h1, List.mem_cons_of_mem _ h2⟩
    · simp only [List.mem_cons] at hpc
      rcases hpc with rfl | hpc
      · exact ⟨u, v, l, rfl, List.mem_cons_self⟩
      · obtain ⟨a, b, k, h1, h2⟩ := ih _ pc hpc
        exact ⟨a, b, k, h1, List.mem_cons_of_mem _ h2⟩

/-- The vertices of the data and the ends of its edges. -/
def places (d : LGraph σ) : List ℕ := d.verts ++ d.edges.flatMap (fun e => [e.1, e.2.1])

/-- What a piece of a cover looks like. -/
structure PieceSmall (N : ℕ) (d : LGraph σ) (pats : List (LGraph σ)) (pc : Piece σ) : Prop where
  number : pc.ports.length ≤ N
  small : ∀ x ∈ pc.ports, x.2 ≤ N
  place : ∀ x ∈ pc.ports, x.1 ∈ places d
  row : ∀ i e ports, pc = .emb i e ports → ∃ p, pats[i]? = some p ∧ p ∈ Occurring N d
  edge : ∀ u v l, pc = .edge u v l → l ∈ d.view.edges.map (fun e => e.2.2)
  vertex : ∀ v l, pc = .vertex v l → l ∈ d.view.labelPairs.map Prod.snd

theorem tableRows_get {emb : LGraph σ → List Embedding} {pats : List (LGraph σ)} {i : ℕ} {row : Row σ} (h : (tableRows emb pats)[i]? = some row) : ∃ p, pats[i]? = some p ∧ row = ⟨p.view, emb p, []⟩ := by
  unfold tableRows at h
  rw [List.getElem?_map, Option.map_eq_some_iff] at h
  obtain ⟨p, h1, h2⟩ := h
  exact ⟨p, h1, h2.symm⟩

theorem pieces_small {d : LGraph σ} (hd : StringData d) {N : ℕ} (hN : d.nodes.length + 2 ≤ N) {emb : LGraph σ → List Embedding} (hemb : ∀ p, RowFor d p ⟨p.view, emb p, []⟩) {pats : List (LGraph σ)} (hpats : ∀ p ∈ pats, Tame N p)
    {m : Marks σ} {r : Marks σ × List (Row σ) × List (Piece σ)} (h : cover d.view (tableRows emb pats) m = .ok r) :
    r.2.2.length ≤ 2 * (d.view.edges.length + d.view.labelPairs.length) ∧ ∀ pc ∈ r.2.2, PieceSmall N d pats pc := by
  have hN' : d.nodes.length ≤ N := by omega
  constructor
  · refine cover_count rfl _ ?_ m r h
    intro row hrow e he
    obtain ⟨i, hi⟩ := List.mem_iff_getElem?.1 hrow
    obtain ⟨p, hp, rfl⟩ := tableRows_get hi
    obtain ⟨f, h1, h2⟩ := (hemb p).embs e he
    exact (emb_facts hd hN' (hpats p (List.mem_of_getElem? hp)) h1 h2).1
  · intro pc hpc
    cases pc with
    | emb i e ports =>
      obtain ⟨row, h1, h2, h3, -⟩ := cover_search d.view _ m r h i e ports hpc
      obtain ⟨p, hp, rfl⟩ := tableRows_get h1
      obtain ⟨f, h4, h5⟩ := (hemb p).embs e h2
      obtain ⟨-, h6, h7, h8⟩ := emb_facts hd hN' (hpats p (List.mem_of_getElem? hp)) h4 h5
      refine ⟨le_trans h3.length_le h6, fun x hx => (h7 x (h3.subset hx)).1, fun x hx => List.mem_append_left _ (h7 x (h3.subset hx)).2, ?_, by simp, by simp⟩
      rintro i' e' ports' he
      cases he
      exact ⟨p, hp, h8⟩
    | edge u v l =>
      have hedge : (u, v, l) ∈ d.view.edges := by
        obtain ⟨x, h1, rfl⟩ := map_ok h
        rcases List.mem_append.mp hpc with hpc | hpc
        · rcases List.mem_append.mp hpc with hpc | hpc
          · obtain ⟨j, row, _, e, _, ports, h5, _⟩ := coverRows_search d.view _ 0 _ x h1 _ hpc
            cases h5
          · obtain ⟨a, b, k, h2, h3⟩ := singleEdges_label d.view _ _ _ hpc
            cases h2
            exact h3
        · obtain ⟨s3, -⟩ := singleNodes_step d.view.nodes (singleEdges d.view d.view.edges x.1).1
          obtain ⟨v, l, h5⟩ := s3.verts _ hpc
          cases h5
      refine ⟨by simp only [Piece.ports, List.length_cons, List.length_nil]; omega, ?_, ?_, by simp, ?_, by simp⟩
      · intro x hx
        simp only [Piece.ports, List.mem_cons, List.not_mem_nil, or_false] at hx
        rcases hx with rfl | rfl <;> simp only <;> omega
      · intro x hx
        have h1 := (view_edges d u v l).1 hedge
        simp only [Piece.ports, List.mem_cons, List.not_mem_nil, or_false] at hx
        refine List.mem_append_right _ (List.mem_flatMap.2 ⟨_, h1, ?_⟩)
        rcases hx with rfl | rfl <;> simp
      · intro u' v' l' he
        cases he
        exact List.mem_map.2 ⟨_, hedge, rfl⟩
    | vertex v l =>
      have hvert : ∃ ls, (v, ls) ∈ d.view.nodes ∧ l ∈ ls := by
        obtain ⟨x, h1, rfl⟩ := map_ok h
        rcases List.mem_append.mp hpc with hpc | hpc
        · rcases List.mem_append.mp hpc with hpc | hpc
          · obtain ⟨j, row, _, e, _, ports, h5, _⟩ := coverRows_search d.view _ 0 _ x h1 _ hpc
            cases h5
          · obtain ⟨a, b, k, h2, h3⟩ := singleEdges_label d.view _ _ _ hpc
            cases h2
        · exact singleNodes_real _ _ _ _ hpc
      obtain ⟨ls, h2, h3⟩ := hvert
      refine ⟨by simp only [Piece.ports, List.length_cons, List.length_nil]; omega, ?_, ?_, by simp, by simp, ?_⟩
      · intro x hx
        simp only [Piece.ports, List.mem_cons, List.not_mem_nil, or_false] at hx
        rw [hx]
        simp only
        omega
      · intro x hx
        simp only [Piece.ports, List.mem_cons, List.not_mem_nil, or_false] at hx
        rw [hx]
        obtain ⟨n, h4, h5⟩ := List.mem_map.1 h2
        refine List.mem_append_left _ (List.mem_map.2 ⟨n, h4, ?_⟩)
        exact congrArg Prod.fst h5
      · intro v' l' he
        cases he
        exact List.mem_map.2 ⟨(v, l), List.mem_flatMap.2 ⟨_, h2, List.mem_map.2 ⟨l, h3, rfl⟩⟩, rfl⟩

/-! ## Counts -/

theorem bump_small {α : Type} [DecidableEq α] (L : List α) : (L.foldl (fun acc a => bump a acc) []).length ≤ L.length ∧ ∀ x ∈ L.foldl (fun acc a => bump a acc) [], x.1 ∈ L ∧ x.2 ≤ L.length := by
  obtain ⟨ks, h1, h2, h3⟩ := foldl_bump_eq L
  rw [h3]
  refine ⟨by rw [List.length_map]; exact nodup_length_le ks L h1 (fun s hs => (h2 s).1 hs), ?_⟩
  intro x hx
  obtain ⟨k, hk, rfl⟩ := List.mem_map.1 hx
  exact ⟨(h2 k).1 hk, List.count_le_length⟩

theorem flatMap_length_le {α β : Type} (L : List α) (f : α → List β) (n : ℕ) (h : ∀ x ∈ L, (f x).length ≤ n) : (L.flatMap f).length ≤ L.length * n := by
  induction L with
  | nil => simp
  | cons a t ih =>
    rw [List.flatMap_cons, List.length_append, List.length_cons, Nat.add_mul, Nat.one_mul]
    have := h a List.mem_cons_self
    have := ih (fun x hx => h x (List.mem_cons_of_mem _ hx))
    omega

theorem rewriteEdge_small (nm : Names σ) (x : ℕ) (rg : RGraph σ) (q : ℕ × ℕ) : (rewriteEdge nm x rg q).nodes.length ≤ rg.nodes.length + 1 ∧ (rewriteEdge nm x rg q).edges.length ≤ rg.edges.length + 1 := by
  have h : ∀ (rg : RGraph σ) (x y a : ℕ), (rg.addEdge x y a).nodes.length = rg.nodes.length ∧ (rg.addEdge x y a).edges.length ≤ rg.edges.length + 1 := by
    intro rg x y a
    unfold RGraph.addEdge
    refine ⟨rfl, ?_⟩
    simp only
    split <;> simp
  unfold rewriteEdge
  simp only
  split
  · obtain ⟨h1, h2⟩ := h rg x (rg.nodes.findIdx (fun n => decide (n.label = nm.vertex q.1)) + 1) q.2
    exact ⟨by omega, h2⟩
  · obtain ⟨h1, h2⟩ := h { rg with nodes := rg.nodes ++ [⟨nm.vertex q.1, false, false⟩] } x (rg.nodes.length + 1) q.2
    refine ⟨by rw [h1]; simp, h2⟩

theorem addPiece_small (nm : Names σ) (rg : RGraph σ) (n : RNode σ) (ports : List (ℕ × ℕ)) :
    (addPiece nm rg n ports).nodes.length ≤ rg.nodes.length + 1 + ports.length ∧ (addPiece nm rg n ports).edges.length ≤ rg.edges.length + ports.length := by
  unfold addPiece
  have h : ∀ (x : ℕ) (rg : RGraph σ), (ports.foldl (rewriteEdge nm x) rg).nodes.length ≤ rg.nodes.length + ports.length ∧ (ports.foldl (rewriteEdge nm x) rg).edges.length ≤ rg.edges.length + ports.length := by
    intro x
    induction ports with
    | nil => intro rg; simp
    | cons q t ih =>
      intro rg
      rw [List.foldl_cons, List.length_cons]
      have h1 := ih (rewriteEdge nm x rg q)
      have h2 := rewriteEdge_small nm x rg q
      omega
  have := h (rg.nodes.length + 1) { rg with nodes := rg.nodes ++ [n] }
  simp only [List.length_append, List.length_singleton] at this
  exact this

theorem rewrite_small (nm : Names σ) (ps : List (Piece σ)) (N : ℕ) (h : ∀ pc ∈ ps, pc.ports.length ≤ N) : (rewriteGraph nm ps).nodes.length ≤ ps.length * (N + 1) ∧ (rewriteGraph nm ps).edges.length ≤ ps.length * (N + 1) := by
  unfold rewriteGraph
  have key : ∀ rg : RGraph σ, (ps.foldl (fun rg pc => addPiece nm rg (pc.node nm) pc.ports) rg).nodes.length ≤ rg.nodes.length + ps.length * (N + 1) ∧
      (ps.foldl (fun rg pc => addPiece nm rg (pc.node nm) pc.ports) rg).edges.length ≤ rg.edges.length + ps.length * (N + 1) := by
    induction ps with
    | nil => intro rg; simp
    | cons pc t ih =>
      intro rg
      rw [List.foldl_cons, List.length_cons, Nat.add_mul, Nat.one_mul]
      have h1 := ih (fun pc hpc => h pc (List.mem_cons_of_mem _ hpc)) (addPiece nm rg (pc.node nm) pc.ports)
      have h2 := addPiece_small nm rg (pc.node nm) pc.ports
      have h3 := h pc List.mem_cons_self
      omega
  simpa using key ⟨[], []⟩

/-! ## What the length depends on -/

/-- The used rows: pattern, usage and usage of the ports. -/
def usedList (pats : List (LGraph σ)) (ps : List (Piece σ)) : List (LGraph σ × ℕ × List (ℕ × ℕ)) :=
  (pats.zipIdx.filter (fun x => decide (rowUsage ps x.2 ≠ 0))).map (fun x => (x.1, rowUsage ps x.2, portUsage ps x.2))

/-- What the length of a table depends on. -/
structure Summary (σ : Type) where
  used : List (LGraph σ × ℕ × List (ℕ × ℕ))
  vertex : List (σ × ℕ)
  edge : List (σ × ℕ)
  flags : Bool × Bool
  counts : ℕ × ℕ
  degrees : List ℕ

/-- The length as a function of these. -/
noncomputable def Summary.length (blank : σ → Bool) (t : LabelTable σ) (x : Summary σ) : Except String ℝ :=
  (if x.flags.1 then .error "ValueError"
  else (sumOk (x.used.map (fun y => rowDescription t y.1 y.2.2.length))).bind (fun a => (sumOk (x.vertex.map (fun y => (encodeSingleton blank t 1 y.1).map (fun d => d + Real.logb 2 2))
    ++ x.edge.map (fun y => (encodeSingleton blank t 2 y.1).map (fun d => d + (Real.logb 2 3 + 2))))).map (fun b => a + b))).bind (fun a =>
  (if x.flags.2 then .error "ValueError"
  else (universalInt0 (x.counts.1 : ℕ)).bind (fun a =>
    (prequential (x.used.map (fun y => y.2.1) ++ x.vertex.map Prod.snd ++ x.edge.map Prod.snd) (1 / 2)).bind (fun b =>
    (prequential x.degrees (1 / 2)).bind (fun c =>
    ((x.used.map (fun y => y.2.2.map Prod.fst) ++ x.edge.map (fun y => [y.2, y.2])).mapM (fun l => prequential l (1 / 2))).bind (fun d =>
      .ok (a + Real.logb 2 (x.counts.2 + 1) + ((x.used.map (fun y => (y.2.1 : ℝ) * Real.logb 2 (y.2.2.length + 1))) ++ x.vertex.map (fun y => (y.2 : ℝ) * Real.logb 2 (1 + 1))
        ++ x.edge.map (fun y => (y.2 : ℝ) * Real.logb 2 (2 + 1))).sum + b + c + d.sum)))))).map (fun b => a + b))

/-- The summary of a table and its cover. -/
def summary (pats : List (LGraph σ)) (ps : List (Piece σ)) (rg : RGraph σ) : Summary σ :=
  ⟨usedList pats ps, vertexUsage ps, edgeUsage ps, (decide (ps = []), decide (rg.nodes = [])), ((rg.nodes.filter (fun x => x.isPattern)).length, (rg.nodes.filter (fun x => !x.isPattern)).length), rg.portDegrees⟩

theorem usedRows_map {β : Type} (pats : List (LGraph σ)) (ps : List (Piece σ)) (f : ℕ → β) (g : LGraph σ × ℕ × List (ℕ × ℕ) → β) (h : ∀ p i, g (p, rowUsage ps i, portUsage ps i) = f i) :
    (usedRows pats.length ps).map f = (usedList pats ps).map g := by
  unfold usedRows usedList
  have hz : List.range pats.length = pats.zipIdx.map Prod.snd := by rw [List.zipIdx_map_snd, List.range_eq_range']
  rw [List.map_map, hz, List.filter_map, List.map_map]
  refine List.map_congr_left ?_
  intro x _
  simp [h]

theorem total_summary (blank : σ → Bool) (t : LabelTable σ) (pats : List (LGraph σ)) (ps : List (Piece σ)) (rg : RGraph σ) :
    (tableDescription blank t pats ps).bind (fun a => (rewriteDesc pats.length ps rg).map (fun b => a + b)) = (summary pats ps rg).length blank t := by
  have h1 : (usedRows pats.length ps).map (rowUsage ps) = (usedList pats ps).map (fun y => y.2.1) := usedRows_map pats ps _ _ (fun _ _ => rfl)
  have h2 : (usedRows pats.length ps).map (fun i => (rowUsage ps i : ℝ) * Real.logb 2 ((portUsage ps i).length + 1)) = (usedList pats ps).map (fun y => (y.2.1 : ℝ) * Real.logb 2 (y.2.2.length + 1)) := usedRows_map pats ps _ _ (fun _ _ => rfl)
  have h3 : (usedRows pats.length ps).map (fun i => (portUsage ps i).map Prod.fst) = (usedList pats ps).map (fun y => y.2.2.map Prod.fst) := usedRows_map pats ps _ _ (fun _ _ => rfl)
  have h4 : (pats.zipIdx.filter (fun x => decide (rowUsage ps x.2 ≠ 0))).map (fun x => rowDescription t x.1 (portUsage ps x.2).length) = (usedList pats ps).map (fun y => rowDescription t y.1 y.2.2.length) := by
    unfold usedList
    rw [List.map_map]
    rfl
  unfold tableDescription rewriteDesc edgesPerVertex edgesLabel singletonDescription Summary.length summary
  rw [h1, h2, h3, h4]
  simp only [decide_eq_true_eq]

/-! ## Finitely many lengths -/

theorem rowUsage_pos {ps : List (Piece σ)} {i : ℕ} (h : rowUsage ps i ≠ 0) : ∃ e ports, Piece.emb i e ports ∈ ps := by
  unfold rowUsage at h
  obtain ⟨pc, hpc⟩ := List.exists_mem_of_length_pos (Nat.pos_of_ne_zero h)
  rw [List.mem_filter, decide_eq_true_eq] at hpc
  obtain ⟨h1, h2⟩ := hpc
  cases pc with
  | emb j e ports =>
    simp only [Piece.kind, PKind.row.injEq] at h2
    subst h2
    exact ⟨e, ports, h1⟩
  | edge u v l => simp [Piece.kind] at h2
  | vertex v l => simp [Piece.kind] at h2

theorem rowUsage_le (ps : List (Piece σ)) (i : ℕ) : rowUsage ps i ≤ ps.length := List.length_filter_le _ _

theorem portUsage_small {N : ℕ} {d : LGraph σ} {pats : List (LGraph σ)} {ps : List (Piece σ)} (h : ∀ pc ∈ ps, PieceSmall N d pats pc) (i : ℕ) :
    (portUsage ps i).length ≤ ps.length * N ∧ ∀ x ∈ portUsage ps i, x.1 ≤ N ∧ x.2 ≤ ps.length * N := by
  obtain ⟨h1, h2⟩ := bump_small ((ps.filter (fun pc : Piece σ => decide (pc.kind = .row i))).flatMap (fun pc : Piece σ => pc.ports.map Prod.snd))
  have h3 : ((ps.filter (fun pc : Piece σ => decide (pc.kind = .row i))).flatMap (fun pc : Piece σ => pc.ports.map Prod.snd)).length ≤ ps.length * N := by
    refine le_trans (flatMap_length_le _ _ N ?_) (Nat.mul_le_mul_right N (List.length_filter_le _ _))
    intro pc hpc
    rw [List.length_map]
    exact (h pc (List.mem_of_mem_filter hpc)).number
  refine ⟨le_trans h1 h3, fun x hx => ⟨?_, le_trans (h2 x hx).2 h3⟩⟩
  obtain ⟨pc, h4, h5⟩ := List.mem_flatMap.1 (h2 x hx).1
  obtain ⟨q, h6, h7⟩ := List.mem_map.1 h5
  rw [← h7]
  exact (h pc (List.mem_of_mem_filter h4)).small q h6

theorem usedList_length (pats : List (LGraph σ)) (ps : List (Piece σ)) : (usedList pats ps).length ≤ ps.length := by
  have h1 := congrArg List.length (usedRows_map pats ps (fun _ => ()) (fun _ => ()) (fun _ _ => rfl))
  rw [List.length_map, List.length_map] at h1
  rw [← h1]
  have h2 : ((usedRows pats.length ps).map (fun i => (PKind.row i : PKind σ))).Nodup :=
    (List.nodup_map_iff_inj_on (List.nodup_range.filter _)).2 (fun a _ b _ hab => PKind.row.inj hab)
  have h3 := nodup_length_le _ (ps.map Piece.kind) h2 ?_
  · rwa [List.length_map, List.length_map] at h3
  · intro k hk
    obtain ⟨i, hi, rfl⟩ := List.mem_map.1 hk
    unfold usedRows at hi
    rw [List.mem_filter, decide_eq_true_eq] at hi
    obtain ⟨e, ports, h4⟩ := rowUsage_pos hi.2
    exact List.mem_map.2 ⟨_, h4, rfl⟩

/-- The summaries of small covers. -/
def SmallSummary (N M : ℕ) (d : LGraph σ) : Set (Summary σ) := {x | (x.used.length ≤ M ∧ ∀ y ∈ x.used, y ∈ Occurring N d ×ˢ ({n : ℕ | n ≤ M} ×ˢ {l : List (ℕ × ℕ) | l.length ≤ M * N ∧ ∀ z ∈ l, z ∈ {n : ℕ | n ≤ N} ×ˢ {n : ℕ | n ≤ M * N}})) ∧
  (x.vertex.length ≤ M ∧ ∀ y ∈ x.vertex, y ∈ {l | l ∈ d.view.labelPairs.map Prod.snd} ×ˢ {n : ℕ | n ≤ M}) ∧
  (x.edge.length ≤ M ∧ ∀ y ∈ x.edge, y ∈ {l | l ∈ d.view.edges.map (fun e => e.2.2)} ×ˢ {n : ℕ | n ≤ M}) ∧
  (x.counts.1 ≤ M * (N + 1) ∧ x.counts.2 ≤ M * (N + 1)) ∧ (x.degrees.length ≤ M * (N + 1) ∧ ∀ n ∈ x.degrees, n ∈ {n : ℕ | n ≤ M * (N + 1)})}

theorem smallSummary_finite (N M : ℕ) (d : LGraph σ) (hN : d.nodes.length ≤ N) : (SmallSummary N M d).Finite := by
  have hnat : ∀ n : ℕ, {k : ℕ | k ≤ n}.Finite := fun n => Set.finite_le_nat n
  have h1 := finite_lists _ ((occurring_finite N d hN).prod ((hnat M).prod (finite_lists _ ((hnat N).prod (hnat (M * N))) (M * N)))) M
  have h2 := finite_lists _ ((List.finite_toSet (d.view.labelPairs.map Prod.snd)).prod (hnat M)) M
  have h3 := finite_lists _ ((List.finite_toSet (d.view.edges.map (fun e => e.2.2))).prod (hnat M)) M
  have h4 := (hnat (M * (N + 1))).prod (hnat (M * (N + 1)))
  have h5 := finite_lists _ (hnat (M * (N + 1))) (M * (N + 1))
  have h6 : (Set.univ : Set (Bool × Bool)).Finite := Set.toFinite _
  refine ((h1.prod (h2.prod (h3.prod (h6.prod (h4.prod h5))))).image (fun y => (⟨y.1, y.2.1, y.2.2.1, y.2.2.2.1, y.2.2.2.2.1, y.2.2.2.2.2⟩ : Summary σ))).subset ?_
  rintro ⟨a, b, c, e, f, g⟩ ⟨q1, q2, q3, q4, q5⟩
  exact ⟨(a, b, c, e, f, g), ⟨q1, q2, q3, Set.mem_univ _, q4, q5⟩, rfl⟩

theorem summary_small {N M : ℕ} {d : LGraph σ} {pats : List (LGraph σ)} {ps : List (Piece σ)} (nm : Names σ) (hM : ps.length ≤ M) (h : ∀ pc ∈ ps, PieceSmall N d pats pc) : summary pats ps (rewriteGraph nm ps) ∈ SmallSummary N M d := by
  have hMN : ps.length * N ≤ M * N := Nat.mul_le_mul_right _ hM
  have hMN1 : ps.length * (N + 1) ≤ M * (N + 1) := Nat.mul_le_mul_right _ hM
  obtain ⟨r1, r2⟩ := rewrite_small nm ps N (fun pc hpc => (h pc hpc).number)
  refine ⟨⟨le_trans (usedList_length pats ps) hM, ?_⟩, ⟨?_, ?_⟩, ⟨?_, ?_⟩, ⟨?_, ?_⟩, ?_, ?_⟩
  · intro y hy
    obtain ⟨⟨p, i⟩, h1, rfl⟩ := List.mem_map.1 hy
    rw [List.mem_filter, decide_eq_true_eq] at h1
    obtain ⟨e, ports, h2⟩ := rowUsage_pos h1.2
    obtain ⟨q, h3, h4⟩ := (h _ h2).row i e ports rfl
    have h5 := List.mem_zipIdx_iff_getElem?.1 h1.1
    simp only at h5
    rw [h5] at h3
    cases h3
    obtain ⟨h6, h7⟩ := portUsage_small h i
    exact ⟨h4, le_trans (rowUsage_le ps i) hM, le_trans h6 hMN, fun z hz => ⟨(h7 z hz).1, le_trans (h7 z hz).2 hMN⟩⟩
  · exact le_trans (bump_small _).1 (le_trans (List.length_filterMap_le _ _) hM)
  · intro y hy
    obtain ⟨h1, h2⟩ := (bump_small _).2 y hy
    refine ⟨?_, le_trans h2 (le_trans (List.length_filterMap_le _ _) hM)⟩
    obtain ⟨pc, h3, h4⟩ := List.mem_filterMap.1 h1
    cases pc with
    | vertex v l =>
      simp only [Piece.vertexLabel?, Option.some.injEq] at h4
      rw [← h4]
      exact (h _ h3).vertex v l rfl
    | edge u v l => simp [Piece.vertexLabel?] at h4
    | emb i e ports => simp [Piece.vertexLabel?] at h4
  · exact le_trans (bump_small _).1 (le_trans (List.length_filterMap_le _ _) hM)
  · intro y hy
    obtain ⟨h1, h2⟩ := (bump_small _).2 y hy
    refine ⟨?_, le_trans h2 (le_trans (List.length_filterMap_le _ _) hM)⟩
    obtain ⟨pc, h3, h4⟩ := List.mem_filterMap.1 h1
    cases pc with
    | edge u v l =>
      simp only [Piece.edgeLabel?, Option.some.injEq] at h4
      rw [← h4]
      exact (h _ h3).edge u v l rfl
    | vertex v l => simp [Piece.edgeLabel?] at h4
    | emb i e ports => simp [Piece.edgeLabel?] at h4
  · exact le_trans (List.length_filter_le _ _) (le_trans r1 hMN1)
  · exact le_trans (List.length_filter_le _ _) (le_trans r1 hMN1)
  · show (RGraph.portDegrees _).length ≤ _
    unfold RGraph.portDegrees
    rw [List.length_map]
    refine le_trans (List.length_filter_le _ _) ?_
    rw [List.length_zipIdx]
    exact le_trans r1 hMN1
  · intro n hn
    have hn : n ∈ (rewriteGraph nm ps).portDegrees := hn
    unfold RGraph.portDegrees at hn
    obtain ⟨x, -, rfl⟩ := List.mem_map.1 hn
    exact le_trans (List.length_filter_le _ _) (le_trans r2 hMN1)

/-- The tables with tame patterns have finitely many lengths. -/
theorem lengths_finite (blank : σ → Bool) (t : LabelTable σ) (nm : Names σ) {d : LGraph σ} (hd : StringData d) {N : ℕ} (hN : d.nodes.length + 2 ≤ N) {emb : LGraph σ → List Embedding} (hemb : ∀ p, RowFor d p ⟨p.view, emb p, []⟩) :
    {x : Except String ℝ | ∃ pats, (∀ p ∈ pats, Tame N p) ∧ totalLength blank t nm emb d pats = x ∧ ∃ r, cover d.view (tableRows emb pats) Marks.fresh = .ok r}.Finite := by
  refine ((smallSummary_finite N (2 * (d.view.edges.length + d.view.labelPairs.length)) d (by omega)).image (Summary.length blank t)).subset ?_
  rintro x ⟨pats, h1, rfl, r, h2⟩
  obtain ⟨h3, h4⟩ := pieces_small hd hN hemb h1 h2
  refine ⟨_, summary_small nm h3 h4, ?_⟩
  unfold totalLength
  rw [h2, ← total_summary]
  rfl

end Verif.Graph
