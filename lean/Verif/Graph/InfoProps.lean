import Verif.Graph.InfoLemmas

/-!
# Summaries of a rewritten graph: property C151
-/

set_option autoImplicit false
set_option linter.unusedSectionVars false

namespace Verif.Graph

variable {σ : Type} [DecidableEq σ]

/-! ## Specification -/

/-- The vertices of the pattern of row `i` that are ports, if the piece is an embedding of it. -/
def Piece.portsOfRow (i : ℕ) : Piece σ → Option (List ℕ)
  | .emb j _ ports => if j = i then some (ports.map Prod.snd) else none
  | _ => none

/-- The ports of the piece, if it is a singleton with this label: both ends of an edge, the vertex itself. -/
def Piece.portsOfLabel (l : σ) : Piece σ → Option (List ℕ)
  | .edge _ _ k => if k = l then some [1, 2] else none
  | .vertex _ k => if k = l then some [1] else none
  | _ => none

/-- The list for the embeddings of a row: the ports of each. -/
def rowEntry (ls : List (List ℕ)) : List Info := ls.map .ports

/-- The list for the singletons with a label: the ports of each, and the word `singleton` after the first. -/
def labelEntry : List (List ℕ) → List Info
  | [] => []
  | p :: t => .ports p :: .singleton :: t.map .ports

/-- The data vertices that are ports of a piece. -/
def portVertices (ps : List (Piece σ)) : List ℕ := ps.flatMap (fun pc => pc.ports.map Prod.fst)

/-- The names are used as they should be: no label is the name of a vertex or of a row, no row has the name of a vertex, and no piece has two ports at one data vertex (there are no loops). -/
structure PiecesApart (nm : Names σ) (ps : List (Piece σ)) : Prop where
  ok : nm.Ok
  piece : ∀ pc ∈ ps, ∀ v, (pc.node nm).label ≠ nm.vertex v
  row : ∀ pc ∈ ps, ∀ i, (pc.node nm).isSingleton = true → (pc.node nm).label ≠ nm.row i
  ports : ∀ pc ∈ ps, (pc.ports.map Prod.fst).Nodup

/-! ## The rewritten graph of a list of pieces -/

variable {nm : Names σ}

/-- What is known of the rewritten graph of a list of pieces. -/
structure GraphOf (nm : Names σ) (ps : List (Piece σ)) (rg : RGraph σ) : Prop where
  sources : ∀ e ∈ rg.edges, e.1 ≤ rg.nodes.length
  named : ∀ s, (∀ v, s ≠ nm.vertex v) → (rg.named s).map (fun n => (rg.outLabels n.2, n.1.isSingleton)) =
    (ps.filter (fun pc => decide ((pc.node nm).label = s))).map (fun pc => (pc.ports.map Prod.snd, (pc.node nm).isSingleton))
  port : ∀ n ∈ rg.nodes, n.isPattern = false → ∃ v ∈ portVertices ps, n = portNode nm v
  pattern : ∀ n ∈ rg.nodes, n.isPattern = true → ∃ pc ∈ ps, n = pc.node nm
  nodup : ((rg.nodes.filter (fun n => !n.isPattern)).map RNode.label).Nodup
  pieces : ∀ pc ∈ ps, pc.node nm ∈ rg.nodes
  all : ∀ v ∈ portVertices ps, portNode nm v ∈ rg.nodes
  first : ∀ n, rg.nodes.head? = some n → n.isPattern = true

theorem node_isPattern (nm : Names σ) (pc : Piece σ) : (pc.node nm).isPattern = true := by cases pc <;> rfl

theorem graphOf (ps : List (Piece σ)) (h : PiecesApart nm ps) : GraphOf nm ps (rewriteGraph nm ps) := by
  induction ps using List.reverseRecOn with
  | nil => exact ⟨by simp [rewriteGraph], by simp [rewriteGraph, RGraph.named], by simp [rewriteGraph], by simp [rewriteGraph], by simp [rewriteGraph], by simp, by simp [portVertices], by simp [rewriteGraph]⟩
  | append_singleton ps pc ih =>
    have ih := ih ⟨h.ok, fun p hp => h.piece p (List.mem_append_left _ hp), fun p hp => h.row p (List.mem_append_left _ hp), fun p hp => h.ports p (List.mem_append_left _ hp)⟩
    have hpc : pc ∈ ps ++ [pc] := by simp
    have e0 : rewriteGraph nm (ps ++ [pc]) = addPiece nm (rewriteGraph nm ps) (pc.node nm) pc.ports := by
      unfold rewriteGraph; rw [List.foldl_append]; rfl
    rw [e0]
    obtain ⟨rg, hrg⟩ : ∃ rg, rg = rewriteGraph nm ps := ⟨_, rfl⟩
    rw [← hrg] at ih ⊢
    obtain ⟨N, E⟩ := rg
    obtain ⟨K, F, h1, h2, h3, h4, h5, h6, h7⟩ := ports_fold h.ok (N.length + 1) (N ++ [pc.node nm]) E (fun e he => by have := ih.sources e he; simp only at this; omega) pc.ports (h.ports pc hpc)
    have e1 : addPiece nm ⟨N, E⟩ (pc.node nm) pc.ports = ⟨N ++ [pc.node nm] ++ K, E ++ F⟩ := h1
    rw [e1]
    have hpv : portVertices (ps ++ [pc]) = portVertices ps ++ pc.ports.map Prod.fst := by simp [portVertices]
    have hKp : K.filter (fun n => !n.isPattern) = K := by
      rw [List.filter_eq_self]
      intro n hn
      obtain ⟨u, -, rfl, -⟩ := h5 n hn
      rfl
    have hportIn : ∀ v, nm.vertex v ∈ (N ++ [pc.node nm]).map RNode.label → portNode nm v ∈ N := by
      intro v hv
      obtain ⟨n, hn, hl⟩ := List.mem_map.1 hv
      rcases List.mem_append.1 hn with hn | hn
      · cases hp : n.isPattern with
        | false =>
          obtain ⟨u, -, rfl⟩ := ih.port n hn hp
          rw [← h.ok.vertex u v hl]; exact hn
        | true =>
          obtain ⟨p, hpm, rfl⟩ := ih.pattern n hn hp
          exact (h.piece p (List.mem_append_left _ hpm) v hl).elim
      · rw [List.mem_singleton] at hn
        subst hn
        exact (h.piece pc hpc v hl).elim
    refine ⟨?_, ?_, ?_, ?_, ?_, ?_, ?_, ?_⟩
    · intro e he
      simp only [List.length_append, List.length_cons, List.length_nil]
      rcases List.mem_append.1 he with he | he
      · have := ih.sources e he; simp only at this; omega
      · rw [h3 e he]; omega
    · intro s hs
      have hold : ∀ y, y ≤ N.length → RGraph.outLabels (⟨N ++ [pc.node nm] ++ K, E ++ F⟩ : RGraph σ) y = RGraph.outLabels (⟨N, E⟩ : RGraph σ) y := by
        intro y hy
        unfold RGraph.outLabels
        simp only [List.filter_append]
        have hF : F.filter (fun e => decide (e.1 = y)) = [] := by
          rw [List.filter_eq_nil_iff]
          intro e he
          rw [h3 e he]
          simp; omega
        rw [hF, List.append_nil]
      have hnew : RGraph.outLabels (⟨N ++ [pc.node nm] ++ K, E ++ F⟩ : RGraph σ) (N.length + 1) = pc.ports.map Prod.snd := by
        unfold RGraph.outLabels
        simp only [List.filter_append]
        have hF : F.filter (fun e => decide (e.1 = N.length + 1)) = F := by
          rw [List.filter_eq_self]
          intro e he
          simp [h3 e he]
        have hE : E.filter (fun e => decide (e.1 = N.length + 1)) = [] := by
          rw [List.filter_eq_nil_iff]
          intro e he
          have := ih.sources e he
          simp only at this
          simp; omega
        rw [hF, hE, List.nil_append, h2]
      have hK : (K.zipIdx (1 + (N ++ [pc.node nm]).length)).filter (fun n => decide (n.1.label = s)) = [] := by
        rw [List.filter_eq_nil_iff]
        rintro ⟨n, i⟩ hn
        obtain ⟨u, -, rfl, -⟩ := h5 n (List.fst_mem_of_mem_zipIdx hn)
        exact fun e => hs u (of_decide_eq_true e).symm
      have hn : RGraph.named (⟨N ++ [pc.node nm] ++ K, E ++ F⟩ : RGraph σ) s = RGraph.named (⟨N, E⟩ : RGraph σ) s ++ if (pc.node nm).label = s then [(pc.node nm, N.length + 1)] else [] := by
        unfold RGraph.named
        simp only
        rw [List.zipIdx_append, List.filter_append, hK, List.append_nil, List.zipIdx_append, List.filter_append]
        congr 1
        rw [Nat.add_comm 1]
        by_cases hl : (pc.node nm).label = s <;> simp [hl]
      have ihn := ih.named s hs
      rw [hn, List.map_append, List.filter_append, List.map_append, ← ihn]
      congr 1
      · apply List.map_congr_left
        rintro ⟨n, i⟩ hm
        rw [hold]
        have := List.mem_zipIdx (List.mem_of_mem_filter hm)
        simp only
        simp only at this
        omega
      · by_cases hl : (pc.node nm).label = s
        · rw [if_pos hl, List.filter_cons_of_pos (by simpa using hl)]
          show [(RGraph.outLabels _ (N.length + 1), _)] = _
          rw [hnew]
          rfl
        · rw [if_neg hl, List.filter_cons_of_neg (by simpa using hl)]
          simp
    · intro n hn hp
      rw [hpv]
      rcases List.mem_append.1 hn with hn | hn
      · rcases List.mem_append.1 hn with hn | hn
        · obtain ⟨v, hv, e⟩ := ih.port n hn hp
          exact ⟨v, List.mem_append_left _ hv, e⟩
        · rw [List.mem_singleton] at hn
          subst hn
          rw [node_isPattern] at hp
          simp at hp
      · obtain ⟨u, hu, e, -⟩ := h5 n hn
        exact ⟨u, List.mem_append_right _ hu, e⟩
    · intro n hn hp
      rcases List.mem_append.1 hn with hn | hn
      · rcases List.mem_append.1 hn with hn | hn
        · obtain ⟨p, hp, e⟩ := ih.pattern n hn hp
          exact ⟨p, List.mem_append_left _ hp, e⟩
        · rw [List.mem_singleton] at hn
          exact ⟨pc, hpc, hn⟩
      · obtain ⟨u, hu, rfl, -⟩ := h5 n hn
        simp [portNode] at hp
    · simp only
      rw [List.filter_append, hKp, List.filter_append]
      have : [pc.node nm].filter (fun n => !n.isPattern) = [] := by simp [node_isPattern]
      rw [this, List.append_nil, List.map_append, List.nodup_append]
      refine ⟨ih.nodup, h6, ?_⟩
      intro a ha b hb hab
      obtain ⟨n, hn, rfl⟩ := List.mem_map.1 hb
      obtain ⟨u, -, rfl, hno⟩ := h5 n hn
      obtain ⟨m, hm, rfl⟩ := List.mem_map.1 ha
      apply hno
      rw [List.map_append]
      exact List.mem_append_left _ (List.mem_map.2 ⟨m, List.mem_of_mem_filter hm, hab⟩)
    · intro p hp
      rcases List.mem_append.1 hp with hp | hp
      · exact List.mem_append_left _ (List.mem_append_left _ (ih.pieces p hp))
      · rw [List.mem_singleton] at hp
        subst hp
        simp
    · intro v hv
      rw [hpv] at hv
      rcases List.mem_append.1 hv with hv | hv
      · exact List.mem_append_left _ (List.mem_append_left _ (ih.all v hv))
      · have := h7 v hv
        rw [List.map_append] at this
        rcases List.mem_append.1 this with h8 | h8
        · exact List.mem_append_left _ (List.mem_append_left _ (hportIn v h8))
        · obtain ⟨n, hn, hl⟩ := List.mem_map.1 h8
          obtain ⟨u, -, rfl, -⟩ := h5 n hn
          rw [← h.ok.vertex u v hl]
          exact List.mem_append_right _ hn
    · intro n hn
      match N, ih.first with
      | [], _ =>
        simp only [List.nil_append, List.cons_append, List.head?_cons, Option.some.injEq] at hn
        rw [← hn]; exact node_isPattern nm pc
      | m :: t, hf =>
        simp only [List.cons_append, List.head?_cons, Option.some.injEq] at hn
        rw [← hn]; exact hf m rfl

theorem infos_ok (rg : RGraph σ) (h : ∀ n, rg.nodes.head? = some n → n.isPattern = true) : ∃ d, patternInfos rg = .ok d := by
  unfold patternInfos
  match hN : rg.nodes with
  | [] => exact ⟨[], rfl⟩
  | n :: t =>
    have hn := h n (by rw [hN]; rfl)
    simp only [infoLoop]
    unfold infoStep
    simp only [hn, if_true]
    exact infoLoop_ok rg t _ _ _

theorem filter_row (i : ℕ) (hok : nm.Ok) (ps : List (Piece σ)) (h : ∀ pc ∈ ps, (pc.node nm).isSingleton = true → (pc.node nm).label ≠ nm.row i) :
    (ps.filter (fun pc => decide ((pc.node nm).label = nm.row i))).map (fun pc => (pc.ports.map Prod.snd, (pc.node nm).isSingleton)) =
      (ps.filterMap (Piece.portsOfRow i)).map (fun p => (p, false)) := by
  induction ps with
  | nil => rfl
  | cons pc t ih =>
    have ih := ih (fun p hp => h p (List.mem_cons_of_mem _ hp))
    have hp := h pc (List.mem_cons_self ..)
    cases pc with
    | emb j e ports =>
      by_cases hj : j = i
      · subst hj
        rw [List.filter_cons_of_pos (by simp [Piece.node]), List.filterMap_cons_some (b := ports.map Prod.snd) (by simp [Piece.portsOfRow]), List.map_cons, List.map_cons, ih]
        rfl
      · rw [List.filter_cons_of_neg (by exact fun e => hj (hok.row j i (of_decide_eq_true e))), List.filterMap_cons_none (by simp [Piece.portsOfRow, hj]), ih]
    | edge u v l => rw [List.filter_cons_of_neg (by exact fun e => hp rfl (of_decide_eq_true e)), List.filterMap_cons_none rfl, ih]
    | vertex v l => rw [List.filter_cons_of_neg (by exact fun e => hp rfl (of_decide_eq_true e)), List.filterMap_cons_none rfl, ih]

theorem filter_label (l : σ) (hl : ∀ i, l ≠ nm.row i) (ps : List (Piece σ)) :
    (ps.filter (fun pc => decide ((pc.node nm).label = l))).map (fun pc => (pc.ports.map Prod.snd, (pc.node nm).isSingleton)) =
      (ps.filterMap (Piece.portsOfLabel l)).map (fun p => (p, true)) := by
  induction ps with
  | nil => rfl
  | cons pc t ih =>
    cases pc with
    | emb j e ports => rw [List.filter_cons_of_neg (by exact fun e => hl j (of_decide_eq_true e).symm), List.filterMap_cons_none rfl, ih]
    | edge u v k =>
      by_cases hk : k = l
      · rw [List.filter_cons_of_pos (by exact decide_eq_true hk), List.filterMap_cons_some (b := [1, 2]) (by simp [Piece.portsOfLabel, hk]), List.map_cons, List.map_cons, ih]
        rfl
      · rw [List.filter_cons_of_neg (by exact fun e => hk (of_decide_eq_true e)), List.filterMap_cons_none (by simp [Piece.portsOfLabel, hk]), ih]
    | vertex v k =>
      by_cases hk : k = l
      · rw [List.filter_cons_of_pos (by exact decide_eq_true hk), List.filterMap_cons_some (b := [1]) (by simp [Piece.portsOfLabel, hk]), List.map_cons, List.map_cons, ih]
        rfl
      · rw [List.filter_cons_of_neg (by exact fun e => hk (of_decide_eq_true e)), List.filterMap_cons_none (by simp [Piece.portsOfLabel, hk]), ih]

/-- C151, summary of the patterns: the call succeeds; at the name of a row there are the ports of its embeddings and at a label those of its singletons, all in order. The keys are these names and the names of the ports: the full statement, that there are no others than the names of patterns, is refuted by `infos_list_ports`. -/
theorem pattern_infos_partial (ps : List (Piece σ)) (h : PiecesApart nm ps) :
    ∃ d, patternInfos (rewriteGraph nm ps) = .ok d ∧
      (∀ i, (∀ v, nm.row i ≠ nm.vertex v) → infoAt d (nm.row i) = rowEntry (ps.filterMap (Piece.portsOfRow i))) ∧
      (∀ l, (∀ i, l ≠ nm.row i) → (∀ v, l ≠ nm.vertex v) → infoAt d l = labelEntry (ps.filterMap (Piece.portsOfLabel l))) ∧
      ∀ s, s ∈ d.map Prod.fst ↔ (∃ pc ∈ ps, s = (pc.node nm).label) ∨ ∃ v ∈ portVertices ps, s = nm.vertex v := by
  have hg := graphOf ps h
  obtain ⟨d, hd⟩ := infos_ok _ hg.first
  have hat : ∀ s, (∀ v, s ≠ nm.vertex v) → infoAt d s = marks ((ps.filter (fun pc => decide ((pc.node nm).label = s))).map (fun pc => (pc.ports.map Prod.snd, (pc.node nm).isSingleton))) [] := by
    intro s hs
    have := infoLoop_at (rewriteGraph nm ps) s (rewriteGraph nm ps).nodes 1 none [] d (by
      intro n hn hl
      cases hp : n.isPattern with
      | true => rfl
      | false =>
        obtain ⟨v, -, rfl⟩ := hg.port n hn hp
        exact (hs v hl.symm).elim) hd
    rw [this, ← hg.named s hs]
    rfl
  refine ⟨d, hd, ?_, ?_, ?_⟩
  · intro i hi
    rw [hat _ hi, filter_row i h.ok ps (fun pc hp => h.row pc hp i), marks_rows]
    rfl
  · intro l hl hv
    rw [hat _ hv, filter_label l hl ps]
    cases ps.filterMap (Piece.portsOfLabel l) with
    | nil => rfl
    | cons p t => exact marks_singles p t
  · intro s
    rw [infoLoop_keys _ s _ _ _ _ _ hd]
    simp only [List.map_nil, List.not_mem_nil, false_or, List.mem_map]
    constructor
    · rintro ⟨n, hn, rfl⟩
      cases hp : n.isPattern with
      | true => obtain ⟨pc, hpc, rfl⟩ := hg.pattern n hn hp; exact .inl ⟨pc, hpc, rfl⟩
      | false => obtain ⟨v, hv, rfl⟩ := hg.port n hn hp; exact .inr ⟨v, hv, rfl⟩
    · rintro (⟨pc, hpc, rfl⟩ | ⟨v, hv, rfl⟩)
      · exact ⟨_, hg.pieces pc hpc, rfl⟩
      · exact ⟨_, hg.all v hv, rfl⟩

/-- C151 is false for every rewritten graph with a port: the port is listed as a pattern. -/
theorem infos_list_ports (ps : List (Piece σ)) (h : PiecesApart nm ps) (v : ℕ) (hv : v ∈ portVertices ps) :
    ∃ d, patternInfos (rewriteGraph nm ps) = .ok d ∧ nm.vertex v ∈ d.map Prod.fst ∧ ∀ pc ∈ ps, nm.vertex v ≠ (pc.node nm).label := by
  obtain ⟨d, hd, -, -, h4⟩ := pattern_infos_partial ps h
  exact ⟨d, hd, (h4 _).2 (.inr ⟨v, hv, rfl⟩), fun pc hpc e => h.piece pc hpc v e.symm⟩

/-- C151, number of ports: the number of data vertices that are ports. -/
theorem count_ports (ps : List (Piece σ)) (h : PiecesApart nm ps) : countPorts (rewriteGraph nm ps) = (portVertices ps).dedup.length := by
  have hg := graphOf ps h
  have hp : ((rewriteGraph nm ps).nodes.filter (fun n => !n.isPattern)).map RNode.label |>.Perm ((portVertices ps).dedup.map nm.vertex) := by
    rw [List.perm_ext_iff_of_nodup hg.nodup (List.Nodup.map (fun u v => h.ok.vertex u v) (List.nodup_dedup _))]
    intro s
    simp only [List.mem_map, List.mem_filter, List.mem_dedup]
    constructor
    · rintro ⟨n, ⟨hn, hf⟩, rfl⟩
      obtain ⟨v, hv, rfl⟩ := hg.port n hn (by simpa using hf)
      exact ⟨v, hv, rfl⟩
    · rintro ⟨v, hv, rfl⟩
      exact ⟨portNode nm v, ⟨hg.all v hv, rfl⟩, rfl⟩
  have := hp.length_eq
  simpa [countPorts] using this

/-- C151, ports of a node: the node of a piece has the ports of the piece. -/
theorem ports_of_nodes (ps : List (Piece σ)) (h : PiecesApart nm ps) (s : σ) (hs : ∀ v, s ≠ nm.vertex v) :
    ((rewriteGraph nm ps).named s).map (fun n => portsOfNode (rewriteGraph nm ps) n.2) = (ps.filter (fun pc => decide ((pc.node nm).label = s))).map (fun pc => (pc.ports.map Prod.snd).dedup) := by
  have := congrArg (List.map (fun x => x.1.dedup)) ((graphOf ps h).named s hs)
  simpa [portsOfNode, Function.comp_def] using this

/-! ## An example -/

/-- Two embeddings of row 0 that share a vertex, an edge label and two vertex labels. The name of row `i` is `4 i + 3`, that of vertex `v` is `2 v`. -/
def infoPieces : List (Piece ℕ) := [.emb 0 [(1, 1), (2, 2)] [(2, 2)], .emb 0 [(2, 1), (3, 2)] [(2, 1), (3, 2)], .edge 3 4 100001, .vertex 4 100005, .vertex 3 100005]

def infoNames : Names ℕ := ⟨fun i => 4 * i + 3, fun v => 2 * v⟩

theorem infoPieces_apart : PiecesApart infoNames infoPieces := by
  refine ⟨⟨fun i j h => by simp [infoNames] at h; omega, fun i j h => by simp [infoNames] at h; omega⟩, ?_, ?_, ?_⟩
  · intro pc hpc v
    simp only [infoPieces, List.mem_cons, List.not_mem_nil, or_false] at hpc
    rcases hpc with rfl | rfl | rfl | rfl | rfl <;> simp [Piece.node, infoNames] <;> omega
  · intro pc hpc i hs
    simp only [infoPieces, List.mem_cons, List.not_mem_nil, or_false] at hpc
    rcases hpc with rfl | rfl | rfl | rfl | rfl <;> simp only [Piece.node, infoNames, Bool.false_eq_true] at hs ⊢ <;> omega
  · intro pc hpc
    simp only [infoPieces, List.mem_cons, List.not_mem_nil, or_false] at hpc
    rcases hpc with rfl | rfl | rfl | rfl | rfl <;> simp [Piece.ports]

/-- The summary of the example: the two embeddings of row 0 with their ports, the labels, and the three ports with the ports of the node made before them. -/
example : patternInfos (rewriteGraph infoNames infoPieces) = .ok [(3, [.ports [2], .ports [1, 2]]), (4, [.ports [2]]), (6, [.ports [1, 2]]),
    (100001, [.ports [1, 2], .singleton]), (8, [.ports [1, 2]]), (100005, [.ports [1], .singleton, .ports [1]])] ∧ countPorts (rewriteGraph infoNames infoPieces) = 3 := by
  decide +kernel

end Verif.Graph
