import Verif.Graph.GenFacts

/-!
# The merge candidates of a rewritten graph: properties
-/

set_option autoImplicit false
set_option linter.unusedSectionVars false

namespace Verif.Graph

variable {σ : Type} [DecidableEq σ]

/-! ## The generation does not raise -/

theorem makeCand_ok {env : GenEnv σ} {rg : RGraph σ} (h : rg.Ok) (hpat : ∀ (i : ℕ) (n : RNode σ), rg.nodes[i]? = some n → n.isPattern = true → ∃ k, env.patOf n = .ok k) (x y : ℕ) (hj : rg.Joined x y) :
    ∃ c, makeCand env rg x y = .ok c := by
  obtain ⟨hne, p, a, b, hp, ha, hb⟩ := hj
  obtain ⟨n, hn1, hn2, hn3⟩ := h.src _ _ _ ha
  obtain ⟨m, hm1, hm2, hm3⟩ := h.src _ _ _ hb
  obtain ⟨k1, hk1⟩ := hpat _ n hn2 hn3
  obtain ⟨k2, hk2⟩ := hpat _ m hm2 hm3
  unfold makeCand
  rw [(node?_iff rg x n).2 ⟨hn1, hn2⟩, (node?_iff rg y m).2 ⟨hm1, hm2⟩]
  unfold GenEnv.patOf at hk1 hk2
  cases hs : n.isSingleton <;> cases ht : m.isSingleton <;> rw [hs] at hk1 <;> rw [ht] at hk2 <;>
    simp only [hs, ht, Bool.not_false, Bool.not_true, Bool.and_self, Bool.and_true, Bool.and_false, if_true, Bool.false_eq_true, if_false] at hk1 hk2 ⊢
  · by_cases hlt : env.idx n.label < env.idx m.label
    · simp only [hlt, decide_true, Bool.not_true, Bool.false_eq_true, if_false, hk1, hk2]
      exact ⟨_, rfl⟩
    · simp only [hlt, decide_false, Bool.not_false, if_true, hk1, hk2]
      exact ⟨_, rfl⟩
  · rw [hk1, hk2]; exact ⟨_, rfl⟩
  · rw [hk2]; exact ⟨_, rfl⟩
  · split <;> exact ⟨_, rfl⟩

theorem collect_ok {env : GenEnv σ} {rg : RGraph σ} (h : rg.Ok) (hpat : ∀ (i : ℕ) (n : RNode σ), rg.nodes[i]? = some n → n.isPattern = true → ∃ k, env.patOf n = .ok k) (Q : List (ℕ × ℕ))
    (hQ : ∀ q ∈ Q, rg.Joined q.1 q.2) : ∀ cs, ∃ cs', collect env rg Q cs = .ok cs' := by
  induction Q with
  | nil => intro cs; exact ⟨cs, rfl⟩
  | cons q t ih =>
    intro cs
    obtain ⟨c, hc⟩ := makeCand_ok h hpat q.1 q.2 (hQ q (List.mem_cons_self ..))
    obtain ⟨cs', h'⟩ := ih (fun r hr => hQ r (List.mem_cons_of_mem _ hr)) (addCand cs c)
    exact ⟨cs', by rw [collect, hc]; exact h'⟩

/-- The two functions of the second loop do not raise on this candidate. -/
def Settles (env : GenEnv σ) (c : GCand σ) : Prop :=
  (c.firstPat = none → c.secondPat = none) ∧ (c.firstPat = none → ∃ k, singletonPattern env c.first = .ok k) ∧ (c.secondPat = none → ∃ k, singletonPattern env c.second = .ok k)

theorem candUsage_ok {env : GenEnv σ} (rg : RGraph σ) (c : GCand σ) (h : Settles env c) : ∃ u, candUsage env rg c = .ok u := by
  unfold candUsage
  simp only
  split
  · exact ⟨_, rfl⟩
  · split
    · split
      · exact ⟨_, rfl⟩
      · split
        · exact ⟨_, rfl⟩
        · split <;> exact ⟨_, rfl⟩
    · rename_i h1 h2; rw [h.1 h1] at h2; cases h2
    · split
      · split <;> exact ⟨_, rfl⟩
      · exact ⟨_, rfl⟩
    · split
      · exact ⟨_, rfl⟩
      · split <;> exact ⟨_, rfl⟩

theorem finalPats_ok {env : GenEnv σ} (c : GCand σ) (h : Settles env c) : ∃ k, finalPats env c = .ok k := by
  unfold finalPats
  split
  · rename_i h1 h2; rw [h.1 h1] at h2; cases h2
  · rename_i h1 h2
    obtain ⟨k, hk⟩ := h.2.2 h2
    rw [hk]; exact ⟨_, rfl⟩
  · rename_i h1 h2
    obtain ⟨k, hk⟩ := h.2.1 h1
    obtain ⟨k', hk'⟩ := h.2.2 h2
    rw [hk, hk']; exact ⟨_, rfl⟩
  · exact ⟨_, rfl⟩

theorem finish_ok {env : GenEnv σ} (rg : RGraph σ) (todo : List (GCand σ)) (h : ∀ c ∈ todo, Settles env c) : ∀ done, ∃ res, finish env rg done todo = .ok res := by
  induction todo with
  | nil => intro done; exact ⟨done, rfl⟩
  | cons c t ih =>
    intro done
    have hc := h c (List.mem_cons_self ..)
    obtain ⟨u, hu⟩ := candUsage_ok rg c hc
    have hf : Settles env c.flip := by
      unfold Settles
      rw [flip_pat1, flip_pat2, flip_first, flip_second]
      exact hc
    obtain ⟨k, hk⟩ := finalPats_ok c.flip hf
    obtain ⟨res, hr⟩ := ih (fun d hd => h d (List.mem_cons_of_mem _ hd)) (done ++ [{ c.flip with usage := u, exclusive := exclusivePorts (done ++ c.flip :: t) c.flip, firstPat := k.1, secondPat := k.2 }])
    refine ⟨res, ?_⟩
    rw [finish, hu]
    change (Except.bind (finalPats env c.flip) _) = _
    rw [hk]
    exact hr

theorem CandMade.settles {env : GenEnv σ} {rg : RGraph σ} (hpat : ∀ (i : ℕ) (n : RNode σ), rg.nodes[i]? = some n → n.isPattern = true → ∃ k, env.patOf n = .ok k) {d : GCand σ} {u v : ℕ} {n m : RNode σ}
    (h : CandMade env rg d u v n m) : Settles env d := by
  refine ⟨h.late, ?_, ?_⟩
  · intro h1
    obtain ⟨k, hk⟩ := hpat _ n h.node1.2.1 h.node1.2.2
    rcases h.pat1 with ⟨k', h2, _⟩ | ⟨h2, _⟩
    · rw [h2] at h1; cases h1
    · unfold GenEnv.patOf at hk
      rw [if_pos h2, ← h.first] at hk
      exact ⟨k, hk⟩
  · intro h1
    obtain ⟨k, hk⟩ := hpat _ m h.node2.2.1 h.node2.2.2
    rcases h.pat2 with ⟨k', h2, _⟩ | ⟨h2, _⟩
    · rw [h2] at h1; cases h1
    · unfold GenEnv.patOf at hk
      rw [if_pos h2, ← h.second] at hk
      exact ⟨k, hk⟩

theorem generate_total {env : GenEnv σ} (henv : env.Ok) {rg : RGraph σ} (h : rg.Ok) (hpat : ∀ (i : ℕ) (n : RNode σ), rg.nodes[i]? = some n → n.isPattern = true → ∃ k, env.patOf n = .ok k) :
    ∃ res, generate env rg = .ok res := by
  obtain ⟨cs, hcs⟩ := collect_ok h hpat (visited env rg) (fun q hq => visited_mem henv h q.1 q.2 hq) []
  have hc := coll_visited henv h cs hcs
  obtain ⟨res, hr⟩ := finish_ok rg cs (fun c hcm => by
    obtain ⟨d, u, v, n, m, h1, h2, h3, h4⟩ := hc.sound c hcm
    have := h1.settles hpat
    unfold Settles at *
    rw [← h3, ← h4, ← h2.1, ← h2.2.1]
    exact this) []
  refine ⟨res, ?_⟩
  unfold generate
  rw [hcs]
  exact hr

/-! ## The code table after a cover -/

/-- The pieces of a cover and the names of the rows. -/
structure Fits (nm : Names σ) (rows : List (Row σ)) (ps : List (Piece σ)) : Prop where
  lt : ∀ i e ports, Piece.emb i e ports ∈ ps → i < rows.length
  edge : ∀ i u v l, Piece.edge u v l ∈ ps → l ≠ nm.row i
  vertex : ∀ i v l, Piece.vertex v l ∈ ps → l ≠ nm.row i

theorem fits_of_cover (g : DGraph σ) (hnodup : g.edges.Nodup) (rows : List (Row σ)) (hrows : ∀ r ∈ rows, RowOk g r) (m : Marks σ) (hm : History g m) (nm : Names σ) (hname : ∀ i l, g.Uses l → l ≠ nm.row i)
    (r : Marks σ × List (Row σ) × List (Piece σ)) (h : cover g rows m = .ok r) : Fits nm rows r.2.2 := by
  obtain ⟨m', rows', ps, h1, h2, _, h4⟩ := cover_partial g hnodup rows hrows m hm
  rw [h] at h1
  cases h1
  refine ⟨?_, ?_, ?_⟩
  · intro i e ports hp
    rcases cover_pieces g rows m _ h _ hp with ⟨j, row, h5, _, _, _, h6, _⟩ | ⟨_, _, _, h6⟩ | ⟨_, _, h6⟩
    · cases h6; exact (List.getElem?_eq_some_iff.1 h5).1
    · cases h6
    · cases h6
  · intro i u v l hp
    refine hname i l (.inr ⟨u, v, ?_⟩)
    have h5 := h2 (u, v, l)
    have h6 : 0 < (ps.countP (fun pc => pc.coversEdge rows (u, v, l))) := List.countP_pos_iff.2 ⟨_, hp, by simp [Piece.coversEdge]⟩
    rw [h5] at h6
    exact List.count_pos_iff.1 h6
  · intro i v l hp
    obtain ⟨ls, h5, h6⟩ := h4 v l hp
    exact hname i l (.inl ⟨v, ls, h5, h6⟩)

theorem patOf_piece {env : GenEnv σ} {nm : Names σ} {rows : List (Row σ)} {ps : List (Piece σ)} (hfor : env.For nm rows ps) (hfit : Fits nm rows ps) (pc : Piece σ) (hpc : pc ∈ ps) : ∃ k, env.patOf (pc.node nm) = .ok k := by
  unfold GenEnv.patOf
  cases pc with
  | emb i e ports =>
    have := hfit.lt i e ports hpc
    simp [Piece.node, rowPattern, hfor.idx, hfor.nRows, this]
  | edge u v l =>
    have := (hfor.isE l).2 ⟨u, v, hpc⟩
    simp [Piece.node, singletonPattern, this]
  | vertex v l =>
    have := (hfor.isV l).2 ⟨v, hpc⟩
    simp only [Piece.node, singletonPattern, this, if_true]
    split <;> exact ⟨_, rfl⟩

theorem clear_of_cover {env : GenEnv σ} {nm : Names σ} (hnm : nm.Ok) {rows : List (Row σ)} {ps : List (Piece σ)} (hfor : env.For nm rows ps) (hfit : Fits nm rows ps) : (rewriteGraph nm ps).Clear env := by
  have key : ∀ pc ∈ ps, ∀ qc ∈ ps, (pc.node nm).label = (qc.node nm).label → (pc.node nm).isSingleton = false → (qc.node nm).isSingleton = false := by
    intro pc hp qc hq h1 h2
    cases pc with
    | emb i e ports =>
      cases qc with
      | emb => rfl
      | edge u v l => exact absurd h1.symm (hfit.edge i u v l hq)
      | vertex v l => exact absurd h1.symm (hfit.vertex i v l hq)
    | edge => cases h2
    | vertex => cases h2
  refine ⟨?_, ?_⟩
  · intro i j n m hn hm pn pm hl
    obtain ⟨pc, hp, rfl⟩ := rewrite_nodes hnm ps i n hn pn
    obtain ⟨qc, hq, rfl⟩ := rewrite_nodes hnm ps j m hm pm
    cases h1 : (pc.node nm).isSingleton with
    | false => rw [key pc hp qc hq hl h1]
    | true =>
      cases h2 : (qc.node nm).isSingleton with
      | true => rfl
      | false => rw [key qc hq pc hp hl.symm h2] at h1; cases h1
  · intro i j n m hn hm pn pm sn sm hl
    obtain ⟨pc, hp, rfl⟩ := rewrite_nodes hnm ps i n hn pn
    obtain ⟨qc, hq, rfl⟩ := rewrite_nodes hnm ps j m hm pm
    cases pc with
    | emb i e ports =>
      cases qc with
      | emb j e' ports' =>
        simp only [Piece.node, hfor.idx] at hl
        rw [hl]; rfl
      | edge => cases sm
      | vertex => cases sm
    | edge => cases sn
    | vertex => cases sn

/-- The generation on the rewritten graph of a cover. -/
theorem cover_result (g : DGraph σ) (hnodup : g.edges.Nodup) (rows : List (Row σ)) (hrows : ∀ r ∈ rows, RowOk g r) (m : Marks σ) (hm : History g m) (nm : Names σ) (hnm : nm.Ok)
    (hname : ∀ i l, g.Uses l → l ≠ nm.row i) (r : Marks σ × List (Row σ) × List (Piece σ)) (hcov : cover g rows m = .ok r) (env : GenEnv σ) (henv : env.Ok) (hfor : env.For nm rows r.2.2) :
    ∃ res cs, generate env (rewriteGraph nm r.2.2) = .ok res ∧ Result env (rewriteGraph nm r.2.2) cs res ∧ (rewriteGraph nm r.2.2).Ok ∧ (rewriteGraph nm r.2.2).Clear env ∧ Fits nm rows r.2.2 := by
  have hok := rewrite_graph_ok hnm r.2.2 (cover_ports g rows hrows m r hcov)
  have hfit := fits_of_cover g hnodup rows hrows m hm nm hname r hcov
  have hcl := clear_of_cover hnm hfor hfit
  obtain ⟨res, hr⟩ := generate_total henv hok (fun i n hn hp => by
    obtain ⟨pc, hpc, rfl⟩ := rewrite_nodes hnm r.2.2 i n hn hp
    exact patOf_piece hfor hfit pc hpc)
  obtain ⟨cs, hres⟩ := result_of henv hok res hr
  exact ⟨res, cs, hr, hres, hok, hcl, hfit⟩

/-! ## C90 -/

/-- C90: after a cover, the generation of candidates succeeds and returns the pairs of patterns that meet in the rewritten graph.
Every candidate has an occurrence: two different nodes with its labels that meet exactly at its ports, and every data port is where an occurrence meets. Any two nodes that meet are an occurrence of a candidate, read in one of the
two directions, and the ports where they meet are data ports of it. No two candidates are alike. When the labels of a candidate differ, its data ports are exactly the ports where its occurrences meet and no candidate
is opposite to it. -/
theorem candidates_found (g : DGraph σ) (hnodup : g.edges.Nodup) (rows : List (Row σ)) (hrows : ∀ r ∈ rows, RowOk g r) (m : Marks σ) (hm : History g m) (nm : Names σ) (hnm : nm.Ok)
    (hname : ∀ i l, g.Uses l → l ≠ nm.row i) (r : Marks σ × List (Row σ) × List (Piece σ)) (hcov : cover g rows m = .ok r) (env : GenEnv σ) (henv : env.Ok) (hfor : env.For nm rows r.2.2) :
    ∃ cs, generate env (rewriteGraph nm r.2.2) = .ok cs ∧
      (∀ c ∈ cs, c.port ≠ [] ∧ c.port.Nodup ∧ ∃ x y, (rewriteGraph nm r.2.2).Occurs c x y) ∧
      (∀ c ∈ cs, ∀ p ∈ c.dataPort, ∃ x y a b, (rewriteGraph nm r.2.2).Occurs c x y ∧ (rewriteGraph nm r.2.2).Meet x y p a b) ∧
      (∀ x y p a b, x ≠ y → (rewriteGraph nm r.2.2).Meet x y p a b → ∃ c ∈ cs, p ∈ c.dataPort ∧ ((rewriteGraph nm r.2.2).Occurs c x y ∨ (rewriteGraph nm r.2.2).Occurs c y x)) ∧
      cs.Pairwise (fun c d => ¬ c.Alike d) ∧
      (∀ c ∈ cs, c.first ≠ c.second → (∀ x y p a b, (rewriteGraph nm r.2.2).Occurs c x y → (rewriteGraph nm r.2.2).Meet x y p a b → p ∈ c.dataPort) ∧ ∀ d ∈ cs, ¬ c.Opposite d) := by
  obtain ⟨res, cs, hr, hres, hok, hcl, hfit⟩ := cover_result g hnodup rows hrows m hm nm hnm hname r hcov env henv hfor
  refine ⟨res, hr, ?_, fun c hc p hp => hres.data c hc p hp, fun x y p a b hne hm => hres.complete henv x y p a b hne hm, hres.distinct, ?_⟩
  · intro c hc
    obtain ⟨u, v, n, m, d, h1, e1, e2, h2, h3⟩ := hres.made c hc
    have hex : ∃ x y, (rewriteGraph nm r.2.2).Occurs c x y := by rcases h2 with h2 | ⟨_, h2⟩ <;> exact ⟨_, _, h2⟩
    refine ⟨?_, h3, hex⟩
    obtain ⟨p, a, b, hmeet⟩ := h1.meet
    intro hnil
    rcases h2 with h2 | ⟨_, h2⟩
    · have := (h2.ports a b).2 ⟨p, hmeet⟩
      rw [hnil] at this; cases this
    · have := (h2.ports b a).2 ⟨p, Meet.swap hmeet⟩
      rw [hnil] at this; cases this
  · intro c hc hne
    refine ⟨fun x y p a b ho hm => hres.data_all henv hcl c hc (.inl hne) x y p a b ho hm, ?_⟩
    intro d hd ho
    exact hres.oriented henv hcl c d hc hd hne ho.1 ho.2.1

theorem finalPats_for {env : GenEnv σ} (c : GCand σ) (n m : RNode σ) (k : Option (PKind σ) × Option (PKind σ)) (h : finalPats env c = .ok k) (h1 : c.first = n.label) (h2 : c.second = m.label)
    (p1 : PatFor env n c.firstPat) (p2 : PatFor env m c.secondPat) : (∃ k1, k.1 = some k1 ∧ env.patOf n = .ok k1) ∧ ∃ k2, k.2 = some k2 ∧ env.patOf m = .ok k2 := by
  unfold finalPats at h
  split at h
  · cases h
  · rename_i k1 e1 e2
    obtain ⟨k2, h3, rfl⟩ := map_ok h
    rcases p1 with ⟨k', f1, f2⟩ | ⟨_, f1⟩
    · rw [e1] at f1; cases f1
      rcases p2 with ⟨k'', g1, g2⟩ | ⟨g1, _⟩
      · rw [e2] at g1; cases g1
      · exact ⟨⟨_, rfl, f2⟩, ⟨_, rfl, by unfold GenEnv.patOf; rw [if_pos g1, ← h2]; exact h3⟩⟩
    · rw [e1] at f1; cases f1
  · rename_i e1 e2
    obtain ⟨k1, h3, h⟩ := bind_ok h
    obtain ⟨k2, h4, rfl⟩ := map_ok h
    rcases p1 with ⟨k', f1, f2⟩ | ⟨f1, _⟩
    · rw [e1] at f1; cases f1
    · rcases p2 with ⟨k'', g1, g2⟩ | ⟨g1, _⟩
      · rw [e2] at g1; cases g1
      · exact ⟨⟨_, rfl, by unfold GenEnv.patOf; rw [if_pos f1, ← h1]; exact h3⟩, ⟨_, rfl, by unfold GenEnv.patOf; rw [if_pos g1, ← h2]; exact h4⟩⟩
  · rename_i k1 k2 e1 e2
    cases Except.ok.inj h
    rcases p1 with ⟨k', f1, f2⟩ | ⟨_, f1⟩
    · rw [e1] at f1; cases f1
      rcases p2 with ⟨k'', g1, g2⟩ | ⟨_, g1⟩
      · rw [e2] at g1; cases g1
        exact ⟨⟨_, rfl, f2⟩, ⟨_, rfl, g2⟩⟩
      · rw [e2] at g1; cases g1
    · rw [e1] at f1; cases f1

theorem Result.pats {env : GenEnv σ} {rg : RGraph σ} {cs res : List (GCand σ)} (h : Result env rg cs res) (c : GCand σ) (hc : c ∈ res) :
    ∃ (i j : ℕ) (n m : RNode σ), rg.nodes[i]? = some n ∧ rg.nodes[j]? = some m ∧ n.isPattern = true ∧ m.isPattern = true ∧ c.first = n.label ∧ c.second = m.label ∧
      (∃ k, c.firstPat = some k ∧ env.patOf n = .ok k) ∧ ∃ k, c.secondPat = some k ∧ env.patOf m = .ok k := by
  obtain ⟨r, hr, e1, _, e2⟩ := h.backMem c hc
  obtain ⟨d, u, v, n, m, h1, h2, h3, h4⟩ := h.coll.sound r hr
  have ha := alike_of_core e1
  rw [GCand.Alike, flip_first, flip_second] at ha
  have l1 : r.first = n.label := by rw [← h2.1, h1.first]
  have l2 : r.second = m.label := by rw [← h2.2.1, h1.second]
  obtain ⟨p1, p2⟩ := finalPats_for r.flip n m _ e2 (by rw [flip_first, l1]) (by rw [flip_second, l2]) (by rw [flip_pat1, ← h3]; exact h1.pat1) (by rw [flip_pat2, ← h4]; exact h1.pat2)
  exact ⟨_, _, n, m, h1.node1.2.1, h1.node2.2.1, h1.node1.2.2, h1.node2.2.2, by rw [ha.1, l1], by rw [ha.2.1, l2], p1, p2⟩

theorem kind_of_label {nm : Names σ} (hnm : nm.Ok) {rows : List (Row σ)} {ps : List (Piece σ)} (hfit : Fits nm rows ps) (hdisj : ∀ u v w l, Piece.edge u v l ∈ ps → Piece.vertex w l ∉ ps) (pc qc : Piece σ) (hp : pc ∈ ps) (hq : qc ∈ ps)
    (h : (pc.node nm).label = (qc.node nm).label) : pc.kind = qc.kind := by
  cases pc with
  | emb i e ports =>
    cases qc with
    | emb j e' ports' => rw [Piece.kind, Piece.kind, hnm.row i j h]
    | edge u v l => exact absurd h.symm (hfit.edge i u v l hq)
    | vertex v l => exact absurd h.symm (hfit.vertex i v l hq)
  | edge u v l =>
    cases qc with
    | emb j e' ports' => exact absurd h (hfit.edge j u v l hp)
    | edge u v l' => simp only [Piece.node] at h; rw [h]; rfl
    | vertex v l' => simp only [Piece.node] at h; subst h; exact absurd hq (hdisj _ _ _ _ hp)
  | vertex v l =>
    cases qc with
    | emb j e' ports' => exact absurd h (hfit.vertex j v l hp)
    | edge u v l' => simp only [Piece.node] at h; subst h; exact absurd hp (hdisj _ _ _ _ hq)
    | vertex v l' => simp only [Piece.node] at h; rw [h]; rfl

theorem patOf_kind {env : GenEnv σ} {nm : Names σ} {rows : List (Row σ)} {ps : List (Piece σ)} (hfor : env.For nm rows ps) (hfit : Fits nm rows ps) (hdisj : ∀ u v w l, Piece.edge u v l ∈ ps → Piece.vertex w l ∉ ps) (pc : Piece σ) (hpc : pc ∈ ps) :
    env.patOf (pc.node nm) = .ok pc.kind := by
  unfold GenEnv.patOf
  cases pc with
  | emb i e ports =>
    have := hfit.lt i e ports hpc
    simp [Piece.node, Piece.kind, rowPattern, hfor.idx, hfor.nRows, this]
  | edge u v l =>
    have := (hfor.isE l).2 ⟨u, v, hpc⟩
    simp [Piece.node, Piece.kind, singletonPattern, this]
  | vertex v l =>
    have h1 := (hfor.isV l).2 ⟨v, hpc⟩
    have h2 : env.isE l = false := by
      cases hE : env.isE l with
      | false => rfl
      | true =>
        obtain ⟨u, w, h3⟩ := (hfor.isE l).1 hE
        exact absurd hpc (hdisj u w v l h3)
    simp [Piece.node, Piece.kind, singletonPattern, h1, h2]

/-- C90: the two patterns of a candidate are those its labels stand for: the pattern of the row, the edge or the labelled vertex. The full statement has no condition `hdisj`: a label must not be in use both as vertex and as edge
singleton; `candidates_mixed` refutes it otherwise. -/
theorem candidate_patterns_partial (g : DGraph σ) (hnodup : g.edges.Nodup) (rows : List (Row σ)) (hrows : ∀ r ∈ rows, RowOk g r) (m : Marks σ) (hm : History g m) (nm : Names σ) (hnm : nm.Ok)
    (hname : ∀ i l, g.Uses l → l ≠ nm.row i) (r : Marks σ × List (Row σ) × List (Piece σ)) (hcov : cover g rows m = .ok r) (env : GenEnv σ) (henv : env.Ok) (hfor : env.For nm rows r.2.2)
    (hdisj : ∀ u v w l, Piece.edge u v l ∈ r.2.2 → Piece.vertex w l ∉ r.2.2) :
    ∃ cs, generate env (rewriteGraph nm r.2.2) = .ok cs ∧ ∀ c ∈ cs, (∃ pc ∈ r.2.2, (pc.node nm).label = c.first) ∧ (∃ pc ∈ r.2.2, (pc.node nm).label = c.second) ∧
      ∀ pc ∈ r.2.2, ((pc.node nm).label = c.first → c.firstPat = some pc.kind) ∧ ((pc.node nm).label = c.second → c.secondPat = some pc.kind) := by
  obtain ⟨res, cs, hr, hres, hok, hcl, hfit⟩ := cover_result g hnodup rows hrows m hm nm hnm hname r hcov env henv hfor
  refine ⟨res, hr, ?_⟩
  intro c hc
  obtain ⟨i, j, n, m, h1, h2, h3, h4, e1, e2, ⟨k1, p1, q1⟩, k2, p2, q2⟩ := hres.pats c hc
  obtain ⟨pc1, hp1, rfl⟩ := rewrite_nodes hnm _ i n h1 h3
  obtain ⟨pc2, hp2, rfl⟩ := rewrite_nodes hnm _ j m h2 h4
  rw [patOf_kind hfor hfit hdisj pc1 hp1] at q1
  rw [patOf_kind hfor hfit hdisj pc2 hp2] at q2
  cases q1
  cases q2
  refine ⟨⟨pc1, hp1, e1.symm⟩, ⟨pc2, hp2, e2.symm⟩, ?_⟩
  intro pc hpc
  refine ⟨fun h => ?_, fun h => ?_⟩
  · rw [p1, kind_of_label hnm hfit hdisj pc pc1 hpc hp1 (h.trans e1)]
  · rw [p2, kind_of_label hnm hfit hdisj pc pc2 hpc hp2 (h.trans e2)]

end Verif.Graph
