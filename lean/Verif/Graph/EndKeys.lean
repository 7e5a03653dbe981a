import Verif.Graph.EndLength

/-!
# The search of GraphMDL ends: the candidates of a table
-/

set_option autoImplicit false
set_option linter.unusedSectionVars false

namespace Verif.Graph

variable {σ : Type} [DecidableEq σ]

/-! ## The rewritten graph -/

/-- A rewritten graph with node labels from a list and small edge labels. -/
structure RSmall (A : List σ) (N : ℕ) (rg : RGraph σ) : Prop where
  labels : ∀ n ∈ rg.nodes, n.label ∈ A
  edges : ∀ e ∈ rg.edges, e.2.2 ≤ N

theorem addEdge_rsmall {A : List σ} {N : ℕ} {rg : RGraph σ} (h : RSmall A N rg) (x y a : ℕ) (ha : a ≤ N) : RSmall A N (rg.addEdge x y a) := by
  refine ⟨h.labels, ?_⟩
  intro e he
  unfold RGraph.addEdge at he
  simp only at he
  split at he
  · obtain ⟨e', h1, rfl⟩ := List.mem_map.1 he
    split
    · exact ha
    · exact h.edges e' h1
  · rcases List.mem_append.1 he with he | he
    · exact h.edges e he
    · rw [List.mem_singleton] at he
      rw [he]
      exact ha

theorem addNode_rsmall {A : List σ} {N : ℕ} {rg : RGraph σ} (h : RSmall A N rg) (n : RNode σ) (hn : n.label ∈ A) : RSmall A N { rg with nodes := rg.nodes ++ [n] } := by
  refine ⟨?_, h.edges⟩
  intro m hm
  rcases List.mem_append.1 hm with hm | hm
  · exact h.labels m hm
  · rw [List.mem_singleton] at hm
    rw [hm]
    exact hn

theorem rewriteEdge_rsmall {A : List σ} {N : ℕ} {rg : RGraph σ} (nm : Names σ) (h : RSmall A N rg) (x : ℕ) (q : ℕ × ℕ) (h1 : nm.vertex q.1 ∈ A) (h2 : q.2 ≤ N) : RSmall A N (rewriteEdge nm x rg q) := by
  unfold rewriteEdge
  simp only
  split
  · exact addEdge_rsmall h _ _ _ h2
  · exact addEdge_rsmall (addNode_rsmall h _ h1) _ _ _ h2

theorem rewrite_rsmall {A : List σ} {N : ℕ} (nm : Names σ) (ps : List (Piece σ)) (h1 : ∀ pc ∈ ps, (pc.node nm).label ∈ A) (h2 : ∀ pc ∈ ps, ∀ q ∈ pc.ports, nm.vertex q.1 ∈ A ∧ q.2 ≤ N) : RSmall A N (rewriteGraph nm ps) := by
  unfold rewriteGraph
  have hfold : ∀ (ports : List (ℕ × ℕ)) (x : ℕ) (rg : RGraph σ), RSmall A N rg → (∀ q ∈ ports, nm.vertex q.1 ∈ A ∧ q.2 ≤ N) → RSmall A N (ports.foldl (rewriteEdge nm x) rg) := by
    intro ports x
    induction ports with
    | nil => intro rg h _; exact h
    | cons q t ih =>
      intro rg h hq
      rw [List.foldl_cons]
      obtain ⟨h3, h4⟩ := hq q List.mem_cons_self
      exact ih _ (rewriteEdge_rsmall nm h x q h3 h4) (fun y hy => hq y (List.mem_cons_of_mem _ hy))
  have key : ∀ rg : RGraph σ, RSmall A N rg → RSmall A N (ps.foldl (fun rg pc => addPiece nm rg (pc.node nm) pc.ports) rg) := by
    induction ps with
    | nil => intro rg h; exact h
    | cons pc t ih =>
      intro rg h
      rw [List.foldl_cons]
      refine ih (fun y hy => h1 y (List.mem_cons_of_mem _ hy)) (fun y hy => h2 y (List.mem_cons_of_mem _ hy)) _ ?_
      exact hfold _ _ _ (addNode_rsmall h _ (h1 pc List.mem_cons_self)) (h2 pc List.mem_cons_self)
  exact key _ ⟨by simp, by simp⟩

/-! ## Candidates -/

/-- A candidate with labels from a list and few small ports. -/
structure CSmall (A : List σ) (B N : ℕ) (c : GCand σ) : Prop where
  first : c.first ∈ A
  second : c.second ∈ A
  number : c.port.length ≤ B
  ports : ∀ x ∈ c.port, x.1 ≤ N ∧ x.2 ≤ N

theorem edgeLabel_le {A : List σ} {N : ℕ} {rg : RGraph σ} (h : RSmall A N rg) (x p : ℕ) : rg.edgeLabel x p ≤ N := by
  unfold RGraph.edgeLabel
  cases hf : rg.edges.find? (fun e => decide (e.1 = x ∧ e.2.1 = p)) with
  | none => exact Nat.zero_le N
  | some e => exact h.edges e (List.mem_of_find?_eq_some hf)

theorem sharedPorts_length {env : GenEnv σ} (henv : env.Ok) (rg : RGraph σ) (x y : ℕ) : (env.ordPorts (rg.sharedPorts x y)).length ≤ rg.nodes.length := by
  rw [(henv.ports _).length_eq]
  refine le_trans (List.dedup_sublist _).length_le ?_
  unfold RGraph.sharedPorts RGraph.portNodes
  refine le_trans (List.length_filter_le _ _) (le_trans (List.length_filter_le _ _) ?_)
  rw [List.length_range']

theorem makeCand_small {env : GenEnv σ} (henv : env.Ok) {A : List σ} {B N : ℕ} {rg : RGraph σ} (h : RSmall A N rg) (hB : rg.nodes.length ≤ B) {x y : ℕ} {c : GCand σ} (hc : makeCand env rg x y = .ok c) : CSmall A B N c := by
  have hnum : ∀ inv, (portTuples rg (env.ordPorts (rg.sharedPorts x y)) x y inv).length ≤ B := by
    intro inv
    unfold portTuples
    rw [List.length_map]
    exact le_trans (sharedPorts_length henv rg x y) hB
  have hports : ∀ inv, ∀ q ∈ portTuples rg (env.ordPorts (rg.sharedPorts x y)) x y inv, q.1 ≤ N ∧ q.2 ≤ N := by
    intro inv q hq
    unfold portTuples at hq
    obtain ⟨p, -, rfl⟩ := List.mem_map.1 hq
    split
    · exact ⟨edgeLabel_le h _ _, edgeLabel_le h _ _⟩
    · exact ⟨edgeLabel_le h _ _, edgeLabel_le h _ _⟩
  have hnode : ∀ z n, rg.node? z = some n → n.label ∈ A := by
    intro z n hz
    unfold RGraph.node? at hz
    split at hz
    · cases hz
    · exact h.labels n (List.mem_of_getElem? hz)
  unfold makeCand at hc
  cases hn : rg.node? x with
  | none => rw [hn] at hc; cases hc
  | some n =>
    cases hm : rg.node? y with
    | none => rw [hn, hm] at hc; cases hc
    | some m =>
      rw [hn, hm] at hc
      have ha := hnode x n hn
      have hb := hnode y m hm
      simp only at hc
      split at hc
      · obtain ⟨k1, -, hc⟩ := bind_ok hc
        obtain ⟨k2, -, rfl⟩ := map_ok hc
        refine ⟨?_, ?_, hnum _, hports _⟩
        · simp only
          split <;> assumption
        · simp only
          split <;> assumption
      · split at hc
        · obtain ⟨k1, -, rfl⟩ := map_ok hc
          exact ⟨hb, ha, hnum _, hports _⟩
        · split at hc
          · obtain ⟨k1, -, hc⟩ := bind_ok hc
            obtain ⟨k2, -, rfl⟩ := map_ok hc
            exact ⟨ha, hb, hnum _, hports _⟩
          · split at hc
            · cases hc
              exact ⟨ha, hb, hnum _, hports _⟩
            · cases hc
              exact ⟨hb, ha, hnum _, hports _⟩

theorem addCand_small {A : List σ} {B N : ℕ} (cs : List (GCand σ)) (c : GCand σ) (h : ∀ x ∈ cs, CSmall A B N x) (hc : CSmall A B N c) : ∀ x ∈ addCand cs c, CSmall A B N x := by
  induction cs with
  | nil =>
    intro x hx
    rw [addCand, List.mem_singleton] at hx
    rw [hx]
    exact hc
  | cons e t ih =>
    intro x hx
    rw [addCand] at hx
    split at hx
    · rcases List.mem_cons.1 hx with rfl | hx
      · have := h e List.mem_cons_self
        exact ⟨this.first, this.second, this.number, this.ports⟩
      · exact h x (List.mem_cons_of_mem _ hx)
    · rcases List.mem_cons.1 hx with rfl | hx
      · exact h x List.mem_cons_self
      · exact ih (fun y hy => h y (List.mem_cons_of_mem _ hy)) x hx

theorem collect_small {env : GenEnv σ} (henv : env.Ok) {A : List σ} {B N : ℕ} {rg : RGraph σ} (h : RSmall A N rg) (hB : rg.nodes.length ≤ B) (Q : List (ℕ × ℕ)) : ∀ cs cs' : List (GCand σ), (∀ x ∈ cs, CSmall A B N x) →
    collect env rg Q cs = .ok cs' → ∀ x ∈ cs', CSmall A B N x := by
  induction Q with
  | nil =>
    intro cs cs' hcs hr
    rw [collect] at hr
    rw [← Except.ok.inj hr]
    exact hcs
  | cons q t ih =>
    intro cs cs' hcs hr
    rw [collect] at hr
    obtain ⟨c, hc, hr⟩ := bind_ok hr
    exact ih _ cs' (addCand_small cs c hcs (makeCand_small henv h hB hc)) hr

theorem flip_small {A : List σ} {B N : ℕ} {c : GCand σ} (h : CSmall A B N c) : CSmall A B N c.flip := by
  unfold GCand.flip
  split
  · refine ⟨h.first, h.second, by simpa using h.number, ?_⟩
    intro x hx
    obtain ⟨y, hy, rfl⟩ := List.mem_map.1 hx
    exact ⟨(h.ports y hy).2, (h.ports y hy).1⟩
  · exact h

theorem generate_small {env : GenEnv σ} (henv : env.Ok) {A : List σ} {B N : ℕ} {rg : RGraph σ} (h : RSmall A N rg) (hB : rg.nodes.length ≤ B) {cs : List (GCand σ)} (hr : generate env rg = .ok cs) : ∀ x ∈ cs, CSmall A B N x := by
  obtain ⟨cs0, h1, h2⟩ := bind_ok hr
  have h3 := collect_small henv h hB _ [] cs0 (by simp) h1
  have key : ∀ todo done res : List (GCand σ), (∀ x ∈ done, CSmall A B N x) → (∀ x ∈ todo, CSmall A B N x) → finish env rg done todo = .ok res → ∀ x ∈ res, CSmall A B N x := by
    intro todo
    induction todo with
    | nil =>
      intro done res hd _ hf
      rw [finish] at hf
      rw [← Except.ok.inj hf]
      exact hd
    | cons c t ih =>
      intro done res hd ht hf
      rw [finish] at hf
      obtain ⟨u, -, hf⟩ := bind_ok hf
      obtain ⟨k, -, hf⟩ := bind_ok hf
      refine ih _ res ?_ (fun x hx => ht x (List.mem_cons_of_mem _ hx)) hf
      intro x hx
      rcases List.mem_append.1 hx with hx | hx
      · exact hd x hx
      · rw [List.mem_singleton] at hx
        rw [hx]
        have := flip_small (ht c List.mem_cons_self)
        exact ⟨this.first, this.second, this.number, this.ports⟩
  exact key cs0 [] cs (by simp) h3 h2

/-! ## The candidates of a table -/

/-- The labels of the nodes of the rewritten graphs of tables with at most `m` rows. -/
def nodeLabels (nm : Names σ) (d : LGraph σ) (m : ℕ) : List σ :=
  (List.range m).map nm.row ++ (places d).map nm.vertex ++ d.view.edges.map (fun e => e.2.2) ++ d.view.labelPairs.map Prod.snd

theorem cands_small {d : LGraph σ} (hd : StringData d) {N : ℕ} (hN : d.nodes.length + 2 ≤ N) {emb : LGraph σ → List Embedding} (hemb : ∀ p, RowFor d p ⟨p.view, emb p, []⟩) {pats : List (LGraph σ)} (hpats : ∀ p ∈ pats, Tame N p) {m : ℕ}
    (hm : pats.length ≤ m) {mk : Marks σ} {r : Marks σ × List (Row σ) × List (Piece σ)} (h : cover d.view (tableRows emb pats) mk = .ok r) (nm : Names σ) {env : GenEnv σ} (henv : env.Ok) {cs : List (GCand σ)}
    (hcs : generate env (rewriteGraph nm r.2.2) = .ok cs) : ∀ c ∈ cs, CSmall (nodeLabels nm d m) (2 * (d.view.edges.length + d.view.labelPairs.length) * (N + 1)) N c := by
  obtain ⟨h1, h2⟩ := pieces_small hd hN hemb hpats h
  refine generate_small henv (rewrite_rsmall nm _ ?_ ?_) (le_trans (rewrite_small nm r.2.2 N (fun pc hpc => (h2 pc hpc).number)).1 (Nat.mul_le_mul_right _ h1)) hcs
  · intro pc hpc
    have h3 := h2 pc hpc
    unfold nodeLabels
    cases pc with
    | emb i e ports =>
      obtain ⟨p, h4, -⟩ := h3.row i e ports rfl
      have h5 : i < pats.length := (List.getElem?_eq_some_iff.1 h4).1
      refine List.mem_append_left _ (List.mem_append_left _ (List.mem_append_left _ (List.mem_map.2 ⟨i, List.mem_range.2 (by omega), rfl⟩)))
    | edge u v l => exact List.mem_append_left _ (List.mem_append_right _ (h3.edge u v l rfl))
    | vertex v l => exact List.mem_append_right _ (h3.vertex v l rfl)
  · intro pc hpc q hq
    refine ⟨?_, (h2 pc hpc).small q hq⟩
    unfold nodeLabels
    exact List.mem_append_left _ (List.mem_append_left _ (List.mem_append_right _ (List.mem_map.2 ⟨q.1, (h2 pc hpc).place q hq, rfl⟩)))

theorem patternOf_tame {N : ℕ} {pats : List (LGraph σ)} (h : ∀ p ∈ pats, Tame N p) (k : Option (PKind σ)) (p : LGraph σ) (hp : patternOf pats k = some p) : Tame N p := by
  unfold patternOf at hp
  split at hp
  · exact h p (List.mem_of_getElem? hp)
  · cases hp
    exact tame_edgeSingleton N _
  · cases hp
    exact tame_vertexSingleton N _
  · cases hp

theorem finalPattern_tame {N : ℕ} {pats : List (LGraph σ)} (h : ∀ p ∈ pats, Tame N p) (c : GCand σ) (hc : ∀ x ∈ c.port, x.1 ≤ N) (g : LGraph σ) (hg : finalPattern pats c = .ok g) : Tame N g := by
  unfold finalPattern at hg
  split at hg
  · next p q h1 h2 => exact merge_tame c.port (patternOf_tame h _ p h1) (patternOf_tame h _ q h2) hc hg
  · cases hg

end Verif.Graph
