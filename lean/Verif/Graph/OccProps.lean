import Verif.Graph.OccMeet

/-!
# The patterns tested by GraphMDL occur in the data (C103)
-/

set_option autoImplicit false
set_option linter.unusedSectionVars false

namespace Verif.Graph

variable {σ : Type} [DecidableEq σ]

theorem patOf_reads {d : LGraph σ} (hd : PlainData d) {env : GenEnv σ} {nm : Names σ} {rows : List (Row σ)} (hreads : env.Reads nm rows d) {pc : Piece σ}
    (hedge : ∀ u v l, pc = .edge u v l → (u, v, Label.str l) ∈ d.edges) (hvert : ∀ v l, pc = .vertex v l → l ∈ d.namesAt v) (k : PKind σ) (h : env.patOf (pc.node nm) = .ok k) : k = pc.kind := by
  unfold GenEnv.patOf at h
  cases pc with
  | emb i e ports =>
    simp only [Piece.node, Bool.false_eq_true, if_false, rowPattern, hreads.idx] at h
    split at h
    · rw [← Except.ok.inj h]; rfl
    · cases h
  | edge u v l =>
    have he := hedge u v l rfl
    by_cases hE : env.isE l = true
    · simp [Piece.node, singletonPattern, hE] at h
      exact h.symm
    · by_cases hV : env.isV l = true
      · obtain ⟨w, hw⟩ := hreads.isV l hV
        exact absurd rfl (hd.apart w l hw _ he)
      · simp [Piece.node, singletonPattern, hE, hV] at h
  | vertex v l =>
    have hv := hvert v l rfl
    by_cases hE : env.isE l = true
    · obtain ⟨e, he, hl⟩ := hreads.isE l hE
      exact absurd hl (hd.apart v l hv e he)
    · by_cases hV : env.isV l = true
      · simp [Piece.node, singletonPattern, hE, hV] at h
        exact h.symm
      · simp [Piece.node, singletonPattern, hE, hV] at h

/-- The step of the search: the pattern of a candidate generated from a table of patterns made by the search. -/
theorem candidate_step {d : LGraph σ} (hd : PlainData d) {nm : Names σ} (hnm : nm.Ok) (hap : NamesApart nm d) {pats : List (LGraph σ)} (hpats : GoodPats pats) {rows : List (Row σ)} (ht : TableFor d pats rows) {m : Marks σ}
    (hm : History d.view m) {r : Marks σ × List (Row σ) × List (Piece σ)} (hc : cover d.view rows m = .ok r) {env : GenEnv σ} (henv : env.Ok) (hreads : env.Reads nm rows d) {cs : List (GCand σ)}
    (hgen : generate env (rewriteGraph nm r.2.2) = .ok cs) {c : GCand σ} (hcm : c ∈ cs) :
    ∃ g, finalPattern pats c = .ok g ∧ Made false g ∧ Linked g ∧ (∃ x y, (rewriteGraph nm r.2.2).Occurs c x y) ∧
      ∀ x y, (rewriteGraph nm r.2.2).Occurs c x y → ∃ h, Occurs d g h ∧
        ∀ z n a, ((x, z, a) ∈ (rewriteGraph nm r.2.2).edges ∨ (y, z, a) ∈ (rewriteGraph nm r.2.2).edges) → (rewriteGraph nm r.2.2).nodes[z - 1]? = some n → ∃ b ∈ g.verts, n.label = nm.vertex (h b) := by
  have hrows := rows_ok hd hpats ht
  obtain ⟨m', rows', ps, h1, hcount, -, hvert⟩ := cover_partial d.view (view_nodup d hd.simple) rows hrows m hm
  rw [hc] at h1
  obtain rfl := Except.ok.inj h1
  simp only at hgen ⊢
  have hok := rewrite_graph_ok hnm ps (cover_ports d.view rows hrows m _ hc)
  have hfit := fits_of_cover d.view (view_nodup d hd.simple) rows hrows m hm nm hap.row _ hc
  obtain ⟨cs', hres⟩ := result_of henv hok cs hgen
  have hpedge : ∀ u v l, Piece.edge u v l ∈ ps → (u, v, Label.str l) ∈ d.edges := by
    intro u v l hp
    rw [← view_edges, ← List.count_pos_iff, ← hcount, List.countP_pos_iff]
    exact ⟨_, hp, by simp [Piece.coversEdge]⟩
  have hpvert : ∀ v l, Piece.vertex v l ∈ ps → l ∈ d.namesAt v := by
    intro v l hp
    obtain ⟨ls, h5, h6⟩ := hvert v l hp
    rw [← view_labels, labels_of_mem d.view ?_ v ls h5]
    · exact h6
    · have : d.view.nodes.map Prod.fst = d.verts := by simp [LGraph.view, LGraph.verts]
      rw [this]
      exact hd.verts
  have hdisj : ∀ u v w l, Piece.edge u v l ∈ ps → Piece.vertex w l ∉ ps := fun u v w l h1 h2 => hd.apart w l (hpvert w l h2) _ (hpedge u v l h1) rfl
  obtain ⟨L, hL, hR⟩ := rewrite_rep hnm ps
  obtain ⟨rg, hrg⟩ : ∃ rg, rg = rewriteGraph nm ps := ⟨_, rfl⟩
  rw [← hrg] at hres hR ⊢
  have hmemL : ∀ x pc, (x, pc) ∈ L → pc ∈ ps := fun x pc h => hL ▸ List.mem_map.2 ⟨_, h, rfl⟩
  have honce : Once rows L := once_of (view_nodup d hd.simple) (by rw [hL]; exact hcount)
  have hport : ∀ (v i : ℕ) (n : RNode σ), rg.nodes[i]? = some n → n.label = nm.vertex v → n.isPattern = false := by
    intro v i n hn hl
    cases hp : n.isPattern with
    | false => rfl
    | true =>
      rw [hrg] at hn
      obtain ⟨pc, hpc, rfl⟩ := rewrite_nodes hnm ps i n hn hp
      cases pc with
      | emb j e ports => exact absurd hl (hap.rows j v)
      | edge u w l => exact absurd hl (hap.vertex v l (.inr ⟨u, w, (view_edges d _ _ _).2 (hpedge u w l hpc)⟩))
      | vertex w l =>
        obtain ⟨ls, h5, h6⟩ := hvert w l hpc
        exact absurd hl (hap.vertex v l (.inl ⟨w, ls, h5, h6⟩))
  have hcarry : ∀ x l, rg.Carries x l → ∃ pc, (x, pc) ∈ L ∧ (pc.node nm).label = l := by
    rintro x l ⟨n, hx, hn, hp, rfl⟩
    rcases hR.all _ _ hn with ⟨t, ht', he⟩ | hf
    · obtain ⟨⟨z, pc⟩, h6, rfl⟩ := List.mem_map.1 ht'
      simp only at he
      obtain rfl : z = x := by omega
      have h7 := (hR.node _ ht').2
      simp only at h7
      rw [hn] at h7
      exact ⟨pc, h6, by rw [Option.some.inj h7]⟩
    · rw [hp] at hf; cases hf
  -- the patterns of the candidate
  obtain ⟨i, j, n1, n2, e1, e2, e3, e4, e5, e6, ⟨k1, p1, q1⟩, k2, p2, q2⟩ := hres.pats c hcm
  rw [hrg] at e1 e2
  obtain ⟨pc1, hpc1, rfl⟩ := rewrite_nodes hnm ps _ _ e1 e3
  obtain ⟨pc2, hpc2, rfl⟩ := rewrite_nodes hnm ps _ _ e2 e4
  have hk1 := patOf_reads hd hreads (fun u v l h => hpedge u v l (h ▸ hpc1)) (fun v l h => hpvert v l (h ▸ hpc1)) k1 q1
  have hk2 := patOf_reads hd hreads (fun u v l h => hpedge u v l (h ▸ hpc2)) (fun v l h => hpvert v l (h ▸ hpc2)) k2 q2
  have hkind1 : ∀ pc ∈ ps, (pc.node nm).label = c.first → pc.kind = k1 := fun pc hp hl => by rw [hk1]; exact kind_of_label hnm hfit hdisj pc pc1 hp hpc1 (hl.trans e5)
  have hkind2 : ∀ pc ∈ ps, (pc.node nm).label = c.second → pc.kind = k2 := fun pc hp hl => by rw [hk2]; exact kind_of_label hnm hfit hdisj pc pc2 hp hpc2 (hl.trans e6)
  obtain ⟨p, hpp, hp0⟩ := piece_for hd hpats ht m hm _ hc pc1 hpc1
  obtain ⟨q, hqq, hq0⟩ := piece_for hd hpats ht m hm _ hc pc2 hpc2
  have hpp' : patternOf pats c.firstPat = some p := by rw [p1, hk1]; exact hpp
  have hqq' : patternOf pats c.secondPat = some q := by rw [p2, hk2]; exact hqq
  -- the ports
  obtain ⟨u, v, n, n', d', hmade, -, -, hocc, hnodup⟩ := hres.made c hcm
  obtain ⟨x0, y0, ho0⟩ : ∃ x y, rg.Occurs c x y := by rcases hocc with h | ⟨-, h⟩ <;> exact ⟨_, _, h⟩
  have hne : c.port ≠ [] := by
    obtain ⟨z, a, b, hmeet⟩ := hmade.meet
    intro hnil
    rcases hocc with h2 | ⟨_, h2⟩
    · have := (h2.ports a b).2 ⟨z, hmeet⟩
      rw [hnil] at this; cases this
    · have := (h2.ports b a).2 ⟨z, Meet.swap hmeet⟩
      rw [hnil] at this; cases this
  have hpiece : ∀ x y, rg.Occurs c x y → ∃ pc qc, (x, pc) ∈ L ∧ (y, qc) ∈ L ∧ x ≠ y ∧ PieceFor d rows pc p ∧ PieceFor d rows qc q ∧ (∀ a b, (a, b) ∈ c.port ↔ ∃ v, (v, a) ∈ pc.kept ∧ (v, b) ∈ qc.kept) ∧
      ∀ a ∈ p.verts, ∀ b ∈ q.verts, keyOf pc.verts a = keyOf qc.verts b ↔ (a, b) ∈ c.port := by
    intro x y ho
    obtain ⟨pc, hx, hl1⟩ := hcarry x _ ho.first
    obtain ⟨qc, hy, hl2⟩ := hcarry y _ ho.second
    obtain ⟨p', hp', hf'⟩ := piece_for hd hpats ht m hm _ hc pc (hmemL _ _ hx)
    obtain ⟨q', hq', hg'⟩ := piece_for hd hpats ht m hm _ hc qc (hmemL _ _ hy)
    rw [hkind1 pc (hmemL _ _ hx) hl1, ← p1, hpp'] at hp'
    rw [hkind2 qc (hmemL _ _ hy) hl2, ← p2, hqq'] at hq'
    obtain rfl := Option.some.inj hp'
    obtain rfl := Option.some.inj hq'
    have hports : ∀ a b, (a, b) ∈ c.port ↔ ∃ v, (v, a) ∈ pc.kept ∧ (v, b) ∈ qc.kept := fun a b => (ho.ports a b).trans (meet_iff hnm hR hport hx hy a b)
    obtain ⟨⟨a0, b0⟩, h0⟩ := List.exists_mem_of_ne_nil _ hne
    obtain ⟨v0, ha0, hb0⟩ := (hports a0 b0).1 h0
    refine ⟨pc, qc, hx, hy, ho.ne, hf', hg', hports, fun a ha b hb => ?_⟩
    rw [hports a b]
    exact meet_exact honce hx hy ho.ne hf' hg' v0 a0 b0 ha0 hb0 a b ha hb
  obtain ⟨pc, qc, hx, hy, hxy, hP, hQ, hports, hshare⟩ := hpiece x0 y0 ho0
  have hpm : ∀ a b, (a, b) ∈ c.port → a ∈ p.verts ∧ b ∈ q.verts ∧ keyOf pc.verts a = keyOf qc.verts b := by
    intro a b hab
    obtain ⟨w, h1, h2⟩ := (hports a b).1 hab
    obtain ⟨h3, h4⟩ := hP.key w a (hP.kept _ h1)
    obtain ⟨h5, h6⟩ := hQ.key w b (hQ.kept _ h2)
    exact ⟨h4, h6, h3.trans h5.symm⟩
  have hpok : PortsOk p q c.port := by
    refine ⟨?_, ?_, fun z hz => ?_⟩
    · rw [List.nodup_map_iff_inj_on hnodup]
      rintro ⟨a, b⟩ h1 ⟨a', b'⟩ h2 (rfl : a = a')
      obtain ⟨-, f2, f3⟩ := hpm a b h1
      obtain ⟨-, g2, g3⟩ := hpm a b' h2
      rw [hQ.occ.inj b f2 b' g2 (f3.symm.trans g3)]
    · rw [List.nodup_map_iff_inj_on hnodup]
      rintro ⟨a, b⟩ h1 ⟨a', b'⟩ h2 (rfl : b = b')
      obtain ⟨f1, -, f3⟩ := hpm a b h1
      obtain ⟨g1, -, g3⟩ := hpm a' b h2
      rw [hP.occ.inj a f1 a' g1 (f3.trans g3.symm)]
    · obtain ⟨h1, h2, -⟩ := hpm z.1 z.2 hz
      exact ⟨h1, h2⟩
  have hnc : NoCommonEdge p q c.port := by
    rintro ⟨a, a', k⟩ he ⟨b, b', k'⟩ he' ⟨h1, h2⟩
    simp only at h1 h2
    obtain ⟨f1, f2, f3⟩ := hpm _ _ h1
    obtain ⟨g1, g2, g3⟩ := hpm _ _ h2
    obtain ⟨l, hl⟩ := hP.linked.str _ he
    obtain ⟨l', hl'⟩ := hQ.linked.str _ he'
    simp only at hl hl'
    subst hl
    subst hl'
    have o1 := hP.occ.edges _ he
    have o2 := hQ.occ.edges _ he'
    simp only at o1 o2
    have := List.inj_on_of_nodup_map hd.simple o1 o2 (by simp only; rw [f3, g3])
    simp only [Prod.mk.injEq, Label.str.injEq] at this
    obtain ⟨-, -, rfl⟩ := this
    have c1 := hP.covers a a' l he _ _ (hP.mem a f1) (hP.mem a' g1)
    have c2 := hQ.covers b b' l he' _ _ (hQ.mem b f2) (hQ.mem b' g2)
    rw [f3, g3] at c1
    exact honce _ _ _ _ _ hx hy hxy c1 c2
  have hIP := made_patterns false p hP.made
  have hIQ := made_patterns false q hQ.made
  obtain ⟨g, -, hg, -⟩ := merge_occurs false p q c.port hIP hIQ hpok (fun _ => hnc) d _ _ hP.occ hQ.occ hshare
  refine ⟨g, by simp only [finalPattern, hpp', hqq', hg], .merge p q g c.port hP.made hQ.made hpok (fun _ => hnc) hg, linked_merge hIP hIQ hP.linked hQ.linked hpok hnc hne hg, ⟨x0, y0, ho0⟩, ?_⟩
  intro x y ho
  obtain ⟨pc', qc', hx', hy', -, hP', hQ', hports', hshare'⟩ := hpiece x y ho
  obtain ⟨g', h, hg', hocc', himg⟩ := merge_occurs false p q c.port hIP hIQ hpok (fun _ => hnc) d _ _ hP'.occ hQ'.occ hshare'
  rw [hg] at hg'
  obtain rfl := Except.ok.inj hg'
  refine ⟨h, hocc', ?_⟩
  have key : ∀ x pc p, (x, pc) ∈ L → PieceFor d rows pc p → ∀ z nd a, (x, z, a) ∈ rg.edges → rg.nodes[z - 1]? = some nd → ∃ b ∈ p.verts, nd.label = nm.vertex (keyOf pc.verts b) := by
    intro x pc p hx hP z nd a he hn
    obtain ⟨t, ht', e, w, h3, h4, h5⟩ := (hR.edges _ _ _).1 he
    obtain ⟨⟨x', pc'⟩, h6, rfl⟩ := List.mem_map.1 ht'
    simp only at e h3
    subst e
    obtain rfl := mem_unique (entries_nodup hR) h6 hx
    obtain ⟨hlt, hl, -⟩ := List.findIdx?_eq_some_iff_getElem.1 h5
    have hl := of_decide_eq_true hl
    rw [List.getElem?_eq_getElem hlt] at hn
    obtain ⟨h7, h8⟩ := hP.key w a (hP.kept _ h3)
    exact ⟨a, h8, by rw [← Option.some.inj hn, hl, h7]⟩
  rintro z nd a (he | he) hn
  · obtain ⟨b, hb, hl⟩ := key x pc' p hx' hP' z nd a he hn
    obtain ⟨w, hw, e⟩ := List.mem_map.1 ((himg _).2 (.inl (List.mem_map.2 ⟨b, hb, rfl⟩)))
    exact ⟨w, hw, by rw [hl, e]⟩
  · obtain ⟨b, hb, hl⟩ := key y qc' q hy' hQ' z nd a he hn
    obtain ⟨w, hw, e⟩ := List.mem_map.1 ((himg _).2 (.inr (List.mem_map.2 ⟨b, hb, rfl⟩)))
    exact ⟨w, hw, by rw [hl, e]⟩

/-- Every table of the search consists of patterns made by merging that occur in the data. -/
theorem tables_good {d : LGraph σ} (hd : PlainData d) {nm : Names σ} (hnm : nm.Ok) (hap : NamesApart nm d) {pats : List (LGraph σ)} (ht : Tables d nm pats) : GoodPats pats ∧ ∀ p ∈ pats, ∃ h, Occurs d p h := by
  induction ht with
  | empty => exact ⟨by simp [GoodPats], by simp⟩
  | tested pats pats' c g _ hgen hfin hperm ih =>
    obtain ⟨rows, m, r, env, cs, h1, h2, h3, h4, h5, h6, h7⟩ := hgen
    obtain ⟨g', k1, k2, k3, ⟨x, y, k4⟩, k5⟩ := candidate_step hd hnm hap ih.1 h1 h2 h3 h4 h5 h6 h7
    rw [hfin] at k1
    obtain rfl := Except.ok.inj k1
    obtain ⟨h, k6, -⟩ := k5 x y k4
    constructor
    · intro p hp
      rcases List.mem_cons.1 (hperm.mem_iff.1 hp) with rfl | hp
      · exact ⟨k2, k3⟩
      · exact ih.1 p hp
    · intro p hp
      rcases List.mem_cons.1 (hperm.mem_iff.1 hp) with rfl | hp
      · exact ⟨h, k6⟩
      · exact ih.2 p hp
  | changed pats' src _ hs ih => exact ⟨fun p hp => (ih p hp).1 p (hs p hp), fun p hp => (ih p hp).2 p (hs p hp)⟩

/-! ## C103 -/

/-- Full statement (C103): every pattern GraphMDL tests occurs in the data graph: for every table of the search and every candidate generated from a cover by it, merging the candidate succeeds and, wherever two nodes of the rewritten
graph meet like the candidate, the merged pattern occurs in the data, on vertices that include all the ports of the two nodes; so a row made of it has at least one embedding. Proved for data graphs without loops and parallel edges, whose edge
labels are strings, when no label is used both for vertices and edges and no label is the name of a row or of a vertex. Missing: loops (`loop_pattern_absent`), labels used for both (`mixed_pattern_absent`) and labels that are
names of vertices (`named_pattern_absent`), where it is false; multigraphs, where embeddings are not occurrences (C100). -/
theorem tested_pattern_occurs_partial (d : LGraph σ) (hd : PlainData d) (nm : Names σ) (hnm : nm.Ok) (hap : NamesApart nm d) (pats : List (LGraph σ)) (htab : Tables d nm pats) (rows : List (Row σ)) (ht : TableFor d pats rows)
    (m : Marks σ) (hm : History d.view m) (r : Marks σ × List (Row σ) × List (Piece σ)) (hc : cover d.view rows m = .ok r) (env : GenEnv σ) (henv : env.Ok) (hreads : env.Reads nm rows d) (cs : List (GCand σ))
    (hgen : generate env (rewriteGraph nm r.2.2) = .ok cs) (c : GCand σ) (hcm : c ∈ cs) :
    ∃ g, finalPattern pats c = .ok g ∧ (∃ h, Occurs d g h) ∧ (∀ row, RowFor d g row → row.embeddings ≠ []) ∧
      ∀ x y, (rewriteGraph nm r.2.2).Occurs c x y → ∃ h, Occurs d g h ∧
        ∀ z n a, ((x, z, a) ∈ (rewriteGraph nm r.2.2).edges ∨ (y, z, a) ∈ (rewriteGraph nm r.2.2).edges) → (rewriteGraph nm r.2.2).nodes[z - 1]? = some n → ∃ b ∈ g.verts, n.label = nm.vertex (h b) := by
  obtain ⟨g, k1, k2, k3, ⟨x, y, k4⟩, k5⟩ := candidate_step hd hnm hap (tables_good hd hnm hap htab).1 ht hm hc henv hreads hgen hcm
  obtain ⟨h, k6, -⟩ := k5 x y k4
  refine ⟨g, k1, ⟨h, k6⟩, fun row hr => ?_, k5⟩
  obtain ⟨e, he, -⟩ := hr.all h ((embeddings_exact_partial false d g hd.simpleData k2 h).2 k6)
  exact List.ne_nil_of_mem he

/-- C103, the result of the search: every pattern of a table occurs in the data, and its row has an embedding. Same conditions. -/
theorem table_patterns_occur_partial (d : LGraph σ) (hd : PlainData d) (nm : Names σ) (hnm : nm.Ok) (hap : NamesApart nm d) (pats : List (LGraph σ)) (htab : Tables d nm pats) :
    ∀ p ∈ pats, (∃ h, Occurs d p h) ∧ ∀ row, RowFor d p row → row.embeddings ≠ [] := by
  intro p hp
  obtain ⟨h1, h2⟩ := tables_good hd hnm hap htab
  obtain ⟨h, ho⟩ := h2 p hp
  refine ⟨⟨h, ho⟩, fun row hr => ?_⟩
  obtain ⟨e, he, -⟩ := hr.all h ((embeddings_exact_partial false d p hd.simpleData (h1 p hp).1 h).2 ho)
  exact List.ne_nil_of_mem he

end Verif.Graph
