import Verif.Graph.OccProps
import Verif.Graph.EncodeProps
import Verif.Graph.TableProps
import Verif.Graph.GenProps
import Verif.Graph.DescProps
import Verif.Graph.OccWitness
import Verif.Graph.EndModel

/-!
# What the search of GraphMDL computes is defined: property C134
-/

set_option autoImplicit false
set_option linter.unusedSectionVars false

namespace Verif.Graph

variable {σ : Type} [DecidableEq σ]

/-- No label or one string. -/
def Label.Single (l : Label σ) : Prop := l = .none ∨ ∃ s, l = .str s

/-! ## The labels of merged patterns -/

theorem secondNodes_single (ports : List (ℕ × ℕ)) (hf : (ports.map Prod.fst).Nodup) : ∀ (t nodes : List (ℕ × Label σ)) (mp : List (ℕ × ℕ)) (nodes' : List (ℕ × Label σ)) (mp' : List (ℕ × ℕ)),
    nodes.map Prod.fst = List.range' 1 nodes.length → (∀ x ∈ ports, x.1 ∈ nodes.map Prod.fst) → (t.map Prod.fst).Nodup → (∀ n ∈ nodes, n.2.Single) → (∀ n ∈ t, n.2.Single) →
    (∀ n ∈ t, ∀ a k, portOf ports n.1 = some a → nodes.lookup a = some k → n.2 = .none ∨ k = .none ∨ n.2 = k) → secondNodes ports t nodes mp = .ok (nodes', mp') → ∀ n ∈ nodes', n.2.Single
  | [], nodes, mp, nodes', mp', _, _, _, h4, _, _, h => by
    simp only [secondNodes, Except.ok.injEq, Prod.mk.injEq] at h
    rw [← h.1]; exact h4
  | (b, l) :: t, nodes, mp, nodes', mp', h1, h2, h3, h4, h5, h6, h => by
    simp only [List.map_cons, List.nodup_cons] at h3
    rw [secondNodes] at h
    cases e : portOf ports b with
    | none =>
      have hnew : nodes.length + 1 ∉ nodes.map Prod.fst := by
        rw [h1, List.mem_range'_1]; omega
      simp only [e] at h
      refine secondNodes_single ports hf t _ _ nodes' mp' ?_ ?_ h3.2 ?_ (fun n hn => h5 n (by simp [hn])) ?_ h
      · rw [addNode_new _ _ _ hnew, List.map_append, h1, List.length_append, List.length_singleton, List.range'_concat]
        simp [Nat.add_comm]
      · intro x hx
        rw [addNode_new _ _ _ hnew, List.map_append]
        exact List.mem_append_left _ (h2 x hx)
      · intro n hn
        rcases mem_addNode hn with hn | rfl
        · exact h4 n hn
        · exact h5 (b, l) (by simp)
      · intro n hn a k hp hk
        have ha := h2 _ (portOf_some hp)
        rw [lookup_addNode' _ _ _ _ (by rintro rfl; exact hnew ha)] at hk
        exact h6 n (by simp [hn]) a k hp hk
    | some a =>
      simp only [e] at h
      have ha := h2 _ (portOf_some e)
      obtain ⟨k, hk⟩ := lookup_isSome_of_mem nodes a ha
      unfold addPortLabel at h
      by_cases hl : l = .none
      · rw [if_pos hl] at h
        simp only [Except.bind] at h
        exact secondNodes_single ports hf t _ _ nodes' mp' h1 h2 h3.2 h4 (fun n hn => h5 n (by simp [hn])) (fun n hn => h6 n (by simp [hn])) h
      · rw [if_neg hl, hk] at h
        simp only [Except.bind] at h
        refine secondNodes_single ports hf t _ _ nodes' mp' ?_ ?_ h3.2 ?_ (fun n hn => h5 n (by simp [hn])) ?_ h
        · rw [addNode_fst_mem _ _ _ ha, addNode_len _ _ _ ha, h1]
        · rw [addNode_fst_mem _ _ _ ha]; exact h2
        · intro n hn
          rcases mem_addNode hn with hn | rfl
          · exact h4 n hn
          · have hs := h5 (b, l) (by simp)
            rcases h6 (b, l) (by simp) a k e hk with h7 | rfl | h7
            · exact absurd h7 hl
            · simpa using hs
            · simp only at h7
              subst h7
              rcases hs with hs | ⟨s, hs⟩
              · exact absurd hs hl
              · simp only at hs
                subst hs
                exact .inr ⟨s, by simp [newLabel]⟩
        · intro n hn a' k' hp hk'
          have hne : a' ≠ a := by
            rintro rfl
            have := List.inj_on_of_nodup_map hf (portOf_some hp) (portOf_some e) rfl
            exact h3.1 ((Prod.mk.inj this).2 ▸ List.mem_map.2 ⟨n, hn, rfl⟩)
          rw [lookup_addNode' _ _ _ _ hne] at hk'
          exact h6 n (by simp [hn]) a' k' hp hk'

theorem names_lookup {g : LGraph σ} {a : ℕ} {k : Label σ} (h : g.nodes.lookup a = some k) : g.namesAt a = k.names := by
  unfold LGraph.namesAt
  rw [h]
  rfl

theorem single_names {d : LGraph σ} (hd : ∀ n ∈ d.nodes, n.2.Single) (v : ℕ) (x y : σ) (hx : x ∈ d.namesAt v) (hy : y ∈ d.namesAt v) : x = y := by
  cases h : d.nodes.lookup v with
  | none => unfold LGraph.namesAt at hx; rw [h] at hx; simp at hx
  | some k =>
    rw [names_lookup h] at hx hy
    rcases hd _ (lookup_mem h) with hk | ⟨s, hk⟩
    · simp only at hk; subst hk; simp [Label.names] at hx
    · simp only at hk; subst hk; simp [Label.names] at hx hy; rw [hx, hy]

/-- A pattern of the search that occurs in data with at most one label per vertex has at most one label per vertex. -/
theorem made_single {d : LGraph σ} (hd : ∀ n ∈ d.nodes, n.2.Single) {g : LGraph σ} (hm : Made false g) : ∀ h : ℕ → ℕ, Occurs d g h → (∀ n ∈ g.nodes, n.2.Single) ∧ ∀ e ∈ g.edges, ∃ l, e.2.2 = .str l := by
  induction hm with
  | edge l => intro h _; exact ⟨by simp [edgeSingleton, Label.Single], by simp [edgeSingleton]⟩
  | vertex l => intro h _; exact ⟨by simp [vertexSingleton, Label.Single], by simp [vertexSingleton]⟩
  | merge p q g ports hp hq hports hc hg ihp ihq =>
    intro h ho
    have hpp := made_patterns false p hp
    have hqq := made_patterns false q hq
    obtain ⟨g', f, k1, -, -, k4, -, k6, k7, k8, k9⟩ := merge_glues false p q ports hpp hqq hports hc
    rw [hg] at k1
    obtain rfl := Except.ok.inj k1
    obtain ⟨o1, o2, -⟩ := (k9 d h).1 ho
    obtain ⟨a1, a2⟩ := ihp h o1
    obtain ⟨b1, b2⟩ := ihq _ o2
    refine ⟨?_, ?_⟩
    · obtain ⟨nodes, f', m1, m2, -, -, -, -, -, -, -, mp, m9⟩ := merge_exact hpp hqq hports hc
      rw [hg] at m1
      have hnodes : g.nodes = nodes := by rw [Except.ok.inj m1]
      rw [hnodes]
      refine secondNodes_single ports hports.firsts q.nodes p.nodes [] nodes mp hpp.verts (fun x hx => (hports.mem x hx).1) hqq.nodup a1 b1 ?_ m9
      rintro ⟨b, l⟩ hn a k h1 h2
      have hab := portOf_some h1
      have hv := hports.mem _ hab
      simp only at hab hv
      obtain ⟨l', hl'⟩ := lookup_isSome_of_mem q.nodes b (List.mem_map.2 ⟨_, hn, rfl⟩)
      obtain rfl : l' = l := by
        have := List.inj_on_of_nodup_map hqq.nodup (lookup_mem hl') hn rfl
        exact (Prod.mk.inj this).2
      rcases b1 _ hn with hl | ⟨s, hl⟩
      · exact .inl hl
      · rcases a1 _ (lookup_mem h2) with hk | ⟨s', hk⟩
        · exact .inr (.inl hk)
        · simp only at hl hk
          subst hl hk
          refine .inr (.inr ?_)
          have hf : f b = a := (k4 a hv.1 b hv.2).2 hab
          have e1 : s ∈ g.namesAt a := (k7 a s).2 (.inr ⟨b, hv.2, hf, by rw [names_lookup hl']; simp [Label.names]⟩)
          have e2 : s' ∈ g.namesAt a := (k7 a s').2 (.inl (by rw [names_lookup h2]; simp [Label.names]))
          have hav : a ∈ g.verts := (k6 a).2 (.inl hv.1)
          rw [single_names hd (h a) s s' (ho.labels a hav s e1) (ho.labels a hav s' e2)]
    · intro e he
      rw [k8, List.mem_append] at he
      rcases he with he | he
      · exact a2 e he
      · obtain ⟨e', he', rfl⟩ := List.mem_map.1 he
        exact b2 e' he'

theorem single_hashable {l : Label σ} (h : l.Single) : l.Hashable := by
  rcases h with rfl | ⟨s, rfl⟩ <;> trivial

/-- Such a pattern can be described with the labels of the data. -/
theorem made_tidy {d : LGraph σ} (hd : ∀ n ∈ d.nodes, n.2.Single) {g : LGraph σ} (hm : Made false g) {h : ℕ → ℕ} (ho : Occurs d g h) : Tidy g ∧ FromData d g := by
  obtain ⟨h1, h2⟩ := made_single hd hm h ho
  have hp := made_patterns false g hm
  refine ⟨⟨⟨fun n hn => single_hashable (h1 n hn), fun e he => ?_⟩, hp.verts, fun e he => ⟨(hp.ends e he).1, (hp.ends e he).2.1⟩, ?_, ?_⟩, ?_, ?_⟩
  · obtain ⟨l, hl⟩ := h2 e he
    rw [hl]; trivial
  · intro n hn
    rcases h1 n hn with hn | ⟨s, hn⟩ <;> rw [hn] <;> simp [Label.names]
  · have hs := hp.simple rfl
    generalize g.edges = L at h2 hs
    clear ho hp h1
    induction L with
    | nil => simp
    | cons e L ih =>
      obtain ⟨l, hl⟩ := h2 e List.mem_cons_self
      rw [List.map_cons, List.nodup_cons] at hs
      rw [List.flatMap_cons, hl]
      simp only [Label.names, List.map_cons, List.map_nil, List.singleton_append, List.nodup_cons]
      refine ⟨?_, ih (fun e he => h2 e (List.mem_cons_of_mem _ he)) hs.2⟩
      intro hmem
      obtain ⟨e', he', hx⟩ := List.mem_flatMap.1 hmem
      obtain ⟨l', -, hx⟩ := List.mem_map.1 hx
      exact hs.1 (List.mem_map.2 ⟨e', he', by simp only [Prod.mk.injEq] at hx ⊢; exact ⟨hx.1, hx.2.1⟩⟩)
  · intro l hl
    obtain ⟨n, hn, hl⟩ := List.mem_flatMap.1 hl
    have hv : n.1 ∈ g.verts := List.mem_map.2 ⟨n, hn, rfl⟩
    have hlook : g.nodes.lookup n.1 = some n.2 := by
      obtain ⟨k, hk⟩ := lookup_isSome_of_mem g.nodes n.1 hv
      have := List.inj_on_of_nodup_map hp.nodup (lookup_mem hk) hn rfl
      rw [hk, ← this]
    have := ho.labels n.1 hv l (by rw [names_lookup hlook]; exact hl)
    unfold LGraph.namesAt at this
    cases hk : d.nodes.lookup (h n.1) with
    | none => rw [hk] at this; simp at this
    | some k =>
      rw [hk] at this
      exact List.mem_flatMap.2 ⟨_, lookup_mem hk, this⟩
  · intro l hl
    obtain ⟨e, he, hl⟩ := List.mem_flatMap.1 hl
    exact List.mem_flatMap.2 ⟨_, ho.edges e he, hl⟩

/-! ## C134 -/

/-- The data graphs of C134: at most one label per vertex, a string, and some label or some edge. -/
structure SingleData (d : LGraph σ) : Prop where
  plain : PlainData d
  single : ∀ n ∈ d.nodes, n.2.Single
  some : d.vertexNames ≠ [] ∨ d.edgeNames ≠ []

theorem SingleData.hashable {d : LGraph σ} (h : SingleData d) : d.Hashable :=
  ⟨fun n hn => single_hashable (h.single n hn), fun e he => by obtain ⟨l, hl⟩ := h.plain.str e he; rw [hl]; trivial⟩

theorem single_encode {d : LGraph σ} (hd : SingleData d) {t : LabelTable σ} (ht : labelCodes d = .ok t) {g : LGraph σ} (hm : Made false g) {h : ℕ → ℕ} (ho : Occurs d g h) : ∃ x, encode t g = .ok x := by
  obtain ⟨h1, h2⟩ := made_tidy hd.single hm ho
  obtain ⟨t', u, k1, -, k3⟩ := description_exact d hd.hashable hd.some g h1 h2
  rw [ht] at k1
  obtain rfl := Except.ok.inj k1
  exact ⟨_, k3⟩

theorem piece_ports {d : LGraph σ} {rows : List (Row σ)} {m : Marks σ} {r : Marks σ × List (Row σ) × List (Piece σ)} (hc : cover d.view rows m = .ok r) {pc : Piece σ} (hpc : pc ∈ r.2.2) (hl : ∀ u v l, pc = .edge u v l → u ≠ v) :
    ∀ x ∈ pc.ports, x ∈ pc.verts := by
  cases pc with
  | emb i e ports =>
    obtain ⟨row, -, -, hs, -⟩ := cover_search _ _ _ _ hc i e ports hpc
    exact fun x hx => hs.mem hx
  | edge u v l => intro x hx; simpa [Piece.ports, Piece.verts, hl u v l rfl] using hx
  | vertex v l => intro x hx; simpa [Piece.ports, Piece.verts] using hx

/-- The description of a row in use is computed. -/
theorem row_described {d : LGraph σ} (hd : SingleData d) {t : LabelTable σ} (ht : labelCodes d = .ok t) {pats : List (LGraph σ)} (hpats : GoodPats pats) {rows : List (Row σ)} (hr : TableFor d pats rows) {m : Marks σ}
    (hm : History d.view m) {r : Marks σ × List (Row σ) × List (Piece σ)} (hc : cover d.view rows m = .ok r) (k : PKind σ) (hk : InUse r.2.2 k) : ∃ x, rowDescription t (kindPattern pats k) (portSet r.2.2 k).card = .ok x := by
  have hfor := piece_for hd.plain hpats hr m hm r hc
  have hpat : ∀ pc ∈ r.2.2, pc.kind = k → PieceFor d rows pc (kindPattern pats k) := by
    intro pc hpc e
    obtain ⟨p, h1, h2⟩ := hfor pc hpc
    rw [e] at h1
    have : kindPattern pats k = p := by
      cases k with
      | row i => simp only [patternOf] at h1; simp [kindPattern, List.getD, h1]
      | edge l => exact Option.some.inj h1
      | vertex l => exact Option.some.inj h1
    rw [this]; exact h2
  have hsub : portSet r.2.2 k ⊆ (kindPattern pats k).verts.toFinset := by
    intro a ha
    rw [portSet, List.mem_toFinset, labelsOf, List.mem_flatMap] at ha
    obtain ⟨pc, hpc, ha⟩ := ha
    rw [List.mem_filter, decide_eq_true_eq] at hpc
    obtain ⟨x, hx, rfl⟩ := List.mem_map.1 ha
    have hP := hpat pc hpc.1 hpc.2
    rw [List.mem_toFinset, ← hP.verts]
    refine List.mem_map.2 ⟨x, piece_ports hc hpc.1 ?_ x hx, rfl⟩
    rintro u v l rfl rfl
    have := hP.values
    have h0 := hP.verts
    have e : kindPattern pats k = edgeSingleton l := by rw [← hpc.2]; rfl
    rw [e] at h0
    have h1 := (h0 1).2 (by simp [edgeSingleton, LGraph.verts])
    have h2 := (h0 2).2 (by simp [edgeSingleton, LGraph.verts])
    simp [Piece.verts] at h1 h2
  obtain ⟨pc, hpc, e⟩ := hk
  have hP := hpat pc hpc e
  obtain ⟨x, hx⟩ := single_encode hd ht hP.made hP.occ
  have hle : (portSet r.2.2 k).card ≤ (kindPattern pats k).nodes.length := by
    refine (Finset.card_le_card hsub).trans ((List.toFinset_card_le _).trans ?_)
    simp [LGraph.verts]
  unfold rowDescription
  rw [logBinomial_ok _ _ hle, hx]
  exact ⟨_, rfl⟩

/-- Full statement (C134): `fit` does not raise on a graph with labelled edges. It is false (`fit_raises`). Proved: on data without loops and parallel edges and with at most one label per vertex, everything the search computes from a
table is defined: the label codes, the cover, the description lengths of the table and of the data, the candidates, their patterns and the descriptions by which they are sorted. Missing: the search itself, which can raise in two more
places: when a candidate was tested before (`graph_mdl.py:155`, the witness) and when a row is pruned twice (C46); the candidates generated with singletons of a cover that was given up; several labels on a vertex, where
merged labels can be lists that are not hashable (`merge_three_labels`). -/
theorem fit_steps_partial (d : LGraph σ) (hd : SingleData d) (nm : Names σ) (hnm : nm.Ok) (hap : NamesApart nm d) (blank : σ → Bool) (hblank : ∀ l, d.view.Uses l → blank l = false) (pats : List (LGraph σ)) (htab : Tables d nm pats)
    (rows : List (Row σ)) (hr : TableFor d pats rows) (m : Marks σ) (hm : History d.view m) :
    ∃ t r, labelCodes d = .ok t ∧ cover d.view rows m = .ok r ∧ (∃ a, tableDescription blank t pats r.2.2 = .ok a) ∧ (∃ b, rewriteDesc pats.length r.2.2 (rewriteGraph nm r.2.2) = .ok b) ∧
      ∀ env : GenEnv σ, env.Ok → env.For nm rows r.2.2 → ∃ cs, generate env (rewriteGraph nm r.2.2) = .ok cs ∧ ∀ c ∈ cs, ∃ g x, finalPattern pats c = .ok g ∧ encode t g = .ok x := by
  obtain ⟨hpats, -⟩ := tables_good hd.plain hnm hap htab
  have hrows := rows_ok hd.plain hpats hr
  have hlen : pats.length = rows.length := hr.length_eq
  obtain ⟨vs, es, -, -, -, -, ht⟩ := labelCodes_ok d hd.hashable
  obtain ⟨t, rfl⟩ : ∃ t, t = (⟨vs.map (fun l => (l, labelLen d.total (d.vertexNames.count l))), es.map (fun l => (l, labelLen d.total (d.edgeNames.count l)))⟩ : LabelTable σ) := ⟨_, rfl⟩
  have hsome : d.view.edges ≠ [] ∨ ∃ n ∈ d.view.nodes, n.2 ≠ [] := by
    rcases hd.some with h | h
    · obtain ⟨l, hl⟩ := List.exists_mem_of_ne_nil _ h
      obtain ⟨n, hn, hl⟩ := List.mem_flatMap.1 hl
      exact .inr ⟨_, List.mem_map.2 ⟨n, hn, rfl⟩, List.ne_nil_of_mem hl⟩
    · obtain ⟨l, hl⟩ := List.exists_mem_of_ne_nil _ h
      obtain ⟨⟨u, v, k⟩, he, -⟩ := List.mem_flatMap.1 hl
      obtain ⟨l, rfl⟩ := hd.plain.str _ he
      exact .inl (List.ne_nil_of_mem ((view_edges d _ _ _).2 he))
  have hloop : ∀ x ∈ d.view.edges, x.1 ≠ x.2.1 := by
    rintro ⟨u, v, l⟩ hx
    exact hd.plain.noLoop _ ((view_edges d _ _ _).1 hx)
  obtain ⟨m', rows', ps, a, hc, -, ⟨A, hA⟩, hdesc⟩ := rewrite_description d.view (view_nodup d hd.plain.simple) hloop hsome rows hrows hnm
    (fun v => ⟨fun i => hap.rows i v, fun x hx => hap.vertex v _ (.inr ⟨x.1, x.2.1, hx⟩), fun n hn l hl => hap.vertex v l (.inl ⟨n.1, n.2, hn, hl⟩)⟩) m hm
  obtain ⟨m1, rows1, ps1, h1, hcount, hlab, hvert⟩ := cover_partial d.view (view_nodup d hd.plain.simple) rows hrows m hm
  rw [hc] at h1
  obtain ⟨-, -, rfl⟩ : m' = m1 ∧ rows' = rows1 ∧ ps = ps1 := by simpa using Except.ok.inj h1
  have huses : ∀ pc ∈ ps, (∀ u v l, pc = .edge u v l → (u, v, l) ∈ d.view.edges) ∧ ∀ v l, pc = .vertex v l → ∃ ls, (v, ls) ∈ d.view.nodes ∧ l ∈ ls := by
    intro pc hpc
    refine ⟨?_, ?_⟩
    · rintro u v l rfl
      rw [← List.count_pos_iff, ← hcount, List.countP_pos_iff]
      exact ⟨_, hpc, by simp [Piece.coversEdge]⟩
    · rintro v l rfl
      exact hvert v l hpc
  have hne : ps ≠ [] := by
    rintro rfl
    rcases hsome with h | ⟨⟨v, ls⟩, h1, h2⟩
    · obtain ⟨x, hx⟩ := List.exists_mem_of_ne_nil _ h
      have := hcount x
      rw [List.count_eq_one_of_mem (view_nodup d hd.plain.simple) hx] at this
      simp at this
    · obtain ⟨l, hl⟩ := List.exists_mem_of_ne_nil _ h2
      rcases hlab v ls h1 l hl with ⟨⟨pc, hpc, -⟩, -⟩ | ⟨-, h⟩ <;> simp_all
  refine ⟨_, _, ht, hc, ?_, ?_, ?_⟩
  · have hrow := row_described hd ht hpats hr hm hc
    classical
    choose! len hlen' using hrow
    refine ⟨_, table_description d.view rows m m' rows' ps hc hne blank ?_ _ pats hlen (ps.map Piece.kind).dedup (List.nodup_dedup _) (fun k => by rw [List.mem_dedup, List.mem_map]; rfl) len (fun k hk => hlen' k ?_)
      (ps.filterMap Piece.edgeLabel?).dedup (List.nodup_dedup _) (fun l => by rw [List.mem_dedup]; exact mem_edge ps l)⟩
    · rintro l (⟨pc, hpc, e⟩ | ⟨pc, hpc, e⟩)
      · cases pc with
        | vertex v k =>
          obtain rfl : k = l := by simpa [Piece.kind] using e
          obtain ⟨ls, k1, k2⟩ := (huses _ hpc).2 v k rfl
          exact hblank k (.inl ⟨v, ls, k1, k2⟩)
        | edge u v k => cases e
        | emb i e' ports => cases e
      · cases pc with
        | edge u v k =>
          obtain rfl : k = l := by simpa [Piece.kind] using e
          exact hblank k (.inr ⟨u, v, (huses _ hpc).1 u v k rfl⟩)
        | vertex v k => cases e
        | emb i e' ports => cases e
    · rw [List.mem_dedup, List.mem_map] at hk
      exact hk
  · rw [hlen]
    exact ⟨_, hdesc A hA (fun i => pv (A.labels (.row i))) (fun i => prequential_pv _)⟩
  · intro env henv hfor
    obtain ⟨cs, hgen, -⟩ := candidates_found d.view (view_nodup d hd.plain.simple) rows hrows m hm nm hnm hap.row _ hc env henv hfor
    refine ⟨cs, hgen, fun c hcm => ?_⟩
    have hreads : env.Reads nm rows d := by
      refine ⟨hfor.idx, hfor.nRows, fun l hl => ?_, fun l hl => ?_⟩
      · obtain ⟨u, v, h⟩ := (hfor.isE l).1 hl
        exact ⟨_, (view_edges d _ _ _).1 ((huses _ h).1 u v l rfl), rfl⟩
      · obtain ⟨v, h⟩ := (hfor.isV l).1 hl
        obtain ⟨ls, h5, h6⟩ := (huses _ h).2 v l rfl
        refine ⟨v, ?_⟩
        rw [← view_labels, labels_of_mem d.view ?_ v ls h5]
        · exact h6
        · have : d.view.nodes.map Prod.fst = d.verts := by simp [LGraph.view, LGraph.verts]
          rw [this]
          exact hd.plain.verts
    obtain ⟨g, k1, k2, -, ⟨x, y, k4⟩, k5⟩ := candidate_step hd.plain hnm hap hpats hr hm hc henv hreads hgen hcm
    obtain ⟨h, k6, -⟩ := k5 x y k4
    obtain ⟨z, hz⟩ := single_encode hd ht k2 k6
    exact ⟨g, z, k1, hz⟩

theorem tableRows_for {d : LGraph σ} {emb : LGraph σ → List Embedding} (hemb : ∀ p, RowFor d p ⟨p.view, emb p, []⟩) : ∀ pats : List (LGraph σ), TableFor d pats (tableRows emb pats)
  | [] => .nil
  | p :: t => .cons (hemb p) (tableRows_for hemb t)

/-- The total description length of every table of the search is computed, so that the model of the search never goes on with a length that stands for an error. -/
theorem total_length_partial (d : LGraph σ) (hd : SingleData d) (nm : Names σ) (hnm : nm.Ok) (hap : NamesApart nm d) (blank : σ → Bool) (hblank : ∀ l, d.view.Uses l → blank l = false) (emb : LGraph σ → List Embedding)
    (hemb : ∀ p, RowFor d p ⟨p.view, emb p, []⟩) (pats : List (LGraph σ)) (htab : Tables d nm pats) : ∃ t x, labelCodes d = .ok t ∧ totalLength blank t nm emb d pats = .ok x := by
  obtain ⟨t, r, h1, h2, ⟨a, h3⟩, ⟨b, h4⟩, -⟩ := fit_steps_partial d hd nm hnm hap blank hblank pats htab _ (tableRows_for hemb pats) Marks.fresh .fresh
  refine ⟨t, a + b, h1, ?_⟩
  unfold totalLength
  rw [h2]
  change (tableDescription blank t pats r.2.2).bind _ = _
  rw [h3]
  change (rewriteDesc pats.length r.2.2 (rewriteGraph nm r.2.2)).map _ = _
  rw [h4]
  rfl

theorem lineData_single : SingleData lineData := ⟨lineData_plain, by
  intro n hn
  simp only [lineData, List.mem_cons, List.not_mem_nil, or_false] at hn
  rcases hn with rfl | rfl | rfl | rfl <;> exact .inl rfl, .inr (by decide)⟩

/-- The hypotheses hold for a table with a row: the candidate that merges the row with the third edge is generated, merged and described. -/
example : ∃ t r cs, labelCodes lineData = .ok t ∧ cover lineData.view [lineRow] Marks.fresh = .ok r ∧ generate (witnessEnv 1 [8] []) (rewriteGraph witnessNames r.2.2) = .ok cs ∧
    cs ≠ [] ∧ ∀ c ∈ cs, ∃ g x, finalPattern [linePat] c = .ok g ∧ encode t g = .ok x := by
  obtain ⟨t, r, h1, h2, -, -, h5⟩ := fit_steps_partial lineData lineData_single witnessNames witnessNames_ok lineData_apart (fun _ => false) (fun _ _ => rfl) [linePat] line_table [lineRow] (.cons lineRow_for .nil) Marks.fresh .fresh
  have e1 : (cover lineData.view [lineRow] Marks.fresh).toOption.map (fun x => x.2.2) = some [.emb 0 [(1, 1), (2, 2), (3, 3)] [(3, 3)], .edge 3 4 8] := by decide +kernel
  rw [h2] at e1
  have e1 : r.2.2 = _ := Option.some.inj e1
  have hfor : (witnessEnv 1 [8] []).For witnessNames [lineRow] r.2.2 := by
    rw [e1]
    exact ⟨fun i => by simp [witnessEnv, witnessNames], rfl, fun l => by simp [witnessEnv], fun l => by simp [witnessEnv]⟩
  obtain ⟨cs, h6, h7⟩ := h5 _ (witnessEnv_ok _ _ _) hfor
  refine ⟨t, r, cs, h1, h2, h6, ?_, h7⟩
  rintro rfl
  rw [e1] at h6
  have h8 : (generate (witnessEnv 1 [8] []) (rewriteGraph witnessNames [.emb 0 [(1, 1), (2, 2), (3, 3)] [(3, 3)], .edge 3 4 8])).toOption.map List.length = some 1 := by decide +kernel
  rw [h6] at h8
  simp [Except.toOption] at h8

end Verif.Graph
