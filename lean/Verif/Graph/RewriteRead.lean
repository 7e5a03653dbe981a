import Verif.Graph.RewriteTrace

/-!
# Reading the rewritten graph of a cover: lemmas
-/

set_option autoImplicit false
set_option linter.unusedSectionVars false

namespace Verif.Graph

variable {σ : Type} [DecidableEq σ]

/-- The data vertices of a piece with their pattern vertices. -/
def Piece.verts : Piece σ → List (ℕ × ℕ)
  | .emb _ e _ => e
  | .edge u v _ => if u = v then [(v, 2)] else [(u, 1), (v, 2)]
  | .vertex v _ => [(v, 1)]

/-- The pattern of a piece. -/
def Piece.pat (rows : List (Row σ)) : Piece σ → DGraph σ → Prop
  | .emb i _ _, p => ∃ r, rows[i]? = some r ∧ p = r.pattern
  | .edge u v l, p => p = if u = v then ⟨false, [(2, [])], [(2, 2, l)]⟩ else ⟨false, [(1, []), (2, [])], [(1, 2, l)]⟩
  | .vertex _ l, p => p = ⟨false, [(1, [l])], []⟩

/-- What the proof needs to know of one piece; `marked` are the vertex labels described by rows with edges. -/
def Piece.Fact (g : DGraph σ) (rows : List (Row σ)) (marked : ℕ × σ → Prop) : Piece σ → Prop
  | .emb i e ports => ∃ r, rows[i]? = some r ∧ RowOk g r ∧ IsEmbedding g r.pattern e ∧
      ((r.pattern.edges ≠ [] ∧ r.pattern.edges.Nodup ∧ ports.Sublist e ∧ ∀ v a, (v, a) ∈ e → (v, a) ∉ ports → g.degree v = r.pattern.degree a ∧ ∀ l ∈ g.labels v, marked (v, l)) ∨
       (r.pattern.edges = [] ∧ ∃ v a ls, r.pattern.nodes = [(a, ls)] ∧ e = [(v, a)] ∧ ports = [(v, a)] ∧ ∃ l ∈ g.labels v, ¬ marked (v, l)))
  | .edge u v l => (u, v, l) ∈ g.edges
  | .vertex v l => l ∈ g.labels v ∧ ¬ marked (v, l)

/-- What the proof needs to know of the pieces. -/
structure Facts (g : DGraph σ) (rows : List (Row σ)) (ps : List (Piece σ)) (marked : ℕ × σ → Prop) : Prop where
  piece : ∀ pc ∈ ps, pc.Fact g rows marked
  edges : ∀ x, ps.countP (fun pc => pc.coversEdge rows x) = g.edges.count x
  nodup : g.edges.Nodup
  labels : ∀ v l, l ∈ g.labels v → (∃ pc ∈ ps, pc.embCovers rows (v, l) = true) ∨ Piece.vertex v l ∈ ps

theorem Piece.Fact.keys {g : DGraph σ} {rows : List (Row σ)} {marked : ℕ × σ → Prop} {pc : Piece σ} (h : pc.Fact g rows marked) : (pc.verts.map Prod.fst).Nodup ∧ (pc.verts.map Prod.snd).Nodup := by
  cases pc with
  | emb i e ports =>
    obtain ⟨r, -, -, he, -⟩ := h
    exact ⟨he.keys, he.values⟩
  | edge u v l =>
    simp only [Piece.verts]
    split
    · simp
    · rename_i hne
      simpa using hne
  | vertex v l => simp [Piece.verts]

theorem Piece.Fact.ports_sub {g : DGraph σ} {rows : List (Row σ)} {marked : ℕ × σ → Prop} {pc : Piece σ} (h : pc.Fact g rows marked) : pc.kept.Sublist pc.verts := by
  cases pc with
  | emb i e ports =>
    obtain ⟨r, -, -, he, ⟨-, -, h, -⟩ | ⟨-, v, a, ls, -, rfl, rfl, -⟩⟩ := h
    · have : (Piece.emb (σ := σ) i e ports).kept = ports := by
        unfold Piece.kept
        rw [kept_eq]
        · rfl
        · exact (h.map _).nodup he.keys
      rw [this]
      exact h
    · exact List.Sublist.refl _
  | edge u v l =>
    simp only [Piece.kept, Piece.ports, Piece.verts, List.foldl_cons, List.foldl_nil, setPort]
    split
    · rename_i e
      subst e
      simp
    · rename_i e
      simp [e]
  | vertex v l => exact List.Sublist.refl _

theorem Piece.kept_edge (u v : ℕ) (l : σ) : (Piece.edge u v l).kept = (Piece.edge u v l).verts := by
  simp only [Piece.kept, Piece.ports, Piece.verts, List.foldl_cons, List.foldl_nil, setPort]
  split
  · rename_i e
    subst e
    simp
  · rename_i e
    simp [e]

/-- A vertex of the pattern that carries an edge or a label. -/
def Touched (p : DGraph σ) (a : ℕ) : Prop := (∃ b l, (a, b, l) ∈ p.edges ∨ (b, a, l) ∈ p.edges) ∨ ∃ l, l ∈ p.labels a

theorem labels_single (a : ℕ) (ls : List σ) (es : List (ℕ × ℕ × σ)) (m : Bool) (b : ℕ) (l : σ) (h : l ∈ (⟨m, [(a, ls)], es⟩ : DGraph σ).labels b) : b = a ∧ l ∈ ls := by
  unfold DGraph.labels at h
  simp only [List.lookup] at h
  split at h
  · rename_i hb
    exact ⟨by simpa using hb, h⟩
  · simp at h

theorem labels_loop (b : ℕ) (e : List (ℕ × ℕ × σ)) : (⟨false, [(2, [])], e⟩ : DGraph σ).labels b = [] := by
  unfold DGraph.labels
  simp only [List.lookup]
  split <;> rfl

theorem labels_two (b : ℕ) (e : List (ℕ × ℕ × σ)) : (⟨false, [(1, []), (2, [])], e⟩ : DGraph σ).labels b = [] := by
  unfold DGraph.labels
  simp only [List.lookup]
  split
  · rfl
  · split <;> rfl

/-- Edges of the pattern of a piece are edges the piece covers. -/
theorem Piece.Fact.edge_of {g : DGraph σ} {rows : List (Row σ)} {marked : ℕ × σ → Prop} {pc : Piece σ} (h : pc.Fact g rows marked) {p : DGraph σ} (hp : pc.pat rows p) {a b : ℕ} {l : σ} (hab : (a, b, l) ∈ p.edges) :
    ∃ u v, (u, a) ∈ pc.verts ∧ (v, b) ∈ pc.verts ∧ pc.coversEdge rows (u, v, l) = true := by
  cases pc with
  | emb i e ports =>
    obtain ⟨r, hr, -, he, -⟩ := h
    obtain ⟨r', hr', rfl⟩ := hp
    rw [hr] at hr'
    obtain rfl := Option.some.inj hr'
    have := he.total a b l hab
    have h1 := keyOf_mem e he.values a this.1
    have h2 := keyOf_mem e he.values b this.2
    refine ⟨_, _, h1, h2, ?_⟩
    simp only [Piece.coversEdge, hr, List.any_eq_true, decide_eq_true_eq]
    exact ⟨_, hab, rfl, h1, h2⟩
  | edge u v l' =>
    have hp : p = _ := hp
    subst hp
    by_cases huv : u = v
    · subst huv
      simp only [if_true, List.mem_singleton, Prod.mk.injEq] at hab
      obtain ⟨rfl, rfl, rfl⟩ := hab
      exact ⟨u, u, by simp [Piece.verts], by simp [Piece.verts], by simp [Piece.coversEdge]⟩
    · simp only [huv, if_false, List.mem_singleton, Prod.mk.injEq] at hab
      obtain ⟨rfl, rfl, rfl⟩ := hab
      exact ⟨u, v, by simp [Piece.verts, huv], by simp [Piece.verts, huv], by simp [Piece.coversEdge]⟩
  | vertex v l' =>
    have hp : p = _ := hp
    subst hp
    simp at hab

/-- Covered edges are images of edges of the pattern of the piece. -/
theorem Piece.Fact.of_edge {g : DGraph σ} {rows : List (Row σ)} {marked : ℕ × σ → Prop} {pc : Piece σ} (h : pc.Fact g rows marked) {u v : ℕ} {l : σ} (hc : pc.coversEdge rows (u, v, l) = true) :
    ∃ p a b, pc.pat rows p ∧ (a, b, l) ∈ p.edges ∧ (u, a) ∈ pc.verts ∧ (v, b) ∈ pc.verts := by
  cases pc with
  | emb i e ports =>
    obtain ⟨r, hr, -, he, -⟩ := h
    simp only [Piece.coversEdge, hr, List.any_eq_true, decide_eq_true_eq] at hc
    obtain ⟨⟨a, b, l'⟩, h1, rfl, h2, h3⟩ := hc
    exact ⟨r.pattern, a, b, ⟨r, hr, rfl⟩, h1, h2, h3⟩
  | edge u' v' l' =>
    simp only [Piece.coversEdge, decide_eq_true_eq, Prod.mk.injEq] at hc
    obtain ⟨rfl, rfl, rfl⟩ := hc
    by_cases huv : u = v
    · subst huv
      exact ⟨_, 2, 2, rfl, by simp, by simp [Piece.verts], by simp [Piece.verts]⟩
    · exact ⟨_, 1, 2, rfl, by simp [huv], by simp [Piece.verts, huv], by simp [Piece.verts, huv]⟩
  | vertex v l' => simp [Piece.coversEdge] at hc

/-- Labels of the pattern of a piece are labels of the data. -/
theorem Piece.Fact.label_of {g : DGraph σ} {rows : List (Row σ)} {marked : ℕ × σ → Prop} {pc : Piece σ} (h : pc.Fact g rows marked) {p : DGraph σ} (hp : pc.pat rows p) {a : ℕ} {l : σ} (hl : l ∈ p.labels a) :
    ∃ v, (v, a) ∈ pc.verts ∧ l ∈ g.labels v := by
  cases pc with
  | emb i e ports =>
    obtain ⟨r, hr, hrow, he, hh⟩ := h
    obtain ⟨r', hr', rfl⟩ := hp
    rw [hr] at hr'
    obtain rfl := Option.some.inj hr'
    have hm : a ∈ e.map Prod.snd := by
      rcases hh with ⟨hne, -⟩ | ⟨he0, v, a', ls, hn, rfl, -⟩
      · obtain ⟨b, l', h | h⟩ := hrow.connected hne a (List.ne_nil_of_mem hl)
        · exact (he.total _ _ _ h).1
        · exact (he.total _ _ _ h).2
      · have : a = a' := by
          unfold DGraph.labels at hl
          rw [hn] at hl
          exact (labels_single a' ls [] false a l hl).1
        simp [this]
    have := keyOf_mem e he.values a hm
    exact ⟨_, this, he.labels _ _ this l hl⟩
  | edge u v l' =>
    have hp : p = _ := hp
    subst hp
    split at hl
    · rw [labels_loop] at hl
      simp at hl
    · rw [labels_two] at hl
      simp at hl
  | vertex v l' =>
    have hp : p = _ := hp
    subst hp
    obtain ⟨rfl, h1⟩ := labels_single _ _ _ _ _ _ hl
    rw [List.mem_singleton] at h1
    subst h1
    exact ⟨v, by simp [Piece.verts], h.1⟩

theorem two_countP {α : Type} [DecidableEq α] (L : List (ℕ × α)) (P : α → Bool) (x y : ℕ) (s t : α) (hx : (x, s) ∈ L) (hy : (y, t) ∈ L) (hne : x ≠ y) (hs : P s = true) (ht : P t = true) :
    2 ≤ (L.map Prod.snd).countP P := by
  rw [List.countP_map, List.countP_eq_length_filter]
  have hn : [(x, s), (y, t)].Nodup := by simp [hne]
  have : [(x, s), (y, t)].Subperm (L.filter (P ∘ Prod.snd)) := List.subperm_of_subset hn (by
    intro z hz
    simp only [List.mem_cons, List.not_mem_nil, or_false] at hz
    rcases hz with rfl | rfl
    · exact List.mem_filter.2 ⟨hx, hs⟩
    · exact List.mem_filter.2 ⟨hy, ht⟩)
  exact this.length_le

/-- A vertex of the data met by two pieces is a port of both. -/
theorem Facts.shared {g : DGraph σ} {rows : List (Row σ)} {marked : ℕ × σ → Prop} {L : List (ℕ × Piece σ)} (hf : Facts g rows (L.map Prod.snd) marked) (hL : (L.map Prod.fst).Nodup)
    (x x' : ℕ) (pc pc' : Piece σ) (hx : (x, pc) ∈ L) (hx' : (x', pc') ∈ L) (hne : x ≠ x') (v a a' : ℕ) (hva : (v, a) ∈ pc.verts) (hva' : (v, a') ∈ pc'.verts) (p' : DGraph σ) (hp' : pc'.pat rows p')
    (ht : Touched p' a') : (v, a) ∈ pc.kept := by
  have hfact := hf.piece pc (List.mem_map.2 ⟨_, hx, rfl⟩)
  have hfact' := hf.piece pc' (List.mem_map.2 ⟨_, hx', rfl⟩)
  cases pc with
  | edge u w l => rw [Piece.kept_edge]; exact hva
  | vertex w l => exact hva
  | emb i e ports =>
    by_contra hno
    have hva : (v, a) ∈ e := hva
    have hno : (v, a) ∉ ports := by
      obtain ⟨r, -, -, he, ⟨-, -, h, -⟩ | ⟨-, w, b, ls, -, rfl, rfl, -⟩⟩ := hfact
      · simp only [Piece.kept, Piece.ports] at hno
        rw [kept_eq _ [] ((h.map _).nodup he.keys)] at hno
        exact hno
      · exact hno
    obtain ⟨r, hr, hrow, he, ⟨hne0, hnd, hsub, hport⟩ | ⟨he0, w, b, ls, hn, rfl, rfl, -⟩⟩ := hfact
    · obtain ⟨hdeg, hmark⟩ := hport v a hva hno
      have hcov : ∀ pc0 ∈ L.map Prod.snd, ∀ y, pc0.coversEdge rows y = true → y ∈ g.edges := by
        intro pc0 h0 y hy
        rw [← List.count_pos_iff, ← hf.edges y, List.countP_pos_iff]
        exact ⟨pc0, h0, hy⟩
      obtain ⟨hout, hin⟩ := degree_all g r.pattern e he hnd (by
        intro a1 b1 l1 h1 u1 v1 hu hv
        refine hcov _ (List.mem_map.2 ⟨_, hx, rfl⟩) _ ?_
        simp only [Piece.coversEdge, hr, List.any_eq_true, decide_eq_true_eq]
        exact ⟨_, h1, rfl, hu, hv⟩) v a hva hdeg
      have hedge : ∀ y, pc'.coversEdge rows y = true → (Piece.emb i e ports).coversEdge rows y = true → False := by
        intro y h1 h2
        have := two_countP L (fun pc => pc.coversEdge rows y) x x' _ _ hx hx' hne h2 h1
        rw [hf.edges y, List.count_eq_one_of_mem hf.nodup (hcov _ (List.mem_map.2 ⟨_, hx, rfl⟩) y h2)] at this
        omega
      have hedge1 : ∀ b l, ((a', b, l) ∈ p'.edges ∨ (b, a', l) ∈ p'.edges) → False := by
        have hval : ∀ u, (u, a') ∈ pc'.verts → u = v := by
          intro u hu
          have := List.inj_on_of_nodup_map hfact'.keys.2 hu hva' rfl
          exact (Prod.mk.inj this).1
        rintro b l (h | h)
        · obtain ⟨u, w, h1, h2, h3⟩ := hfact'.edge_of hp' h
          obtain rfl := hval u h1
          obtain ⟨b', h4, h5⟩ := hout w l (hcov _ (List.mem_map.2 ⟨_, hx', rfl⟩) _ h3)
          refine hedge _ h3 ?_
          simp only [Piece.coversEdge, hr, List.any_eq_true, decide_eq_true_eq]
          exact ⟨_, h4, rfl, hva, h5⟩
        · obtain ⟨w, u, h1, h2, h3⟩ := hfact'.edge_of hp' h
          obtain rfl := hval u h2
          obtain ⟨b', h4, h5⟩ := hin w l (hcov _ (List.mem_map.2 ⟨_, hx', rfl⟩) _ h3)
          refine hedge _ h3 ?_
          simp only [Piece.coversEdge, hr, List.any_eq_true, decide_eq_true_eq]
          exact ⟨_, h4, rfl, h5, hva⟩
      rcases ht with ⟨b, l, h⟩ | ⟨l, hl⟩
      · exact hedge1 b l h
      · cases pc' with
        | emb i' e' ports' =>
          obtain ⟨r', hr', hrow', he', ⟨hne1, -⟩ | ⟨-, w, b, ls, -, rfl, -, l0, hl0, hl1⟩⟩ := hfact'
          · obtain ⟨r2, hr2, rfl⟩ := hp'
            rw [hr'] at hr2
            obtain rfl := Option.some.inj hr2
            obtain ⟨b, l', h⟩ := hrow'.connected hne1 a' (List.ne_nil_of_mem hl)
            exact hedge1 b l' h
          · have : v = w ∧ a' = b := by simpa [Piece.verts] using hva'
            obtain ⟨rfl, rfl⟩ := this
            exact hl1 (hmark l0 hl0)
        | edge u w l' =>
          have hp' : p' = _ := hp'
          subst hp'
          split at hl
          · rw [labels_loop] at hl
            simp at hl
          · rw [labels_two] at hl
            simp at hl
        | vertex w l' =>
          have : v = w ∧ a' = 1 := by simpa [Piece.verts] using hva'
          obtain ⟨rfl, -⟩ := this
          exact hfact'.2 (hmark l' hfact'.1)
    · exact hno hva

/-! ## Reading -/

variable {nm : Names σ} {rg : RGraph σ} {L : List (ℕ × Piece σ)} {g : DGraph σ} {rows : List (Row σ)} {marked : ℕ × σ → Prop}

/-- The entries of a list of numbered pieces. -/
abbrev entries (nm : Names σ) (L : List (ℕ × Piece σ)) : List (ℕ × RNode σ × List (ℕ × ℕ)) := L.map (fun t => (t.1, t.2.node nm, t.2.kept))

theorem entries_nodup (hR : Rep nm rg (entries nm L)) : (L.map Prod.fst).Nodup := by
  have := hR.nodup
  rw [List.map_map] at this
  exact this

theorem mem_unique (hL : (L.map Prod.fst).Nodup) {x : ℕ} {pc pc' : Piece σ} (h : (x, pc) ∈ L) (h' : (x, pc') ∈ L) : pc = pc' :=
  (Prod.mk.inj (List.inj_on_of_nodup_map hL h h' rfl)).2

/-- The numbers of the ports of a node. -/
theorem ports_iff (hR : Rep nm rg (entries nm L)) {x : ℕ} {pc : Piece σ} (hx : (x, pc) ∈ L) (a : ℕ) : (∃ e ∈ rg.edges, e.1 = x ∧ e.2.2 = a) ↔ ∃ v, (v, a) ∈ pc.kept := by
  constructor
  · rintro ⟨⟨x', y, a'⟩, he, rfl, rfl⟩
    obtain ⟨t, ht, e, w, h3, h4, h5⟩ := (hR.edges _ _ _).1 he
    obtain ⟨⟨x2, pc2⟩, h6, rfl⟩ := List.mem_map.1 ht
    simp only at e h3
    subst e
    obtain rfl := mem_unique (entries_nodup hR) h6 hx
    exact ⟨w, h3⟩
  · rintro ⟨v, hv⟩
    obtain ⟨y, hy⟩ := hR.has _ (List.mem_map.2 ⟨_, hx, rfl⟩) _ hv
    exact ⟨(x, y + 1, a), (hR.edges _ _ _).2 ⟨_, List.mem_map.2 ⟨_, hx, rfl⟩, rfl, v, hv, by omega, by simpa using hy⟩, rfl, rfl⟩

/-- The patterns the nodes stand for are those of the pieces. -/
theorem shape_iff (hnm : nm.Ok) (hR : Rep nm rg (entries nm L)) (x : ℕ) (p : DGraph σ) : rg.Shape nm rows x p ↔ ∃ pc, (x, pc) ∈ L ∧ pc.pat rows p := by
  have hnode : ∀ pc, (x, pc) ∈ L → 1 ≤ x ∧ rg.nodes[x - 1]? = some (pc.node nm) := fun pc h => hR.node _ (List.mem_map.2 ⟨_, h, rfl⟩)
  have key : ∀ pc, (x, pc) ∈ L → ((pc.node nm).isPattern = true ∧ ((if (pc.node nm).isSingleton then
      if ∃ e ∈ rg.edges, e.1 = x ∧ e.2.2 = 2 then
        if ∃ e ∈ rg.edges, e.1 = x ∧ e.2.2 = 1 then p = ⟨false, [(1, []), (2, [])], [(1, 2, (pc.node nm).label)]⟩ else p = ⟨false, [(2, [])], [(2, 2, (pc.node nm).label)]⟩
      else p = ⟨false, [(1, [(pc.node nm).label])], []⟩
    else ∃ i r, (pc.node nm).label = nm.row i ∧ rows[i]? = some r ∧ p = r.pattern) ↔ pc.pat rows p)) := by
    classical
    intro pc hpc
    have e1 := ports_iff hR hpc 1
    have e2 := ports_iff hR hpc 2
    simp only [e1, e2]
    cases pc with
    | emb i e ports =>
      refine ⟨rfl, ?_⟩
      simp only [Piece.node, Bool.false_eq_true, if_false, Piece.pat]
      constructor
      · rintro ⟨j, r, h1, h2, h3⟩
        obtain rfl := hnm.row _ _ h1
        exact ⟨r, h2, h3⟩
      · rintro ⟨r, h2, h3⟩
        exact ⟨i, r, rfl, h2, h3⟩
    | edge u v l =>
      refine ⟨rfl, ?_⟩
      rw [Piece.kept_edge]
      by_cases huv : u = v <;> simp [Piece.node, Piece.verts, Piece.pat, huv]
    | vertex v l =>
      refine ⟨rfl, ?_⟩
      simp [Piece.node, Piece.kept, Piece.ports, setPort, Piece.pat]
  constructor
  · rintro ⟨n, h1, h2, h3, h4⟩
    rcases hR.all _ _ h2 with ⟨t, ht, e⟩ | hf
    · obtain ⟨⟨y, pc⟩, hy, rfl⟩ := List.mem_map.1 ht
      simp only at e
      obtain rfl : y = x := by omega
      have := (hnode pc hy).2
      rw [h2] at this
      obtain rfl := Option.some.inj this
      exact ⟨pc, hy, ((key pc hy).2).1 h4⟩
    · rw [h3] at hf
      cases hf
  · rintro ⟨pc, hpc, h⟩
    exact ⟨pc.node nm, (hnode pc hpc).1, (hnode pc hpc).2, (key pc hpc).1, ((key pc hpc).2).2 h⟩

theorem place_port (hR : Rep nm rg (entries nm L)) {x : ℕ} {pc : Piece σ} (hx : (x, pc) ∈ L) (hs : (pc.kept.map Prod.snd).Nodup) {v a : ℕ} (hva : (v, a) ∈ pc.kept) :
    ∃ y, 1 ≤ y ∧ rg.place x a = .inl y ∧ rg.nodes.findIdx? (isPort nm v) = some (y - 1) := by
  obtain ⟨y, hy⟩ := hR.has _ (List.mem_map.2 ⟨_, hx, rfl⟩) _ hva
  have hin : (x, y + 1, a) ∈ rg.edges := (hR.edges _ _ _).2 ⟨_, List.mem_map.2 ⟨_, hx, rfl⟩, rfl, v, hva, by omega, by simpa using hy⟩
  unfold RGraph.place
  cases hfind : rg.edges.find? (fun e => decide (e.1 = x ∧ e.2.2 = a)) with
  | none =>
    exfalso
    have := List.find?_eq_none.1 hfind _ hin
    simp at this
  | some e =>
    obtain ⟨x1, y1, a1⟩ := e
    have h1 := List.mem_of_find?_eq_some hfind
    have h2 := List.find?_some hfind
    simp only [decide_eq_true_eq] at h2
    obtain ⟨rfl, rfl⟩ := h2
    obtain ⟨t, ht, e, w, h3, h4, h5⟩ := (hR.edges _ _ _).1 h1
    obtain ⟨⟨x2, pc2⟩, h6, rfl⟩ := List.mem_map.1 ht
    simp only at e h3
    subst e
    obtain rfl := mem_unique (entries_nodup hR) h6 hx
    have hw : w = v := (Prod.mk.inj (List.inj_on_of_nodup_map hs h3 hva rfl)).1
    subst hw
    exact ⟨y1, h4, rfl, h5⟩

theorem place_inner (hR : Rep nm rg (entries nm L)) {x : ℕ} {pc : Piece σ} (hx : (x, pc) ∈ L) {a : ℕ} (ha : ∀ v, (v, a) ∉ pc.kept) : rg.place x a = .inr (x, a) := by
  unfold RGraph.place
  cases hfind : rg.edges.find? (fun e => decide (e.1 = x ∧ e.2.2 = a)) with
  | none => rfl
  | some e =>
    exfalso
    obtain ⟨x1, y1, a1⟩ := e
    have h1 := List.mem_of_find?_eq_some hfind
    have h2 := List.find?_some hfind
    simp only [decide_eq_true_eq] at h2
    obtain ⟨rfl, rfl⟩ := h2
    obtain ⟨t, ht, e, w, h3, h4, h5⟩ := (hR.edges _ _ _).1 h1
    obtain ⟨⟨x2, pc2⟩, h6, rfl⟩ := List.mem_map.1 ht
    simp only at e h3
    subst e
    obtain rfl := mem_unique (entries_nodup hR) h6 hx
    exact ha w h3

/-- The data vertices a vertex of the description may stand for. -/
def StandsFor (nm : Names σ) (rg : RGraph σ) (L : List (ℕ × Piece σ)) : DVert → ℕ → Prop
  | .inl y, v => rg.nodes.findIdx? (isPort nm v) = some (y - 1)
  | .inr (x, a), v => ∃ pc, (x, pc) ∈ L ∧ (v, a) ∈ pc.verts

theorem standsFor_unique (hnm : nm.Ok) (hR : Rep nm rg (entries nm L)) (hk : ∀ pc ∈ L.map Prod.snd, (pc.verts.map Prod.snd).Nodup) (s : DVert) (u v : ℕ) (hu : StandsFor nm rg L s u) (hv : StandsFor nm rg L s v) : u = v := by
  rcases s with y | ⟨x, a⟩
  · exact port_inj hnm _ _ _ _ hu hv
  · obtain ⟨pc, h1, h2⟩ := hu
    obtain ⟨pc', h3, h4⟩ := hv
    obtain rfl := mem_unique (entries_nodup hR) h1 h3
    exact (Prod.mk.inj (List.inj_on_of_nodup_map (hk pc (List.mem_map.2 ⟨_, h1, rfl⟩)) h2 h4 rfl)).1

theorem standsFor_place (hR : Rep nm rg (entries nm L)) {x : ℕ} {pc : Piece σ} (hx : (x, pc) ∈ L) (hfact : pc.Fact g rows marked) {v a : ℕ} (hva : (v, a) ∈ pc.verts) : StandsFor nm rg L (rg.place x a) v := by
  have hs : (pc.kept.map Prod.snd).Nodup := (hfact.ports_sub.map _).nodup hfact.keys.2
  by_cases h : ∃ w, (w, a) ∈ pc.kept
  · obtain ⟨w, hw⟩ := h
    have : w = v := (Prod.mk.inj (List.inj_on_of_nodup_map hfact.keys.2 (hfact.ports_sub.subset hw) hva rfl)).1
    subst this
    obtain ⟨y, -, h2, h3⟩ := place_port hR hx hs hw
    rw [h2]
    exact h3
  · rw [place_inner hR hx (fun w hw => h ⟨w, hw⟩)]
    exact ⟨pc, hx, hva⟩

/-- Reading gives the data graph back. -/
theorem rebuilds_of (hnm : nm.Ok) (hR : Rep nm rg (entries nm L)) (hf : Facts g rows (L.map Prod.snd) marked) : Rebuilds rg nm rows g := by
  classical
  have hL := entries_nodup hR
  have hfact : ∀ x pc, (x, pc) ∈ L → pc.Fact g rows marked := fun x pc h => hf.piece pc (List.mem_map.2 ⟨_, h, rfl⟩)
  obtain ⟨name, hname⟩ : ∃ name : DVert → ℕ, ∀ s v, StandsFor nm rg L s v → name s = v := by
    refine ⟨fun s => if h : ∃ v, StandsFor nm rg L s v then h.choose else 0, fun s v h => ?_⟩
    have hex : ∃ v, StandsFor nm rg L s v := ⟨v, h⟩
    simp only [dif_pos hex]
    exact standsFor_unique hnm hR (fun pc hpc => (hf.piece pc hpc).keys.2) s _ _ hex.choose_spec h
  have hplace : ∀ x pc v a, (x, pc) ∈ L → (v, a) ∈ pc.verts → name (rg.place x a) = v := fun x pc v a hx hva => hname _ _ (standsFor_place hR hx (hfact x pc hx) hva)
  have hment : ∀ s, rg.Mentions nm rows s → ∃ x pc p v a, (x, pc) ∈ L ∧ pc.pat rows p ∧ (v, a) ∈ pc.verts ∧ Touched p a ∧ s = rg.place x a := by
    rintro s (⟨t, l, ⟨x, p, a, b, h1, h2, h3, h4⟩ | ⟨x, p, a, b, h1, h2, h3, h4⟩⟩ | ⟨l, x, p, a, h1, h2, h3⟩)
    · obtain ⟨pc, hx, hp⟩ := (shape_iff hnm hR x p).1 h1
      obtain ⟨u, v, hu, hv, -⟩ := (hfact x pc hx).edge_of hp h2
      exact ⟨x, pc, p, u, a, hx, hp, hu, .inl ⟨b, l, .inl h2⟩, h3.symm⟩
    · obtain ⟨pc, hx, hp⟩ := (shape_iff hnm hR x p).1 h1
      obtain ⟨u, v, hu, hv, -⟩ := (hfact x pc hx).edge_of hp h2
      exact ⟨x, pc, p, v, b, hx, hp, hv, .inl ⟨a, l, .inr h2⟩, h4.symm⟩
    · obtain ⟨pc, hx, hp⟩ := (shape_iff hnm hR x p).1 h1
      obtain ⟨v, hv, -⟩ := (hfact x pc hx).label_of hp h2
      exact ⟨x, pc, p, v, a, hx, hp, hv, .inr ⟨l, h2⟩, h3.symm⟩
  refine ⟨name, ?_, ?_, ?_⟩
  · intro s t hs ht hst
    obtain ⟨x, pc, p, v, a, hx, hp, hva, hta, rfl⟩ := hment s hs
    obtain ⟨x', pc', p', v', a', hx', hp', hva', hta', rfl⟩ := hment t ht
    rw [hplace _ _ _ _ hx hva, hplace _ _ _ _ hx' hva'] at hst
    subst hst
    by_cases hxx : x = x'
    · subst hxx
      obtain rfl := mem_unique hL hx hx'
      have := (Prod.mk.inj (List.inj_on_of_nodup_map (hfact x pc hx).keys.1 hva hva' rfl)).2
      rw [this]
    · have p1 := hf.shared hL x x' pc pc' hx hx' hxx v a a' hva hva' p' hp' hta'
      have p2 := hf.shared hL x' x pc' pc hx' hx (Ne.symm hxx) v a' a hva' hva p hp hta
      obtain ⟨y, y1, y2, y3⟩ := place_port hR hx (((hfact x pc hx).ports_sub.map _).nodup (hfact x pc hx).keys.2) p1
      obtain ⟨z, z1, z2, z3⟩ := place_port hR hx' (((hfact x' pc' hx').ports_sub.map _).nodup (hfact x' pc' hx').keys.2) p2
      rw [y2, z2]
      rw [y3] at z3
      have := Option.some.inj z3
      congr 1
      omega
  · intro u v l
    constructor
    · intro h
      have : 0 < (L.map Prod.snd).countP (fun pc => pc.coversEdge rows (u, v, l)) := by
        rw [hf.edges, List.count_pos_iff]
        exact h
      obtain ⟨pc, hpc, hc⟩ := List.countP_pos_iff.1 this
      obtain ⟨⟨x, pc'⟩, hx, rfl⟩ := List.mem_map.1 hpc
      obtain ⟨p, a, b, h1, h2, h3, h4⟩ := (hfact _ _ hx).of_edge hc
      exact ⟨_, _, ⟨x, p, a, b, (shape_iff hnm hR x p).2 ⟨_, hx, h1⟩, h2, rfl, rfl⟩, hplace _ _ _ _ hx h3, hplace _ _ _ _ hx h4⟩
    · rintro ⟨s, t, ⟨x, p, a, b, h1, h2, rfl, rfl⟩, rfl, rfl⟩
      obtain ⟨pc, hx, hp⟩ := (shape_iff hnm hR x p).1 h1
      obtain ⟨u, v, hu, hv, hc⟩ := (hfact x pc hx).edge_of hp h2
      rw [hplace _ _ _ _ hx hu, hplace _ _ _ _ hx hv, ← List.count_pos_iff, ← hf.edges, List.countP_pos_iff]
      exact ⟨pc, List.mem_map.2 ⟨_, hx, rfl⟩, hc⟩
  · intro v l
    constructor
    · intro h
      rcases hf.labels v l h with ⟨pc, hpc, hc⟩ | hpc
      · obtain ⟨⟨x, pc'⟩, hx, rfl⟩ := List.mem_map.1 hpc
        simp only at hc
        cases pc' with
        | emb i e ports =>
          obtain ⟨r, hr, -⟩ := hfact _ _ hx
          simp only [Piece.embCovers, hr, List.any_eq_true, decide_eq_true_eq] at hc
          obtain ⟨⟨w, a⟩, h1, rfl, h2⟩ := hc
          exact ⟨_, ⟨x, r.pattern, a, (shape_iff hnm hR x _).2 ⟨_, hx, r, hr, rfl⟩, h2, rfl⟩, hplace _ _ _ _ hx h1⟩
        | edge u w l' => simp [Piece.embCovers] at hc
        | vertex w l' => simp [Piece.embCovers] at hc
      · obtain ⟨⟨x, pc'⟩, hx, e⟩ := List.mem_map.1 hpc
        simp only at e
        subst e
        exact ⟨_, ⟨x, _, 1, (shape_iff hnm hR x _).2 ⟨_, hx, rfl⟩, by simp [DGraph.labels], rfl⟩, hplace _ _ _ _ hx (by simp [Piece.verts])⟩
    · rintro ⟨s, ⟨x, p, a, h1, h2, rfl⟩, rfl⟩
      obtain ⟨pc, hx, hp⟩ := (shape_iff hnm hR x p).1 h1
      obtain ⟨v, hv, hl⟩ := (hfact x pc hx).label_of hp h2
      rw [hplace _ _ _ _ hx hv]
      exact hl

end Verif.Graph
