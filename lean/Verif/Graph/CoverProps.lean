import Verif.Graph.CoverLemmas

/-!
# The cover of a data graph: properties (C42)
-/

set_option autoImplicit false
set_option linter.unusedSectionVars false

namespace Verif.Graph

variable {σ : Type} [DecidableEq σ]

/-! ## The marks of earlier covers do not matter -/

/-- Marks never exceed the marker and the marker never decreases. -/
structure Bounded (m m' : Marks σ) : Prop where
  marker : m'.marker = m.marker
  old : ∀ x, m'.emark x = m.emark x ∨ m'.emark x = m.marker
  nold : ∀ x, m'.nmark x = m.nmark x ∨ m'.nmark x = m.marker

theorem Bounded.refl (m : Marks σ) : Bounded m m := ⟨rfl, fun _ => Or.inl rfl, fun _ => Or.inl rfl⟩

theorem Bounded.trans {m m' m'' : Marks σ} (h1 : Bounded m m') (h2 : Bounded m' m'') : Bounded m m'' := by
  refine ⟨h2.marker.trans h1.marker, fun x => ?_, fun x => ?_⟩
  · rcases h2.old x with h | h
    · rw [h]; exact h1.old x
    · rw [h, h1.marker]; exact Or.inr rfl
  · rcases h2.nold x with h | h
    · rw [h]; exact h1.nold x
    · rw [h, h1.marker]; exact Or.inr rfl

theorem bounded_markNode (g : DGraph σ) (m : Marks σ) (v : ℕ) (ls : List σ) : Bounded m (markNode g m v ls) := by
  refine ⟨rfl, fun _ => Or.inl rfl, fun x => ?_⟩
  simp only [markNode]
  split
  · exact Or.inr rfl
  · exact Or.inl rfl

theorem bind_ok {α β : Type} {x : Except String α} {f : α → Except String β} {b : β} (h : x.bind f = .ok b) : ∃ a, x = .ok a ∧ f a = .ok b := by
  cases x with
  | error e => cases h
  | ok a => exact ⟨a, rfl, h⟩

theorem map_ok {α β : Type} {x : Except String α} {f : α → β} {b : β} (h : x.map f = .ok b) : ∃ a, x = .ok a ∧ f a = b := by
  cases x with
  | error e => cases h
  | ok a => exact ⟨a, rfl, Except.ok.inj h⟩

theorem bounded_markLabels (g : DGraph σ) (u v : ℕ) (ls : List σ) (m m' : Marks σ) (h : markLabels g u v ls m = .ok m') : Bounded m m' := by
  induction ls generalizing m with
  | nil => rw [← Except.ok.inj h]; exact Bounded.refl m
  | cons l t ih =>
    obtain ⟨m1, h1, h2⟩ := bind_ok h
    refine Bounded.trans ?_ (ih m1 h2)
    unfold markEdge at h1
    split at h1
    · rw [← Except.ok.inj h1]
      refine ⟨rfl, fun x => ?_, fun _ => Or.inl rfl⟩
      simp only
      split
      · exact Or.inr rfl
      · exact Or.inl rfl
    · cases h1

theorem bounded_markEdges (g p : DGraph σ) (e : Embedding) (L : List (ℕ × ℕ)) (m m' : Marks σ) (h : markEdges g p e L m = .ok m') : Bounded m m' := by
  induction L generalizing m with
  | nil => rw [← Except.ok.inj h]; exact Bounded.refl m
  | cons ab t ih =>
    obtain ⟨a, b⟩ := ab
    obtain ⟨m1, h1, h2⟩ := bind_ok h
    have hb : Bounded m m1 := by
      split at h1
      · exact bounded_markLabels _ _ _ _ _ _ h1
      · split at h1
        · cases h1
        · rw [← Except.ok.inj h1]; exact Bounded.refl m
    exact ((hb.trans (bounded_markNode ..)).trans (bounded_markNode ..)).trans (ih _ h2)

theorem bounded_coverEmbs (g p : DGraph σ) (i : ℕ) (es : List Embedding) (m : Marks σ) (r : Marks σ × List (Piece σ)) (h : coverEmbs g p i es m = .ok r) : Bounded m r.1 := by
  induction es generalizing m r with
  | nil => rw [← Except.ok.inj h]; exact Bounded.refl m
  | cons e t ih =>
    obtain ⟨b, _, h2⟩ := bind_ok h
    cases b with
    | true => exact ih m r h2
    | false =>
      obtain ⟨m1, h3, h4⟩ := bind_ok (show (markEmb g p m e).bind _ = _ from h2)
      obtain ⟨r1, h5, rfl⟩ := map_ok h4
      exact (bounded_markEdges _ _ _ _ _ _ h3).trans (ih m1 r1 h5)

theorem bounded_coverVerts (g p : DGraph σ) (i : ℕ) (e : Embedding) (L : List (ℕ × ℕ)) (m : Marks σ) (r : Marks σ × List (Piece σ)) (h : coverVerts g p i e L m = .ok r) : Bounded m r.1 := by
  induction L generalizing m r with
  | nil => rw [← Except.ok.inj h]; exact Bounded.refl m
  | cons x t ih =>
    obtain ⟨v, a⟩ := x
    rw [coverVerts] at h
    split at h
    · cases h
    · split at h
      · cases h
      · split at h
        · exact ih m r h
        · obtain ⟨r1, h5, rfl⟩ := map_ok h
          exact (bounded_markNode ..).trans (ih _ r1 h5)

theorem bounded_coverNodes (g p : DGraph σ) (i : ℕ) (es : List Embedding) (m : Marks σ) (r : Marks σ × List (Piece σ)) (h : coverNodes g p i es m = .ok r) : Bounded m r.1 := by
  induction es generalizing m r with
  | nil => rw [← Except.ok.inj h]; exact Bounded.refl m
  | cons e t ih =>
    obtain ⟨r1, h1, h2⟩ := bind_ok h
    obtain ⟨r2, h3, rfl⟩ := map_ok h2
    exact (bounded_coverVerts _ _ _ _ _ _ _ h1).trans (ih _ r2 h3)

theorem bounded_coverRows (g : DGraph σ) (i : ℕ) (rows : List (Row σ)) (m : Marks σ) (r : Marks σ × List (Row σ) × List (Piece σ)) (h : coverRows g i rows m = .ok r) : Bounded m r.1 := by
  induction rows generalizing i m r with
  | nil => rw [← Except.ok.inj h]; exact Bounded.refl m
  | cons x t ih =>
    obtain ⟨r1, h1, h2⟩ := bind_ok h
    obtain ⟨r2, h3, rfl⟩ := map_ok h2
    refine Bounded.trans ?_ (ih _ _ r2 h3)
    unfold rowCover at h1
    split at h1
    · exact bounded_coverEmbs _ _ _ _ _ _ h1
    · exact bounded_coverNodes _ _ _ _ _ _ h1

/-- After any history of covers no mark is above the marker, so a new cover starts with nothing marked. -/
theorem History.bound (g : DGraph σ) (m : Marks σ) (h : History g m) : (∀ x, m.emark x ≤ m.marker) ∧ ∀ x, m.nmark x ≤ m.marker := by
  induction h with
  | fresh => exact ⟨fun _ => Nat.le_refl _, fun _ => Nat.le_refl _⟩
  | cover m m' rows rows' ps _ hc ih =>
    obtain ⟨r, h1, h2⟩ := map_ok hc
    obtain ⟨rm, rr, rp⟩ := r
    have hb := bounded_coverRows _ _ _ _ _ h1
    have hs := (singleEdges_step g ([] : List (Row σ)) g.edges (fun _ h => h) rm).1
    have hmk1 : rm.marker = m.marker + 1 := hb.marker
    have hn := (singleNodes_step g.nodes (singleEdges g g.edges rm).1).1
    simp only [Prod.mk.injEq] at h2
    obtain ⟨rfl, _, _⟩ := h2
    have hmk : (singleNodes g.nodes (singleEdges g g.edges rm).1).1.marker = m.marker + 1 := (hn.marker.trans hs.marker).trans hb.marker
    rw [hmk]
    constructor
    · intro x
      rw [hn.emark]
      rcases hs.old x with h | h
      · rw [h]
        rcases hb.old x with h' | h'
        · exact Nat.le_trans (Nat.le_of_eq h') (Nat.le_succ_of_le (ih.1 x))
        · exact Nat.le_of_eq h'
      · exact Nat.le_of_eq (h.trans hmk1)
    · intro x
      rcases hn.old x with h | h
      · rw [h]
        rcases hs.nold x with h | h
        · rw [h]
          rcases hb.nold x with h' | h'
          · exact Nat.le_trans (Nat.le_of_eq h') (Nat.le_succ_of_le (ih.2 x))
          · exact Nat.le_of_eq h'
        · exact Nat.le_of_eq (h.trans hmk1)
      · exact Nat.le_of_eq ((h.trans hs.marker).trans hmk1)

/-! ## C42 -/

/-- Full statement: every labelled edge and every vertex label is described exactly once. Proved here: whatever was covered before, the cover succeeds; every labelled edge of the graph is described by exactly one piece (an embedding
or the edge singleton) and nothing else is; every vertex label either is described by at least one embedding and has no singleton, or by no embedding and has exactly one singleton. Missing: a vertex label may be described by several
embeddings (`vertex_label_twice`), and parallel edges with the same label are described once (excluded by `hnodup`, see `parallel_edges`). -/
theorem cover_partial (g : DGraph σ) (hnodup : g.edges.Nodup) (rows : List (Row σ)) (hrows : ∀ r ∈ rows, RowOk g r) (m : Marks σ) (hm : History g m) :
    ∃ m' rows' ps, cover g rows m = .ok (m', rows', ps) ∧
      (∀ x, ps.countP (fun pc => pc.coversEdge rows x) = g.edges.count x) ∧
      (∀ v ls, (v, ls) ∈ g.nodes → ∀ l ∈ ls,
        ((∃ pc ∈ ps, pc.embCovers rows (v, l) = true) ∧ Piece.vertex v l ∉ ps) ∨
        ((∀ pc ∈ ps, pc.embCovers rows (v, l) = false) ∧ ps.count (Piece.vertex v l) = 1)) ∧
      (∀ v l, Piece.vertex v l ∈ ps → ∃ ls, (v, ls) ∈ g.nodes ∧ l ∈ ls) := by
  obtain ⟨hbe, hbn⟩ := hm.bound
  obtain ⟨m0, hm0⟩ : ∃ m0 : Marks σ, m0 = { m with marker := m.marker + 1 } := ⟨_, rfl⟩
  have hmk : m0.marker = m.marker + 1 := by rw [hm0]
  have he0 : ∀ x, m0.emark x ≠ m0.marker := by
    intro x h
    have h1 := hbe x
    rw [hm0] at h
    simp only at h
    omega
  have hn0 : ∀ x, m0.nmark x ≠ m0.marker := by
    intro x h
    have h1 := hbn x
    rw [hm0] at h
    simp only at h
    omega
  obtain ⟨m1, rows1, ps1, h1, s1, _, _⟩ := coverRows_step g rows hrows rows 0 (by simp) m0
  obtain ⟨s2, k2, n2, e2⟩ := singleEdges_step g rows g.edges (fun _ h => h) m1
  obtain ⟨s3, k3⟩ := singleNodes_step g.nodes (singleEdges g g.edges m1).1
  have hmk2 : (singleEdges g g.edges m1).1.marker = m0.marker := s2.marker.trans s1.marker
  have hs := (s1.trans s2).trans (s3.step g rows)
  have hemb := coverRows_embs _ _ _ _ _ _ _ h1
  refine ⟨_, rows1, _, by rw [cover, ← hm0, h1]; rfl, ?_, ?_, ?_⟩
  · intro x
    have := hs.edges x
    rw [if_neg (he0 x), Nat.add_zero] at this
    simp only at this ⊢
    rw [this]
    by_cases hx : x ∈ g.edges
    · rw [List.count_eq_one_of_mem hnodup hx, if_pos]
      rw [s3.emark, k2 x hx, s1.marker]
    · rw [List.count_eq_zero_of_not_mem hx, if_neg]
      intro h
      rcases hs.real x with h' | h'
      · exact he0 x (h'.symm.trans h)
      · exact hx h'
  · intro v ls hv l hl
    have hend := k3 (v, ls) hv l hl
    simp only at hend
    rw [hmk2] at hend
    have hc := s3.count (v, l)
    rw [hmk2, if_pos hend, n2] at hc
    have hcount : (ps1 ++ (singleEdges g g.edges m1).2 ++ (singleNodes g.nodes (singleEdges g g.edges m1).1).2).count (Piece.vertex v l) =
        (singleNodes g.nodes (singleEdges g g.edges m1).1).2.countP (fun pc => decide (pc = .vertex v l)) := by
      rw [List.count_append, List.count_append, List.count_eq_zero_of_not_mem, List.count_eq_zero_of_not_mem]
      · simp only [Nat.zero_add, List.count]
        exact List.countP_congr (fun x _ => by simp)
      · intro h
        obtain ⟨u, w, l', h'⟩ := e2 _ h
        cases h'
      · intro h
        obtain ⟨j, e, po, h'⟩ := hemb _ h
        cases h'
    have hnot2 : ∀ pc ∈ (singleEdges g g.edges m1).2 ++ (singleNodes g.nodes (singleEdges g g.edges m1).1).2, pc.embCovers rows (v, l) = false := by
      intro pc hpc
      rcases List.mem_append.mp hpc with h | h
      · obtain ⟨u, w, l', rfl⟩ := e2 _ h; rfl
      · obtain ⟨w, l', rfl⟩ := s3.verts _ h; rfl
    by_cases hmark : m1.nmark (v, l) = m0.marker
    · left
      constructor
      · rcases s1.labels _ hmark with h | ⟨pc, h, h'⟩ | h
        · exact absurd h (hn0 _)
        · exact ⟨pc, List.mem_append_left _ (List.mem_append_left _ h), h'⟩
        · obtain ⟨j, e, po, h'⟩ := hemb _ h
          cases h'
      · rw [if_pos hmark] at hc
        rw [← List.count_eq_zero, hcount]
        exact Nat.succ.inj hc
    · right
      rw [if_neg hmark] at hc
      constructor
      · intro pc hpc
        rw [List.append_assoc] at hpc
        rcases List.mem_append.mp hpc with h | h
        · rw [← Bool.not_eq_true]
          exact fun hc => hmark (s1.back _ pc h hc)
        · exact hnot2 pc h
      · rw [hcount]; omega
  · intro v l h
    rcases List.mem_append.mp h with h | h
    · rcases List.mem_append.mp h with h | h
      · obtain ⟨j, e, po, h'⟩ := hemb _ h
        cases h'
      · obtain ⟨u, w, l', h'⟩ := e2 _ h
        cases h'
    · exact singleNodes_real _ _ _ _ h

/-! ### Witnesses -/

/-- `0 -a-> 1 -a-> 2`, all vertices labelled `x` (label 9), edges labelled 1. -/
def pathGraph : DGraph ℕ := ⟨false, [(0, [9]), (1, [9]), (2, [9])], [(0, 1, 1), (1, 2, 1)]⟩

/-- One edge with labelled ends. -/
def edgePattern : DGraph ℕ := ⟨false, [(1, [9]), (2, [9])], [(1, 2, 1)]⟩

def pathRow : Row ℕ := ⟨edgePattern, [[(0, 1), (1, 2)], [(1, 1), (2, 2)]], []⟩

theorem pathRow_ok : RowOk pathGraph pathRow := by
  have hlab : ∀ a, edgePattern.labels a ≠ [] → a = 1 ∨ a = 2 := by
    intro a h
    by_contra hc
    have h1 : (a == 1) = false := by simp; omega
    have h2 : (a == 2) = false := by simp; omega
    simp [DGraph.labels, edgePattern, List.lookup, h1, h2] at h
  refine ⟨?_, ?_, ?_⟩
  · intro e he
    simp only [pathRow, List.mem_cons, List.not_mem_nil, or_false] at he
    rcases he with rfl | rfl
    all_goals
      refine ⟨by decide, by decide, ?_, ?_, ?_⟩
      · intro a b l h
        simp only [pathRow, edgePattern, List.mem_singleton, Prod.mk.injEq] at h
        obtain ⟨rfl, rfl, rfl⟩ := h
        decide
      · intro a b l h u v hu hv
        simp only [pathRow, edgePattern, List.mem_singleton, Prod.mk.injEq] at h
        obtain ⟨rfl, rfl, rfl⟩ := h
        simp at hu hv
        subst hu hv
        show (_, _, _) ∈ pathGraph.edges
        decide
      · intro v a h
        simp only [List.mem_cons, Prod.mk.injEq, List.not_mem_nil, or_false] at h
        rcases h with ⟨rfl, rfl⟩ | ⟨rfl, rfl⟩ <;> decide
  · intro _ a ha
    rcases hlab a ha with rfl | rfl
    · exact ⟨2, 1, Or.inl (by decide)⟩
    · exact ⟨1, 1, Or.inr (by decide)⟩
  · intro h; simp [pathRow, edgePattern] at h

/-- The hypotheses of `cover_partial` hold for the path and its row, for a first and for a second cover. -/
example : ∃ m, History pathGraph m ∧ m.marker = 1 ∧ ∃ m' rows' ps, cover pathGraph [pathRow] m = .ok (m', rows', ps) ∧ ∀ x, ps.countP (fun pc => pc.coversEdge [pathRow] x) = pathGraph.edges.count x := by
  have hr : ∀ r ∈ [pathRow], RowOk pathGraph r := by
    intro r hr; rw [List.mem_singleton] at hr; subst hr; exact pathRow_ok
  obtain ⟨m1, rows1, ps1, h1, _⟩ := cover_partial pathGraph (by decide) [pathRow] hr Marks.fresh .fresh
  have hh : History pathGraph m1 := .cover _ _ _ _ _ .fresh h1
  obtain ⟨m2, rows2, ps2, h2, h3, _⟩ := cover_partial pathGraph (by decide) [pathRow] hr m1 hh
  refine ⟨m1, hh, ?_, m2, rows2, ps2, h2, h3⟩
  have := (cover pathGraph [pathRow] Marks.fresh).map (fun x => x.1.marker)
  have h4 : (cover pathGraph [pathRow] Marks.fresh).map (fun x => x.1.marker) = .ok 1 := rfl
  rw [h1] at h4
  exact Except.ok.inj h4

/-- Two embeddings that share a vertex are both used, so the label of the shared vertex is described twice: "exactly once" fails for vertex labels. -/
theorem vertex_label_twice : RowOk pathGraph pathRow ∧
    (cover pathGraph [pathRow] Marks.fresh).toOption.map (fun x => x.2.2.countP (fun pc => pc.embCovers [pathRow] (1, 9))) = some 2 := by
  exact ⟨pathRow_ok, by decide +kernel⟩

/-- In a multigraph two parallel edges with the same label share their mark: only one piece is produced for the two. -/
theorem parallel_edges : (cover (⟨true, [], [(0, 1, 1), (0, 1, 1)]⟩ : DGraph ℕ) [] Marks.fresh).toOption.map (fun x => x.2.2) = some [.edge 0 1 1] := by
  decide +kernel

/-- The list of used embeddings of a row is never emptied: after two covers every used embedding is listed twice. -/
theorem used_accumulates : ((cover pathGraph [pathRow] Marks.fresh).toOption.bind (fun x => (cover pathGraph x.2.1 x.1).toOption)).map (fun x => x.2.1.map (fun r => r.used.length)) = some [4] := by
  decide +kernel

end Verif.Graph
