import Verif.Graph.OccPieces
import Verif.Graph.EndMerge

/-!
# The search of GraphMDL ends: the number of pieces of a cover
-/

set_option autoImplicit false
set_option linter.unusedSectionVars false

namespace Verif.Graph

variable {σ : Type} [DecidableEq σ]

/-! ## Marks -/

/-- The labels of the vertices, with their vertex. -/
def DGraph.labelPairs (g : DGraph σ) : List (ℕ × σ) := g.nodes.flatMap (fun n => n.2.map (fun l => (n.1, l)))

theorem labels_pairs (g : DGraph σ) (v : ℕ) (l : σ) (h : l ∈ g.labels v) : (v, l) ∈ g.labelPairs := by
  unfold DGraph.labels at h
  unfold DGraph.labelPairs
  generalize g.nodes = L at h
  induction L with
  | nil => simp at h
  | cons n t ih =>
    obtain ⟨w, ls⟩ := n
    rw [List.lookup_cons] at h
    rw [List.flatMap_cons, List.mem_append]
    by_cases hc : v = w
    · subst hc
      simp only [beq_self_eq_true, Option.getD_some] at h
      exact Or.inl (List.mem_map.2 ⟨l, h, rfl⟩)
    · have : (v == w) = false := by simpa using hc
      rw [this] at h
      exact Or.inr (ih h)

/-- The edges and labels not marked by the current cover. -/
def unmarked (g : DGraph σ) (m : Marks σ) : ℕ := g.edges.countP (fun x => decide (m.emark x ≠ m.marker)) + g.labelPairs.countP (fun x => decide (m.nmark x ≠ m.marker))

/-- Marks of the current cover are only added. -/
structure More (m m' : Marks σ) : Prop where
  marker : m'.marker = m.marker
  edges : ∀ x, m.emark x = m.marker → m'.emark x = m.marker
  nodes : ∀ x, m.nmark x = m.marker → m'.nmark x = m.marker

theorem More.refl (m : Marks σ) : More m m := ⟨rfl, fun _ h => h, fun _ h => h⟩

theorem More.trans {m m' m'' : Marks σ} (h : More m m') (h' : More m' m'') : More m m'' :=
  ⟨h'.marker.trans h.marker, fun x hx => by rw [← h.marker]; exact h'.edges x (by rw [h.marker]; exact h.edges x hx), fun x hx => by rw [← h.marker]; exact h'.nodes x (by rw [h.marker]; exact h.nodes x hx)⟩

theorem countP_lt {α : Type} (L : List α) (p q : α → Bool) (hpq : ∀ x, q x = true → p x = true) (y : α) (hy : y ∈ L) (h1 : p y = true) (h2 : ¬q y = true) : L.countP q < L.countP p := by
  induction L with
  | nil => cases hy
  | cons a t ih =>
    rcases List.mem_cons.mp hy with rfl | hy
    · rw [List.countP_cons_of_neg h2, List.countP_cons_of_pos h1]
      have : t.countP q ≤ t.countP p := List.countP_mono_left (fun x _ => hpq x)
      omega
    · have := ih hy
      rw [List.countP_cons, List.countP_cons]
      by_cases ha : q a = true
      · rw [if_pos ha, if_pos (hpq a ha)]; omega
      · rw [if_neg ha]; omega

theorem More.edge_imp {m m' : Marks σ} (h : More m m') (x : ℕ × ℕ × σ) (hx : decide (m'.emark x ≠ m'.marker) = true) : decide (m.emark x ≠ m.marker) = true := by
  rw [decide_eq_true_eq] at hx ⊢
  intro he
  exact hx (by rw [h.marker]; exact h.edges x he)

theorem More.node_imp {m m' : Marks σ} (h : More m m') (x : ℕ × σ) (hx : decide (m'.nmark x ≠ m'.marker) = true) : decide (m.nmark x ≠ m.marker) = true := by
  rw [decide_eq_true_eq] at hx ⊢
  intro he
  exact hx (by rw [h.marker]; exact h.nodes x he)

theorem unmarked_le (g : DGraph σ) {m m' : Marks σ} (h : More m m') : unmarked g m' ≤ unmarked g m := by
  unfold unmarked
  have h1 : g.edges.countP (fun x => decide (m'.emark x ≠ m'.marker)) ≤ g.edges.countP (fun x => decide (m.emark x ≠ m.marker)) := List.countP_mono_left (fun x _ => h.edge_imp x)
  have h2 : g.labelPairs.countP (fun x => decide (m'.nmark x ≠ m'.marker)) ≤ g.labelPairs.countP (fun x => decide (m.nmark x ≠ m.marker)) := List.countP_mono_left (fun x _ => h.node_imp x)
  omega

theorem unmarked_lt_edge (g : DGraph σ) {m m' : Marks σ} (h : More m m') (x : ℕ × ℕ × σ) (hx : x ∈ g.edges) (h1 : m.emark x ≠ m.marker) (h2 : m'.emark x = m.marker) : unmarked g m' < unmarked g m := by
  unfold unmarked
  have h3 := countP_lt g.edges (fun x => decide (m.emark x ≠ m.marker)) (fun x => decide (m'.emark x ≠ m'.marker)) h.edge_imp x hx (by simpa using h1) (by simp [h.marker, h2])
  have h4 : g.labelPairs.countP (fun x => decide (m'.nmark x ≠ m'.marker)) ≤ g.labelPairs.countP (fun x => decide (m.nmark x ≠ m.marker)) := List.countP_mono_left (fun x _ => h.node_imp x)
  omega

theorem unmarked_lt_node (g : DGraph σ) {m m' : Marks σ} (h : More m m') (x : ℕ × σ) (hx : x ∈ g.labelPairs) (h1 : m.nmark x ≠ m.marker) (h2 : m'.nmark x = m.marker) : unmarked g m' < unmarked g m := by
  unfold unmarked
  have h3 := countP_lt g.labelPairs (fun x => decide (m.nmark x ≠ m.marker)) (fun x => decide (m'.nmark x ≠ m'.marker)) h.node_imp x hx (by simpa using h1) (by simp [h.marker, h2])
  have h4 : g.edges.countP (fun x => decide (m'.emark x ≠ m'.marker)) ≤ g.edges.countP (fun x => decide (m.emark x ≠ m.marker)) := List.countP_mono_left (fun x _ => h.edge_imp x)
  omega

theorem unmarked_bound (g : DGraph σ) (m : Marks σ) : unmarked g m ≤ g.edges.length + g.labelPairs.length := Nat.add_le_add List.countP_le_length List.countP_le_length

theorem markNode_more (g : DGraph σ) (m : Marks σ) (v : ℕ) (ls : List σ) : More m (markNode g m v ls) := by
  refine ⟨rfl, fun x h => h, fun x h => ?_⟩
  unfold markNode
  simp only
  split
  · rfl
  · exact h

theorem markEdge_more {g : DGraph σ} {m m' : Marks σ} {u v : ℕ} {l : σ} (h : markEdge g m u v l = .ok m') : More m m' ∧ (u, v, l) ∈ g.edges ∧ m'.emark (u, v, l) = m.marker := by
  unfold markEdge at h
  split at h
  · rename_i hm
    cases h
    refine ⟨⟨rfl, fun x hx => ?_, fun x hx => hx⟩, hm, by simp⟩
    simp only
    split
    · rfl
    · exact hx
  · cases h

theorem markLabels_more {g : DGraph σ} {u v : ℕ} (ls : List σ) {m m' : Marks σ} (h : markLabels g u v ls m = .ok m') : More m m' ∧ ∀ l ∈ ls, (u, v, l) ∈ g.edges ∧ m'.emark (u, v, l) = m.marker := by
  induction ls generalizing m with
  | nil => cases h; exact ⟨More.refl _, by simp⟩
  | cons l t ih =>
    unfold markLabels at h
    cases he : markEdge g m u v l with
    | error e => rw [he] at h; cases h
    | ok m1 =>
      rw [he] at h
      obtain ⟨h1, h2, h3⟩ := markEdge_more he
      obtain ⟨h4, h5⟩ := ih h
      refine ⟨h1.trans h4, ?_⟩
      intro k hk
      rcases List.mem_cons.1 hk with rfl | hk
      · exact ⟨h2, by rw [← h1.marker]; exact h4.edges _ (by rw [h1.marker]; exact h3)⟩
      · obtain ⟨h6, h7⟩ := h5 k hk
        exact ⟨h6, by rw [h7, h1.marker]⟩

theorem markEdges_more {g p : DGraph σ} {e : Embedding} (L : List (ℕ × ℕ)) (hL : ∀ x ∈ L, g.hasEdge (keyOf e x.1) (keyOf e x.2) = true) {m m' : Marks σ} (h : markEdges g p e L m = .ok m') :
    More m m' ∧ ∀ x ∈ L, ∀ l ∈ p.edgeLabels x.1 x.2, (keyOf e x.1, keyOf e x.2, l) ∈ g.edges ∧ m'.emark (keyOf e x.1, keyOf e x.2, l) = m.marker := by
  induction L generalizing m with
  | nil => cases h; exact ⟨More.refl _, by simp⟩
  | cons x t ih =>
    obtain ⟨a, b⟩ := x
    unfold markEdges at h
    rw [if_pos (hL (a, b) List.mem_cons_self)] at h
    cases he : markLabels g (keyOf e a) (keyOf e b) (p.edgeLabels a b) m with
    | error e => rw [he] at h; cases h
    | ok m1 =>
      rw [he] at h
      obtain ⟨h1, h2⟩ := markLabels_more _ he
      have h3 : More m (markNode g (markNode g m1 (keyOf e a) (p.labels a)) (keyOf e b) (p.labels b)) := (h1.trans (markNode_more ..)).trans (markNode_more ..)
      obtain ⟨h4, h5⟩ := ih (fun x hx => hL x (List.mem_cons_of_mem _ hx)) h
      refine ⟨h3.trans h4, ?_⟩
      intro y hy l hl
      rcases List.mem_cons.1 hy with rfl | hy
      · obtain ⟨h6, h7⟩ := h2 l hl
        refine ⟨h6, ?_⟩
        rw [← h3.marker]
        exact h4.edges _ (by rw [h3.marker]; exact h7)
      · obtain ⟨h6, h7⟩ := h5 y hy l hl
        exact ⟨h6, by rw [h7, h3.marker]⟩

/-! ## Number of pieces -/

/-- Edges of the pattern go to pairs of vertices joined in the data. -/
def Joined (g p : DGraph σ) (e : Embedding) : Prop := ∀ x ∈ edgesIn e p, g.hasEdge (keyOf e x.1) (keyOf e x.2) = true

theorem coverEmbs_count {g p : DGraph σ} (hm : g.multi = false) (i : ℕ) (es : List Embedding) (hes : ∀ e ∈ es, Joined g p e) (m : Marks σ) (r : Marks σ × List (Piece σ)) (h : coverEmbs g p i es m = .ok r) :
    More m r.1 ∧ r.2.length + unmarked g r.1 ≤ unmarked g m := by
  induction es generalizing m r with
  | nil => cases h; exact ⟨More.refl _, by simp⟩
  | cons e t ih =>
    have ht : ∀ e ∈ t, Joined g p e := fun e he => hes e (List.mem_cons_of_mem _ he)
    have hj := hes e List.mem_cons_self
    unfold coverEmbs at h
    cases hb : embMarked g p m e with
    | error x => rw [hb] at h; cases h
    | ok b =>
      rw [hb] at h
      simp only [Except.bind] at h
      cases b with
      | true =>
        simp only [if_true] at h
        exact ih ht m r h
      | false =>
        simp only [Bool.false_eq_true, if_false] at h
        cases hk : markEmb g p m e with
        | error x => rw [hk] at h; cases h
        | ok m1 =>
          rw [hk] at h
          simp only at h
          obtain ⟨r1, h1, rfl⟩ := map_ok h
          obtain ⟨h2, h3⟩ := markEdges_more _ hj hk
          obtain ⟨h4, h5⟩ := ih ht m1 r1 h1
          refine ⟨h2.trans h4, ?_⟩
          have hlt : unmarked g m1 < unmarked g m := by
            unfold embMarked at hb
            split at hb
            · cases hb
            · rename_i hne
              obtain ⟨⟨a, b⟩, hab⟩ := List.exists_mem_of_ne_nil _ hne
              obtain ⟨l, hl⟩ : ∃ l, l ∈ p.edgeLabels a b := by
                obtain ⟨⟨l, h6⟩, _⟩ := (mem_edgesIn e p a b).1 hab
                exact ⟨l, (mem_edgeLabels p a b l).2 h6⟩
              obtain ⟨h6, h7⟩ := h3 (a, b) hab l hl
              refine unmarked_lt_edge g h2 _ h6 ?_ h7
              intro hmark
              rw [anyMarked_eq g p m e _ hj] at hb
              have hb := Except.ok.inj hb
              rw [List.any_eq_false] at hb
              have hb := hb (a, b) hab
              rw [Bool.not_eq_true, List.any_eq_false] at hb
              apply hb l hl
              unfold edgeMarked
              rw [hm]
              simpa using hmark
          simp only [List.length_cons]
          omega

theorem coverVerts_count {g p : DGraph σ} (i : ℕ) (e : Embedding) (L : List (ℕ × ℕ)) (m : Marks σ) (r : Marks σ × List (Piece σ)) (h : coverVerts g p i e L m = .ok r) :
    More m r.1 ∧ r.2.length + unmarked g r.1 ≤ unmarked g m := by
  induction L generalizing m r with
  | nil => cases h; exact ⟨More.refl _, by simp⟩
  | cons x t ih =>
    obtain ⟨v, a⟩ := x
    unfold coverVerts at h
    by_cases h0 : p.labels a = []
    · rw [if_pos h0] at h; cases h
    · rw [if_neg h0] at h
      by_cases h1 : (p.labels a).any (fun l => decide (l ∉ g.labels v)) = true
      · rw [if_pos h1] at h; cases h
      · rw [if_neg h1] at h
        by_cases h2 : (p.labels a).all (fun l => decide (m.nmark (v, l) = m.marker)) = true
        · rw [if_pos h2] at h
          exact ih m r h
        · rw [if_neg h2] at h
          obtain ⟨r1, h3, rfl⟩ := map_ok h
          obtain ⟨h4, h5⟩ := ih _ r1 h3
          refine ⟨(markNode_more ..).trans h4, ?_⟩
          have hlt : unmarked g (markNode g m v (p.labels a)) < unmarked g m := by
            rw [Bool.not_eq_true, List.all_eq_false] at h2
            obtain ⟨l, hl, h6⟩ := h2
            rw [Bool.not_eq_true, List.any_eq_false] at h1
            have h7 : l ∈ g.labels v := by simpa using h1 l hl
            refine unmarked_lt_node g (markNode_more ..) (v, l) (labels_pairs g v l h7) (by simpa using h6) ?_
            unfold markNode
            simp [hl, h7]
          simp only [List.length_cons]
          omega

theorem coverNodes_count {g p : DGraph σ} (i : ℕ) (es : List Embedding) (m : Marks σ) (r : Marks σ × List (Piece σ)) (h : coverNodes g p i es m = .ok r) :
    More m r.1 ∧ r.2.length + unmarked g r.1 ≤ unmarked g m := by
  induction es generalizing m r with
  | nil => cases h; exact ⟨More.refl _, by simp⟩
  | cons e t ih =>
    unfold coverNodes at h
    cases hb : coverVerts g p i e e m with
    | error x => rw [hb] at h; cases h
    | ok r1 =>
      rw [hb] at h
      simp only [Except.bind] at h
      obtain ⟨r2, h3, rfl⟩ := map_ok h
      obtain ⟨h4, h5⟩ := coverVerts_count i e e m r1 hb
      obtain ⟨h6, h7⟩ := ih _ r2 h3
      refine ⟨h4.trans h6, ?_⟩
      rw [List.length_append]
      simp only
      omega

theorem rowCover_count {g : DGraph σ} (hm : g.multi = false) (i : ℕ) (row : Row σ) (hrow : ∀ e ∈ row.embeddings, Joined g row.pattern e) (m : Marks σ) (r : Marks σ × List (Piece σ)) (h : rowCover g i row m = .ok r) :
    More m r.1 ∧ r.2.length + unmarked g r.1 ≤ unmarked g m := by
  unfold rowCover at h
  split at h
  · exact coverEmbs_count hm i _ hrow m r h
  · exact coverNodes_count i _ m r h

theorem coverRows_count {g : DGraph σ} (hm : g.multi = false) (i : ℕ) (rows : List (Row σ)) (hrows : ∀ row ∈ rows, ∀ e ∈ row.embeddings, Joined g row.pattern e) (m : Marks σ) (r : Marks σ × List (Row σ) × List (Piece σ))
    (h : coverRows g i rows m = .ok r) : More m r.1 ∧ r.2.2.length + unmarked g r.1 ≤ unmarked g m := by
  induction rows generalizing i m r with
  | nil => cases h; exact ⟨More.refl _, by simp⟩
  | cons row t ih =>
    unfold coverRows at h
    cases hb : rowCover g i row m with
    | error x => rw [hb] at h; cases h
    | ok r1 =>
      rw [hb] at h
      simp only [Except.bind] at h
      obtain ⟨r2, h3, rfl⟩ := map_ok h
      obtain ⟨h4, h5⟩ := rowCover_count hm i row (hrows row List.mem_cons_self) m r1 hb
      obtain ⟨h6, h7⟩ := ih (i + 1) (fun row hr => hrows row (List.mem_cons_of_mem _ hr)) _ r2 h3
      refine ⟨h4.trans h6, ?_⟩
      simp only [List.length_append]
      omega

theorem singleEdges_length (g : DGraph σ) (L : List (ℕ × ℕ × σ)) (m : Marks σ) : (singleEdges g L m).2.length ≤ L.length := by
  induction L generalizing m with
  | nil => simp [singleEdges]
  | cons x t ih =>
    obtain ⟨u, v, l⟩ := x
    unfold singleEdges
    split
    · exact le_trans (ih m) (by simp)
    · simp only [List.length_cons]
      have := ih { m with emark := fun x => if x = (u, v, l) then m.marker else m.emark x }
      omega

theorem singleLabels_length (v : ℕ) (L : List σ) (m : Marks σ) : (singleLabels v L m).2.length ≤ L.length := by
  induction L generalizing m with
  | nil => simp [singleLabels]
  | cons l t ih =>
    unfold singleLabels
    split
    · exact le_trans (ih m) (by simp)
    · simp only [List.length_cons]
      have := ih { m with nmark := fun x => if x = (v, l) then m.marker else m.nmark x }
      omega

theorem singleNodes_length (L : List (ℕ × List σ)) (m : Marks σ) : (singleNodes L m).2.length ≤ (L.flatMap (fun n => n.2.map (fun l => (n.1, l)))).length := by
  induction L generalizing m with
  | nil => simp [singleNodes]
  | cons n t ih =>
    obtain ⟨v, ls⟩ := n
    unfold singleNodes
    simp only [List.flatMap_cons, List.length_append, List.length_map]
    have := ih (singleLabels v ls m).1
    have := singleLabels_length v ls m
    omega

/-- The number of pieces of a cover is bounded by the data. -/
theorem cover_count {g : DGraph σ} (hm : g.multi = false) (rows : List (Row σ)) (hrows : ∀ row ∈ rows, ∀ e ∈ row.embeddings, Joined g row.pattern e) (m : Marks σ) (r : Marks σ × List (Row σ) × List (Piece σ))
    (h : cover g rows m = .ok r) : r.2.2.length ≤ 2 * (g.edges.length + g.labelPairs.length) := by
  unfold cover at h
  obtain ⟨x, h1, rfl⟩ := map_ok h
  have h2 := (coverRows_count hm 0 rows hrows _ x h1).2
  have h3 := unmarked_bound g { m with marker := m.marker + 1 }
  have h4 := singleEdges_length g g.edges x.1
  have h5 := singleNodes_length g.nodes (singleEdges g g.edges x.1).1
  unfold DGraph.labelPairs at *
  simp only [List.length_append]
  omega

end Verif.Graph
