import Verif.Graph.CoverProps

/-!
# Covers do not depend on earlier covers
-/

set_option autoImplicit false
set_option linter.unusedSectionVars false

namespace Verif.Graph

variable {σ : Type} [DecidableEq σ]

/-- The same edges and labels count as marked. -/
structure Same (m n : Marks σ) : Prop where
  edges : ∀ x, m.emark x = m.marker ↔ n.emark x = n.marker
  nodes : ∀ x, m.nmark x = m.marker ↔ n.nmark x = n.marker

/-- Both raise the same error, or both return the same and leave the same marks. -/
def SameR {α : Type} : Except String (Marks σ × α) → Except String (Marks σ × α) → Prop
  | .ok a, .ok b => Same a.1 b.1 ∧ a.2 = b.2
  | .error e, .error f => e = f
  | _, _ => False

theorem SameR.bind {α β : Type} {x y : Except String (Marks σ × α)} {f g : Marks σ × α → Except String (Marks σ × β)} (h : SameR x y)
    (hfg : ∀ a b, Same a.1 b.1 → a.2 = b.2 → SameR (f a) (g b)) : SameR (x.bind f) (y.bind g) := by
  cases x <;> cases y
  · exact h
  · exact h.elim
  · exact h.elim
  · exact hfg _ _ h.1 h.2

theorem SameR.map {α β : Type} {x y : Except String (Marks σ × α)} {f : Marks σ × α → Marks σ × β} (h : SameR x y)
    (hf : ∀ a b, Same a.1 b.1 → a.2 = b.2 → Same (f a).1 (f b).1 ∧ (f a).2 = (f b).2) : SameR (x.map f) (y.map f) := by
  cases x <;> cases y
  · exact h
  · exact h.elim
  · exact h.elim
  · exact hf _ _ h.1 h.2

/-- Marks alone. -/
def SameM : Except String (Marks σ) → Except String (Marks σ) → Prop
  | .ok a, .ok b => Same a b
  | .error e, .error f => e = f
  | _, _ => False

theorem SameM.bind {x y : Except String (Marks σ)} {f g : Marks σ → Except String (Marks σ)} (h : SameM x y) (hfg : ∀ a b, Same a b → SameM (f a) (g b)) : SameM (x.bind f) (y.bind g) := by
  cases x <;> cases y
  · exact h
  · exact h.elim
  · exact h.elim
  · exact hfg _ _ h

theorem same_setEdge {m n : Marks σ} (h : Same m n) (p : ℕ × ℕ × σ → Prop) [DecidablePred p] :
    Same { m with emark := fun x => if p x then m.marker else m.emark x } { n with emark := fun x => if p x then n.marker else n.emark x } := by
  refine ⟨fun x => ?_, h.nodes⟩
  by_cases hx : p x
  · simp [hx]
  · simpa [hx] using h.edges x

theorem same_setNode {m n : Marks σ} (h : Same m n) (p : ℕ × σ → Prop) [DecidablePred p] :
    Same { m with nmark := fun x => if p x then m.marker else m.nmark x } { n with nmark := fun x => if p x then n.marker else n.nmark x } := by
  refine ⟨h.edges, fun x => ?_⟩
  by_cases hx : p x
  · simp [hx]
  · simpa [hx] using h.nodes x

theorem same_markNode {m n : Marks σ} (h : Same m n) (g : DGraph σ) (v : ℕ) (ls : List σ) : Same (markNode g m v ls) (markNode g n v ls) := same_setNode h _

theorem same_edgeMarked {m n : Marks σ} (h : Same m n) (g : DGraph σ) (u v : ℕ) (l : σ) : edgeMarked g m u v l = edgeMarked g n u v l := by
  unfold edgeMarked
  split
  · rfl
  · simp only [h.edges]

theorem same_anyMarked {m n : Marks σ} (h : Same m n) (g p : DGraph σ) (e : Embedding) (L : List (ℕ × ℕ)) : anyMarked g p m e L = anyMarked g p n e L := by
  induction L with
  | nil => rfl
  | cons x t ih =>
    obtain ⟨a, b⟩ := x
    have hf : edgeMarked g m (keyOf e a) (keyOf e b) = edgeMarked g n (keyOf e a) (keyOf e b) := funext (fun l => same_edgeMarked h ..)
    rw [anyMarked, anyMarked, ih, hf]

theorem same_embMarked {m n : Marks σ} (h : Same m n) (g p : DGraph σ) (e : Embedding) : embMarked g p m e = embMarked g p n e := by
  unfold embMarked
  rw [same_anyMarked h]

theorem same_markLabels {m n : Marks σ} (h : Same m n) (g : DGraph σ) (u v : ℕ) (ls : List σ) : SameM (markLabels g u v ls m) (markLabels g u v ls n) := by
  induction ls generalizing m n with
  | nil => exact h
  | cons l t ih =>
    refine SameM.bind ?_ (fun a b hab => ih hab)
    unfold markEdge
    split
    · exact same_setEdge h _
    · rfl

theorem same_markEdges {m n : Marks σ} (h : Same m n) (g p : DGraph σ) (e : Embedding) (L : List (ℕ × ℕ)) : SameM (markEdges g p e L m) (markEdges g p e L n) := by
  induction L generalizing m n with
  | nil => exact h
  | cons x t ih =>
    obtain ⟨a, b⟩ := x
    rw [markEdges, markEdges]
    refine SameM.bind ?_ (fun a' b' hab => ih (same_markNode (same_markNode hab ..) ..))
    split
    · exact same_markLabels h ..
    · split
      · rfl
      · exact h

theorem same_searchPort {m n : Marks σ} (h : Same m n) (g p : DGraph σ) (e : Embedding) : searchPort g p m e = searchPort g p n e := by
  unfold searchPort allLabelsMarked
  simp only [h.nodes]

theorem same_coverEmbs {m n : Marks σ} (h : Same m n) (g p : DGraph σ) (i : ℕ) (es : List Embedding) : SameR (coverEmbs g p i es m) (coverEmbs g p i es n) := by
  induction es generalizing m n with
  | nil => exact ⟨h, rfl⟩
  | cons e t ih =>
    rw [coverEmbs, coverEmbs, same_embMarked h]
    cases embMarked g p n e with
    | error s => exact rfl
    | ok b => cases b with
      | true => exact ih h
      | false =>
        show SameR ((markEmb g p m e).bind _) ((markEmb g p n e).bind _)
        have hm := same_markEdges h g p e (edgesIn e p)
        unfold markEmb
        cases hx : markEdges g p e (edgesIn e p) m with
        | error s =>
          cases hy : markEdges g p e (edgesIn e p) n with
          | error s' => rw [hx, hy] at hm; exact hm
          | ok b => rw [hx, hy] at hm; exact hm.elim
        | ok a =>
          cases hy : markEdges g p e (edgesIn e p) n with
          | error s' => rw [hx, hy] at hm; exact hm.elim
          | ok b =>
            rw [hx, hy] at hm
            have hm : Same a b := hm
            show SameR ((coverEmbs g p i t a).map _) ((coverEmbs g p i t b).map _)
            rw [same_searchPort hm]
            exact (ih hm).map (fun a b h1 h2 => ⟨h1, by rw [h2]⟩)

theorem same_coverVerts {m n : Marks σ} (h : Same m n) (g p : DGraph σ) (i : ℕ) (e : Embedding) (L : List (ℕ × ℕ)) : SameR (coverVerts g p i e L m) (coverVerts g p i e L n) := by
  induction L generalizing m n with
  | nil => exact ⟨h, rfl⟩
  | cons x t ih =>
    obtain ⟨v, a⟩ := x
    rw [coverVerts, coverVerts]
    split
    · rfl
    · split
      · rfl
      · simp only [h.nodes]
        split
        · exact ih h
        · rw [same_searchPort h]
          exact (ih (same_markNode h ..)).map (fun a b h1 h2 => ⟨h1, by rw [h2]⟩)

theorem same_coverNodes {m n : Marks σ} (h : Same m n) (g p : DGraph σ) (i : ℕ) (es : List Embedding) : SameR (coverNodes g p i es m) (coverNodes g p i es n) := by
  induction es generalizing m n with
  | nil => exact ⟨h, rfl⟩
  | cons e t ih =>
    refine (same_coverVerts h g p i e e).bind (fun a b h1 h2 => ?_)
    rw [h2]
    exact (ih h1).map (fun a b h1 h2 => ⟨h1, by rw [h2]⟩)

theorem same_coverRows {m n : Marks σ} (h : Same m n) (g : DGraph σ) (i : ℕ) (rows : List (Row σ)) : SameR (coverRows g i rows m) (coverRows g i rows n) := by
  induction rows generalizing m n i with
  | nil => exact ⟨h, rfl⟩
  | cons r t ih =>
    refine SameR.bind (x := rowCover g i r m) (y := rowCover g i r n) ?_ (fun a b h1 h2 => ?_)
    · unfold rowCover
      split
      · exact same_coverEmbs h ..
      · exact same_coverNodes h ..
    · rw [h2]
      exact (ih h1 (i + 1)).map (fun a b h1 h2 => ⟨h1, by rw [h2]⟩)

theorem same_singleEdges {m n : Marks σ} (h : Same m n) (g : DGraph σ) (L : List (ℕ × ℕ × σ)) : Same (singleEdges g L m).1 (singleEdges g L n).1 ∧ (singleEdges g L m).2 = (singleEdges g L n).2 := by
  induction L generalizing m n with
  | nil => exact ⟨h, rfl⟩
  | cons x t ih =>
    obtain ⟨u, v, l⟩ := x
    rw [singleEdges, singleEdges, same_edgeMarked h]
    split
    · exact ih h
    · have := ih (same_setEdge h (fun x => x = (u, v, l)))
      exact ⟨this.1, congrArg (Piece.edge u v l :: ·) this.2⟩

theorem same_singleLabels {m n : Marks σ} (h : Same m n) (v : ℕ) (L : List σ) : Same (singleLabels v L m).1 (singleLabels v L n).1 ∧ (singleLabels v L m).2 = (singleLabels v L n).2 := by
  induction L generalizing m n with
  | nil => exact ⟨h, rfl⟩
  | cons l t ih =>
    rw [singleLabels, singleLabels]
    simp only [h.nodes]
    split
    · exact ih h
    · have := ih (same_setNode h (fun x => x = (v, l)))
      exact ⟨this.1, congrArg (Piece.vertex v l :: ·) this.2⟩

theorem same_singleNodes {m n : Marks σ} (h : Same m n) (L : List (ℕ × List σ)) : Same (singleNodes L m).1 (singleNodes L n).1 ∧ (singleNodes L m).2 = (singleNodes L n).2 := by
  induction L generalizing m n with
  | nil => exact ⟨h, rfl⟩
  | cons x t ih =>
    obtain ⟨v, ls⟩ := x
    obtain ⟨h1, h2⟩ := same_singleLabels h v ls
    obtain ⟨h3, h4⟩ := ih h1
    exact ⟨h3, by rw [singleNodes, singleNodes, h2, h4]⟩

/-- The pieces of a cover, the used embeddings it adds and the error it raises do not depend on the covers of the same data graph made before, by this or another code table. -/
theorem cover_history (g : DGraph σ) (rows : List (Row σ)) (m n : Marks σ) (hm : History g m) (hn : History g n) : (cover g rows m).map Prod.snd = (cover g rows n).map Prod.snd := by
  have fresh : ∀ m : Marks σ, History g m → (∀ x, m.emark x ≠ m.marker + 1) ∧ ∀ x, m.nmark x ≠ m.marker + 1 := by
    intro m hm
    obtain ⟨h1, h2⟩ := hm.bound
    constructor
    · intro x; have := h1 x; omega
    · intro x; have := h2 x; omega
  have h : Same { m with marker := m.marker + 1 } { n with marker := n.marker + 1 } :=
    ⟨fun x => iff_of_false ((fresh m hm).1 x) ((fresh n hn).1 x), fun x => iff_of_false ((fresh m hm).2 x) ((fresh n hn).2 x)⟩
  have hr := same_coverRows h g 0 rows
  unfold cover
  cases hx : coverRows g 0 rows { m with marker := m.marker + 1 } with
  | error s =>
    cases hy : coverRows g 0 rows { n with marker := n.marker + 1 } with
    | error s' => rw [hx, hy] at hr; have hr : s = s' := hr; rw [hr]
    | ok b => rw [hx, hy] at hr; exact hr.elim
  | ok a =>
    cases hy : coverRows g 0 rows { n with marker := n.marker + 1 } with
    | error s' => rw [hx, hy] at hr; exact hr.elim
    | ok b =>
      rw [hx, hy] at hr
      obtain ⟨h1, h2⟩ := hr
      obtain ⟨h3, h4⟩ := same_singleEdges h1 g g.edges
      obtain ⟨_, h6⟩ := same_singleNodes h3 g.nodes
      show Except.ok (_, _) = Except.ok (_, _)
      rw [h2, h4, h6]

/-- A cover of the path after another one with another table. -/
example (m : Marks ℕ) (rows' : List (Row ℕ)) (ps : List (Piece ℕ)) (h : cover pathGraph [] Marks.fresh = .ok (m, rows', ps)) :
    m.marker ≠ 0 ∧ (cover pathGraph [pathRow] m).map Prod.snd = (cover pathGraph [pathRow] Marks.fresh).map Prod.snd := by
  refine ⟨?_, cover_history _ _ _ _ (.cover _ _ _ _ _ .fresh h) .fresh⟩
  have h4 : (cover pathGraph [] Marks.fresh).map (fun x => x.1.marker) = .ok 1 := rfl
  rw [h] at h4
  rw [show m.marker = 1 from Except.ok.inj h4]
  omega

end Verif.Graph
