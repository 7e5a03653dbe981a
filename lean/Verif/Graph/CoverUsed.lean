import Verif.Graph.OccPieces

/-!
# The used embeddings of a row after a cover
-/

set_option autoImplicit false
set_option linter.unusedSectionVars false

namespace Verif.Graph

variable {σ : Type} [DecidableEq σ]

/-- The embedding and the ports of a node of the rewritten graph made for the row `i`. -/
def Piece.madeFor (i : ℕ) : Piece σ → Option (Embedding × List (ℕ × ℕ))
  | .emb j e ports => if j = i then some (e, ports) else none
  | .edge _ _ _ => none
  | .vertex _ _ => none

theorem rowCover_pieces (g : DGraph σ) (i : ℕ) (row : Row σ) (m : Marks σ) (r : Marks σ × List (Piece σ)) (h : rowCover g i row m = .ok r) : ∀ pc ∈ r.2, ∃ e ports, pc = .emb i e ports := by
  intro pc hpc
  obtain ⟨j, row', h1, e, -, ports, h2, -⟩ := coverRows_search g [row] i m (r.1, [{ row with used := row.used ++ r.2.filterMap Piece.entry? }], r.2 ++ []) (by
    unfold coverRows
    rw [h]
    rfl) pc (by simpa using hpc)
  cases j with
  | zero => exact ⟨e, ports, h2⟩
  | succ j => simp at h1

theorem filterMap_none {α β : Type} (f : α → Option β) (l : List α) (h : ∀ x ∈ l, f x = none) : l.filterMap f = [] := by
  induction l with
  | nil => rfl
  | cons a t ih => rw [List.filterMap_cons, h a List.mem_cons_self, ih (fun x hx => h x (List.mem_cons_of_mem _ hx))]

theorem coverRows_used (g : DGraph σ) (rows : List (Row σ)) : ∀ (k : ℕ) (m : Marks σ) (r : Marks σ × List (Row σ) × List (Piece σ)), coverRows g k rows m = .ok r → r.2.1.length = rows.length ∧
    ∀ (j : ℕ) (row : Row σ), rows[j]? = some row → r.2.1[j]? = some { row with used := row.used ++ r.2.2.filterMap (Piece.madeFor (k + j)) } := by
  induction rows with
  | nil =>
    intro k m r h
    rw [← Except.ok.inj h]
    simp
  | cons x t ih =>
    intro k m r h
    obtain ⟨y, h1, h2⟩ := bind_ok h
    obtain ⟨z, h3, rfl⟩ := map_ok h2
    obtain ⟨h4, h5⟩ := ih (k + 1) y.1 z h3
    have hp := rowCover_pieces g k x m y h1
    have hz := coverRows_search g t (k + 1) y.1 z h3
    refine ⟨by simp [h4], ?_⟩
    intro j row hj
    cases j with
    | zero =>
      simp only [List.getElem?_cons_zero, Option.some.injEq] at hj
      subst hj
      have e1 : y.2.filterMap (Piece.madeFor (k + 0)) = y.2.filterMap Piece.entry? := by
        refine List.filterMap_congr ?_
        intro pc hpc
        obtain ⟨e, ports, rfl⟩ := hp pc hpc
        simp [Piece.madeFor, Piece.entry?]
      have e2 : z.2.2.filterMap (Piece.madeFor (k + 0)) = [] := by
        refine filterMap_none _ _ ?_
        intro pc hpc
        obtain ⟨j, -, -, e, -, ports, rfl, -⟩ := hz pc hpc
        simp only [Piece.madeFor]
        rw [if_neg (by omega)]
      rw [List.filterMap_append, e1, e2, List.append_nil]
      rfl
    | succ j =>
      rw [List.getElem?_cons_succ] at hj ⊢
      have e1 : y.2.filterMap (Piece.madeFor (k + (j + 1))) = [] := by
        refine filterMap_none _ _ ?_
        intro pc hpc
        obtain ⟨e, ports, rfl⟩ := hp pc hpc
        simp only [Piece.madeFor]
        rw [if_neg (by omega)]
      rw [h5 j row hj, List.filterMap_append, e1, List.nil_append, show k + 1 + j = k + (j + 1) from by omega]

/-- C42. A cover adds to the used embeddings of a row the embedding and the ports of every node made for the row in the rewritten graph, in their order, and changes nothing else in the row. -/
theorem cover_used (g : DGraph σ) (rows : List (Row σ)) (m : Marks σ) (r : Marks σ × List (Row σ) × List (Piece σ)) (h : cover g rows m = .ok r) : r.2.1.length = rows.length ∧
    ∀ (i : ℕ) (row : Row σ), rows[i]? = some row → r.2.1[i]? = some { row with used := row.used ++ r.2.2.filterMap (Piece.madeFor i) } := by
  obtain ⟨x, h1, rfl⟩ := map_ok h
  obtain ⟨h2, h3⟩ := coverRows_used g rows 0 _ x h1
  refine ⟨h2, ?_⟩
  intro i row hi
  have e1 : (singleEdges g g.edges x.1).2.filterMap (Piece.madeFor i) = [] := by
    refine filterMap_none _ _ ?_
    intro pc hpc
    obtain ⟨-, -, -, e2⟩ := singleEdges_step g rows g.edges (fun _ h => h) x.1
    obtain ⟨u, v, l, rfl⟩ := e2 _ hpc
    rfl
  have e2 : (singleNodes g.nodes (singleEdges g g.edges x.1).1).2.filterMap (Piece.madeFor i) = [] := by
    refine filterMap_none _ _ ?_
    intro pc hpc
    obtain ⟨s3, -⟩ := singleNodes_step g.nodes (singleEdges g g.edges x.1).1
    obtain ⟨v, l, rfl⟩ := s3.verts _ hpc
    rfl
  have h4 := h3 i row hi
  rw [Nat.zero_add] at h4
  simp only
  rw [h4, List.filterMap_append, List.filterMap_append, e1, e2, List.append_nil, List.append_nil]

/-- Two embeddings of a row, the second one added to the entry of an earlier cover. -/
example : (cover pathGraph [{ pathRow with used := [([], [])] }] Marks.fresh).toOption.map (fun x => x.2.1.map (fun r => r.used)) =
    (cover pathGraph [{ pathRow with used := [([], [])] }] Marks.fresh).toOption.map (fun x => [([], []) :: x.2.2.filterMap (Piece.madeFor 0)]) ∧
    (cover pathGraph [pathRow] Marks.fresh).toOption.map (fun x => (x.2.2.filterMap (Piece.madeFor 0)).length) = some 2 := by decide +kernel

end Verif.Graph
