import Verif.Graph.JoinModel
import Verif.Graph.CoverHistory
import Verif.Graph.GenWitness

/-!
# Data graphs put together from graphs that were fitted before: property C135
-/

set_option autoImplicit false
set_option linter.unusedSectionVars false

namespace Verif.Graph

variable {σ : Type} [DecidableEq σ]

theorem mem_of_lookup {α : Type} : ∀ (L : List (ℕ × α)) (v : ℕ) (k : α), L.lookup v = some k → (v, k) ∈ L
  | [], _, _, h => by simp at h
  | (a, b) :: t, v, k, h => by
    by_cases e : v = a
    · subst e
      simp only [List.lookup_cons_self, Option.some.injEq] at h
      simp [h]
    · rw [List.lookup_cons, beq_eq_false_iff_ne.2 e] at h
      exact List.mem_cons_of_mem _ (mem_of_lookup t v k h)

theorem mem_nodes_of_label {g : DGraph σ} {v : ℕ} {l : σ} (h : l ∈ g.labels v) : ∃ ls, (v, ls) ∈ g.nodes ∧ l ∈ ls := by
  unfold DGraph.labels at h
  cases e : g.nodes.lookup v with
  | none => rw [e] at h; simp at h
  | some ls => rw [e] at h; exact ⟨ls, mem_of_lookup _ _ _ e, h⟩

/-- After covers of a graph, all its edges and labels carry the mark of the last one. -/
theorem History.all {g : DGraph σ} {m : Marks σ} (h : History g m) : (∀ x ∈ g.edges, m.emark x = m.marker) ∧ ∀ v l, l ∈ g.labels v → m.nmark (v, l) = m.marker := by
  cases h with
  | fresh => exact ⟨fun _ _ => rfl, fun _ _ _ => rfl⟩
  | cover m0 _ rows rows' ps _ hc =>
    obtain ⟨⟨rm, rr, rp⟩, h1, h2⟩ := map_ok hc
    simp only [Prod.mk.injEq] at h2
    obtain ⟨rfl, -, -⟩ := h2
    obtain ⟨s1, s2, -, -⟩ := singleEdges_step g ([] : List (Row σ)) g.edges (fun _ h => h) rm
    obtain ⟨n1, n2⟩ := singleNodes_step g.nodes (singleEdges g g.edges rm).1
    refine ⟨fun x hx => ?_, fun v l hl => ?_⟩
    · rw [n1.emark, s2 x hx, n1.marker, s1.marker]
    · obtain ⟨ls, k1, k2⟩ := mem_nodes_of_label hl
      rw [n2 _ k1 l k2, n1.marker]

/-- A cover reads nothing but whether marks are those of the new cover. -/
theorem cover_unmarked (g : DGraph σ) (rows : List (Row σ)) (m n : Marks σ) (hm : (∀ x, m.emark x ≠ m.marker + 1) ∧ ∀ x, m.nmark x ≠ m.marker + 1) (hn : (∀ x, n.emark x ≠ n.marker + 1) ∧ ∀ x, n.nmark x ≠ n.marker + 1) :
    (cover g rows m).map Prod.snd = (cover g rows n).map Prod.snd := by
  have h : Same { m with marker := m.marker + 1 } { n with marker := n.marker + 1 } := ⟨fun x => iff_of_false (hm.1 x) (hn.1 x), fun x => iff_of_false (hm.2 x) (hn.2 x)⟩
  have hr := same_coverRows h g 0 rows
  unfold cover
  cases hx : coverRows g 0 rows { m with marker := m.marker + 1 } with
  | error s =>
    cases hy : coverRows g 0 rows { n with marker := n.marker + 1 } with
    | error s' => rw [hx, hy] at hr; have hr : s = s' := hr; rw [hr]
    | ok b => rw [hx, hy] at hr; exact hr.elim
  | ok a =>
    cases hy : coverRows g 0 rows { n with marker := n.marker + 1 } with
    | error s' => rw [hx, hy] at hr; exact hr.elim
    | ok b =>
      rw [hx, hy] at hr
      obtain ⟨h1, h2⟩ := hr
      obtain ⟨h3, h4⟩ := same_singleEdges h1 g g.edges
      obtain ⟨_, h6⟩ := same_singleNodes h3 g.nodes
      show Except.ok (_, _) = Except.ok (_, _)
      rw [h2, h4, h6]

/-! ## C135 -/

/-- Full statement (C135): a cover of a graph put together from two graphs does not depend on whether these were fitted before. It is false (`union_loses`, `union_witness`). Proved: it holds unless the first graph was covered exactly
once more often than the second and both were covered. -/
theorem union_cover_partial (G H : DGraph σ) (m n : Marks σ) (hm : History G m) (hn : History H n) (hne : m.marker = n.marker + 1 → n.marker = 0) (rows : List (Row σ)) :
    (cover (G.union H) rows (Marks.union G H m n)).map Prod.snd = (cover (G.union H) rows Marks.fresh).map Prod.snd := by
  obtain ⟨m1, m2⟩ := hm.all
  obtain ⟨n1, n2⟩ := hn.all
  refine cover_unmarked _ _ _ _ ⟨fun x => ?_, fun x => ?_⟩ ⟨fun x => by simp [Marks.fresh], fun x => by simp [Marks.fresh]⟩
  · have h : (Marks.union G H m n).emark x = m.marker ∨ (Marks.union G H m n).emark x = n.marker ∨ (Marks.union G H m n).emark x = 0 := by
      simp only [Marks.union]
      split_ifs with h1 h2
      · exact .inl (m1 x h1)
      · exact .inr (.inl (n1 x h2))
      · exact .inr (.inr rfl)
    have h2 : (Marks.union G H m n).marker = if n.marker = 0 then m.marker else n.marker := rfl
    rw [h2]
    split_ifs <;> omega
  · have h : (Marks.union G H m n).nmark x = m.marker ∨ (Marks.union G H m n).nmark x = n.marker ∨ (Marks.union G H m n).nmark x = 0 := by
      simp only [Marks.union]
      split_ifs with h1 h2
      · exact .inl (m2 _ _ h1)
      · exact .inr (.inl (n2 _ _ h2))
      · exact .inr (.inr rfl)
    have h2 : (Marks.union G H m n).marker = if n.marker = 0 then m.marker else n.marker := rfl
    rw [h2]
    split_ifs <;> omega

/-- The exception: when the first graph was covered exactly once more often than the second, the first cover of `fit` on the graph put together from them (with the table without rows) leaves out all edges and all labels of the first
graph. -/
theorem union_loses (G H : DGraph σ) (m n : Marks σ) (hm : History G m) (hn : n.marker ≠ 0) (hone : m.marker = n.marker + 1) :
    ∃ r, cover (G.union H) [] (Marks.union G H m n) = .ok r ∧ (∀ pc ∈ r.2.2, ∀ x ∈ G.edges, pc.coversEdge [] x = false) ∧ ∀ v l, l ∈ G.labels v → Piece.vertex v l ∉ r.2.2 := by
  obtain ⟨m1, m2⟩ := hm.all
  refine ⟨_, rfl, ?_, ?_⟩
  all_goals obtain ⟨M, hM⟩ : ∃ M : Marks σ, M = { Marks.union G H m n with marker := (Marks.union G H m n).marker + 1 } := ⟨_, rfl⟩
  all_goals simp only [List.nil_append]
  all_goals rw [← hM]
  all_goals obtain ⟨s1, -, s3, s4⟩ := singleEdges_step (G.union H) ([] : List (Row σ)) (G.union H).edges (fun _ h => h) M
  all_goals obtain ⟨k1, -⟩ := singleNodes_step (G.union H).nodes (singleEdges (G.union H) (G.union H).edges M).1
  · intro pc hpc x hx
    rcases List.mem_append.1 hpc with hpc | hpc
    · have h1 := s1.edges x
      have hx' : M.emark x = M.marker := by
        rw [hM]
        simp only [Marks.union, if_pos hx, if_neg hn]
        rw [m1 x hx, hone]
      rw [if_pos hx'] at h1
      have h0 : (singleEdges (G.union H) (G.union H).edges M).2.countP (fun pc => pc.coversEdge [] x) = 0 := by
        split_ifs at h1; omega
      rw [List.countP_eq_zero] at h0
      simpa using h0 pc hpc
    · obtain ⟨v, l, rfl⟩ := k1.verts pc hpc
      rfl
  · intro v l hl hpc
    rcases List.mem_append.1 hpc with hpc | hpc
    · obtain ⟨_, _, _, h⟩ := s4 _ hpc
      cases h
    · have h1 := k1.count (v, l)
      have hx' : (singleEdges (G.union H) (G.union H).edges M).1.nmark (v, l) = (singleEdges (G.union H) (G.union H).edges M).1.marker := by
        rw [s3, s1.marker, hM]
        simp only [Marks.union, if_pos hl, if_neg hn]
        rw [m2 v l hl, hone]
      rw [if_pos hx'] at h1
      have h0 : (singleNodes (G.union H).nodes (singleEdges (G.union H) (G.union H).edges M).1).2.countP (fun pc => decide (pc = .vertex v l)) = 0 := by
        simp only at h1
        split_ifs at h1; omega
      rw [List.countP_eq_zero] at h0
      simpa using h0 _ hpc

/-- Two edges in a row. -/
def joinFirst : DGraph ℕ := ⟨false, [(1, []), (2, []), (3, [])], [(1, 2, 7), (2, 3, 8)]⟩

/-- One edge. -/
def joinSecond : DGraph ℕ := ⟨false, [(4, []), (5, [])], [(4, 5, 9)]⟩

/-- The marks after a number of covers with the table without rows. -/
def coveredTimes (g : DGraph ℕ) : ℕ → Marks ℕ
  | 0 => Marks.fresh
  | k + 1 => (singleNodes g.nodes (singleEdges g g.edges { coveredTimes g k with marker := (coveredTimes g k).marker + 1 }).1).1

theorem coveredTimes_history (g : DGraph ℕ) : ∀ k, History g (coveredTimes g k)
  | 0 => .fresh
  | k + 1 => .cover _ _ [] [] _ (coveredTimes_history g k) rfl

/-- C135 is false: two edges in a row, covered three times, and another edge, covered twice. The first cover of both together describes one edge only and no candidate is generated; on new graphs three edges are described and the two
edges in a row are a candidate. -/
theorem union_witness : ∃ m n, History joinFirst m ∧ History joinSecond n ∧ m.marker = 3 ∧ n.marker = 2 ∧ (∀ x ∈ joinFirst.nodes, ∀ y ∈ joinSecond.nodes, x.1 ≠ y.1) ∧
    (∃ r, cover (joinFirst.union joinSecond) [] (Marks.union joinFirst joinSecond m n) = .ok r ∧ r.2.2 = [.edge 4 5 9] ∧ generate (witnessEnv 0 [9] []) (rewriteGraph witnessNames r.2.2) = .ok []) ∧
    ∃ r c, cover (joinFirst.union joinSecond) [] Marks.fresh = .ok r ∧ r.2.2 = [.edge 1 2 7, .edge 2 3 8, .edge 4 5 9] ∧ generate (witnessEnv 0 [7, 8, 9] []) (rewriteGraph witnessNames r.2.2) = .ok [c] := by
  refine ⟨coveredTimes joinFirst 3, coveredTimes joinSecond 2, coveredTimes_history _ _, coveredTimes_history _ _, by decide +kernel, by decide +kernel, by decide, ⟨_, rfl, by decide +kernel, ?_⟩,
    ⟨_, ⟨7, 8, [(2, 1)], {3}, some (.edge 7), some (.edge 8), 1, 1⟩, rfl, by decide +kernel, ?_⟩⟩
  · exact toOption_ok (by decide +kernel)
  · exact toOption_ok (by decide +kernel)

/-- The hypotheses of `union_cover_partial` hold for graphs that were fitted equally often, and the cover describes all edges. -/
example : ∃ r, cover (joinFirst.union joinSecond) [] (Marks.union joinFirst joinSecond (coveredTimes joinFirst 2) (coveredTimes joinSecond 2)) = .ok r ∧ r.2.2.length = 3 := by
  have h := union_cover_partial joinFirst joinSecond _ _ (coveredTimes_history joinFirst 2) (coveredTimes_history joinSecond 2) (by decide +kernel) []
  refine ⟨_, rfl, ?_⟩
  have h2 : ((cover (joinFirst.union joinSecond) [] Marks.fresh).map Prod.snd).toOption.map (fun x => x.2.length) = some 3 := by decide +kernel
  rw [← h] at h2
  exact Option.some.inj h2

end Verif.Graph
