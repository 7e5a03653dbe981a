import Verif.Graph.AtModel
import Mathlib.Tactic.Ring

/-!
# One label of a vertex: properties (C165)
-/

set_option autoImplicit false
set_option linter.unusedSectionVars false

namespace Verif.Graph

variable {σ : Type} [DecidableEq σ]

theorem mem_nodes_lookup (ns : List (ℕ × Label σ)) (k : ℕ) : ns.lookup k = none ↔ k ∉ ns.map Prod.fst := by
  rw [List.lookup_eq_none_iff]
  simp only [bne_iff_ne, List.mem_map, not_exists, not_and]
  exact ⟨fun h p hp he => h p hp he.symm, fun h p hp he => h p hp he.symm⟩

/-- C165. The index of a label is its first position; a label that is not there raises. -/
theorem label_index (label : σ) (values : List σ) :
    (label ∉ values → labelIndex label values = .error .valueError) ∧
    (label ∈ values → ∃ i, labelIndex label values = .ok i ∧ values[i]? = some label ∧ ∀ j < i, values[j]? ≠ some label) := by
  refine ⟨fun h => if_neg h, fun h => ⟨values.idxOf label, if_pos h, ?_, fun j hj hc => ?_⟩⟩
  · rw [List.getElem?_eq_getElem (List.idxOf_lt_length_of_mem h), List.getElem_idxOf]
  · obtain ⟨hlt, he⟩ := List.getElem?_eq_some_iff.1 hc
    have := List.not_of_lt_findIdx (p := (· == label)) (xs := values) hj
    rw [he] at this
    simp at this

/-- C165 for indices in bounds (missing: indices out of bounds, `index_past_end`). The label of a vertex with a tuple of labels at an index is the one at this position, or from the end for a negative index; a vertex that is
not in the graph raises. -/
theorem node_label_partial (g : LGraph σ) (key : ℕ) :
    (key ∉ g.nodes.map Prod.fst → ∀ i, nodeLabelAt g key i = .error .valueError) ∧
    ∀ l : List σ, g.nodes.lookup key = some (.tuple l) → ∀ (j : ℕ) (s : σ), l[j]? = some s →
      nodeLabelAt g key j = .ok (.str s) ∧ nodeLabelAt g key ((j : ℤ) - l.length) = .ok (.str s) := by
  refine ⟨fun h i => by unfold nodeLabelAt; rw [(mem_nodes_lookup _ _).2 h], fun l hl j s hs => ?_⟩
  obtain ⟨hj, -⟩ := List.getElem?_eq_some_iff.1 hs
  unfold nodeLabelAt
  rw [hl]
  simp only
  constructor
  · rw [if_pos (by exact_mod_cast hj)]
    unfold pyAt
    rw [if_pos (by omega), Int.toNat_natCast, hs, decide_eq_true (by omega)]
  · rw [if_pos (by omega)]
    unfold pyAt
    rw [if_neg (by omega), show ((j : ℤ) - l.length + l.length) = j by ring, Int.toNat_natCast, hs, decide_eq_true (by omega)]

/-- C165. The two functions fit together: the label at the index of a label is this label. -/
theorem label_index_at (g : LGraph σ) (key : ℕ) (l : List σ) (h : g.nodes.lookup key = some (.tuple l)) (s : σ) (i : ℕ) (hi : labelIndex s l = .ok i) :
    nodeLabelAt g key i = .ok (.str s) := by
  have hs : s ∈ l := by
    by_contra hs
    rw [(label_index s l).1 hs] at hi
    cases hi
  obtain ⟨i', h1, h2, _⟩ := (label_index s l).2 hs
  rw [hi] at h1
  cases h1
  exact ((node_label_partial g key).2 l h i s h2).1

/-- C165 fails: an index past the last label of a vertex does not raise the announced error, the whole tuple is returned instead. -/
theorem index_past_end (g : LGraph σ) (key : ℕ) (l : List σ) (h : g.nodes.lookup key = some (.tuple l)) (i : ℤ) (hi : (l.length : ℤ) ≤ i) :
    nodeLabelAt g key i = .ok (.tuple l) := by
  unfold nodeLabelAt
  rw [h]
  simp only
  rw [if_neg (by omega)]

/-- C165. An index before the first label raises, but not the announced error. -/
theorem index_before_start (g : LGraph σ) (key : ℕ) (l : List σ) (h : g.nodes.lookup key = some (.tuple l)) (i : ℤ) (hi : i < -(l.length : ℤ)) :
    nodeLabelAt g key i = .error .indexError := by
  unfold nodeLabelAt
  rw [h]
  simp only
  rw [if_pos (by omega)]
  unfold pyAt
  rw [decide_eq_false (by omega)]
  split
  · next h => cases h
  · rfl

/-- C165 fails: the labels of a vertex given as one string or as a list are returned whole, whatever the index. -/
theorem index_ignored (g : LGraph σ) (key : ℕ) (i : ℤ) (s : σ) (l : List σ) :
    (g.nodes.lookup key = some (.str s) → nodeLabelAt g key i = .ok (.str s)) ∧
    (g.nodes.lookup key = some (.list l) → nodeLabelAt g key i = .ok (.list l)) := by
  constructor <;> (intro h; unfold nodeLabelAt; rw [h])

/-- Vertex 1 has the labels `a = 10`, `b = 11`: index 1 is `b`, index -1 as well, index 6 returns both labels; vertex 5 does not exist. -/
example : let g : LGraph ℕ := ⟨[(1, .tuple [10, 11]), (2, .none)], []⟩
    nodeLabelAt g 1 1 = .ok (.str 11) ∧ nodeLabelAt g 1 (-1) = .ok (.str 11) ∧ nodeLabelAt g 1 6 = .ok (.tuple [10, 11]) ∧
      nodeLabelAt g 1 (-3) = .error .indexError ∧ nodeLabelAt g 5 0 = .error .valueError ∧ labelIndex 11 [10, 11, 11] = .ok 1 :=
  ⟨rfl, rfl, rfl, rfl, rfl, rfl⟩

end Verif.Graph
