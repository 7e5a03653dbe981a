import Verif.Graph.DescModel

/-!
# Code lengths of the patterns, and the patterns returned: model

Source: `/repo/skmine/graph/graphmdl/code_table_row.py:110-138`, `/repo/skmine/graph/graphmdl/code_table.py:245-283`, `/repo/skmine/graph/graphmdl/graph_mdl.py:255-275`. Floats are real numbers.
-/

set_option autoImplicit false

namespace Verif.Graph

variable {σ : Type} [DecidableEq σ]

/-- `_compute_usage_sum`, `code_table.py:245-262`, after a cover by `n` rows that made the pieces `ps`. -/
def usageSum (n : ℕ) (ps : List (Piece σ)) : ℕ := ((List.range n).map (rowUsage ps)).sum + ((vertexUsage ps).map Prod.snd).sum + ((edgeUsage ps).map Prod.snd).sum

/-- The code length of the row `i`, `code_table_row.py:119-122`. -/
noncomputable def rowCode (n : ℕ) (ps : List (Piece σ)) (i : ℕ) : Except String ℝ :=
  if rowUsage ps i = 0 then .ok 0 else log2 (rowUsage ps i) (usageSum n ps)

/-- The code lengths of the ports of the row `i`, `code_table_row.py:124-138`; the test for `-0.0` has no effect on numbers. -/
noncomputable def portCodes (ps : List (Piece σ)) (i : ℕ) : Except String (List (ℕ × ℝ)) :=
  (portUsage ps i).mapM (fun x => if x.2 = 0 then .ok (x.1, 0) else (log2 x.2 ((portUsage ps i).map Prod.snd).sum).map (fun c => (x.1, c)))

/-- `d[k] = v`: an existing key keeps its place. -/
def putKey {α β : Type} [DecidableEq α] (k : α) (v : β) : List (α × β) → List (α × β)
  | [] => [(k, v)]
  | (a, b) :: t => if a = k then (a, v) :: t else (a, b) :: putKey k v t

/-- One loop of `_compute_singleton_code`, `code_table.py:271-276, 278-283`. -/
noncomputable def putCodes (total : ℕ) : List (σ × ℕ) → List (σ × ℝ) → Except String (List (σ × ℝ))
  | [], d => .ok d
  | (l, u) :: t, d => (log2 u total).bind (fun c => putCodes total t (putKey l c d))

/-- `_compute_singleton_code`, `code_table.py:264-283`: vertex labels and edge labels are keys of the same dictionary. -/
noncomputable def singletonCodes (n : ℕ) (ps : List (Piece σ)) : Except String (List (σ × ℝ)) :=
  (putCodes (usageSum n ps) (vertexUsage ps) []).bind (putCodes (usageSum n ps) (edgeUsage ps))

/-- `patterns`, `graph_mdl.py:255-275` with `create_singleton_pattern`, `utils.py:982-1004`: the rows with a code length other than 0, then a singleton for every key. Patterns are compared by identity, so that nothing is merged in the set. -/
noncomputable def patterns (n : ℕ) (ps : List (Piece σ)) : Except String (List (PKind σ)) :=
  ((List.range n).mapM (rowCode n ps)).bind (fun cs =>
    (singletonCodes n ps).map (fun d =>
      ((List.range n).filter (fun i => decide (cs.getD i 0 ≠ 0))).map .row ++ d.map (fun x => if x.1 ∈ (edgeUsage ps).map Prod.fst then .edge x.1 else .vertex x.1)))

end Verif.Graph
