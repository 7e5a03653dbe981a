import Verif.Graph.PreqModel
import Verif.Graph.NumModel
import Verif.Graph.RewriteModel

/-!
# The description of the rewritten graph: model

Source: `/repo/skmine/graph/graphmdl/code_table.py:142-184, 753-846`. Floats are real numbers.
-/

set_option autoImplicit false

namespace Verif.Graph

variable {σ : Type} [DecidableEq σ]

/-- What a node of the rewritten graph stands for: a row of the table, an edge label or a vertex label. -/
inductive PKind (σ : Type) where
  | row (i : ℕ)
  | edge (l : σ)
  | vertex (l : σ)
  deriving DecidableEq

/-- What a piece stands for. -/
def Piece.kind : Piece σ → PKind σ
  | .emb i _ _ => .row i
  | .edge _ _ l => .edge l
  | .vertex _ l => .vertex l

/-- `cover_usage` of the row `i` at the end of `row_cover`, `code_table.py:763, 770, 786, 795`: one for every piece made for the row. -/
def rowUsage (ps : List (Piece σ)) (i : ℕ) : ℕ := (ps.filter (fun pc => decide (pc.kind = .row i))).length

/-- `port_usage` of the row `i`, `code_table.py:628-631, 764, 794`: how often each pattern vertex was a port, in order of first use. -/
def portUsage (ps : List (Piece σ)) (i : ℕ) : List (ℕ × ℕ) :=
  ((ps.filter (fun pc => decide (pc.kind = .row i))).flatMap (fun pc => pc.ports.map Prod.snd)).foldl (fun acc a => bump a acc) []

/-- The label of an edge singleton. -/
def Piece.edgeLabel? : Piece σ → Option σ
  | .edge _ _ l => some l
  | _ => none

/-- The label of a vertex singleton. -/
def Piece.vertexLabel? : Piece σ → Option σ
  | .vertex _ l => some l
  | _ => none

/-- `edge_singleton_usage`, `code_table.py:808, 814`. -/
def edgeUsage (ps : List (Piece σ)) : List (σ × ℕ) := (ps.filterMap Piece.edgeLabel?).foldl (fun acc l => bump l acc) []

/-- `vertex_singleton_usage`, `code_table.py:809, 830, 841`. -/
def vertexUsage (ps : List (Piece σ)) : List (σ × ℕ) := (ps.filterMap Piece.vertexLabel?).foldl (fun acc l => bump l acc) []

/-- `len(rewritten_graph.in_edges(x))`. -/
def RGraph.inDegree (rg : RGraph σ) (x : ℕ) : ℕ := (rg.edges.filter (fun e => decide (e.2.1 = x))).length

/-- The in-degrees of the ports, `code_table.py:171-174`. -/
def RGraph.portDegrees (rg : RGraph σ) : List ℕ := (rg.nodes.zipIdx.filter (fun n => !n.1.isPattern)).map (fun n => rg.inDegree (n.2 + 1))

/-- The rows with a usage, `code_table.py:158, 164, 178`. -/
def usedRows (n : ℕ) (ps : List (Piece σ)) : List ℕ := (List.range n).filter (fun i => decide (rowUsage ps i ≠ 0))

/-- The number of edges of every node, `code_table.py:156-161`. -/
noncomputable def edgesPerVertex (n : ℕ) (ps : List (Piece σ)) : ℝ :=
  (((usedRows n ps).map (fun i => (rowUsage ps i : ℝ) * Real.logb 2 ((portUsage ps i).length + 1))) ++ (vertexUsage ps).map (fun x => (x.2 : ℝ) * Real.logb 2 (1 + 1))
    ++ (edgeUsage ps).map (fun x => (x.2 : ℝ) * Real.logb 2 (2 + 1))).sum

/-- `edges_label`, `code_table.py:177-180`: for a row, the keys of the port usage (numbers of pattern vertices) are passed in place of the usages. -/
def edgesLabel (n : ℕ) (ps : List (Piece σ)) : List (List ℕ) :=
  (usedRows n ps).map (fun i => (portUsage ps i).map Prod.fst) ++ (edgeUsage ps).map (fun x => [x.2, x.2])

/-- `compute_rewritten_graph_description`, `code_table.py:142-184`, after a cover by `n` rows that made the pieces `ps` and the rewritten graph `rg`. -/
noncomputable def rewriteDesc (n : ℕ) (ps : List (Piece σ)) (rg : RGraph σ) : Except String ℝ :=
  if rg.nodes = [] then .error "ValueError"
  else (universalInt0 ((rg.nodes.filter (fun x => x.isPattern)).length : ℕ)).bind (fun a =>
    (prequential ((usedRows n ps).map (rowUsage ps) ++ (vertexUsage ps).map Prod.snd ++ (edgeUsage ps).map Prod.snd) (1 / 2)).bind (fun b =>
    (prequential rg.portDegrees (1 / 2)).bind (fun c =>
    ((edgesLabel n ps).mapM (fun l => prequential l (1 / 2))).bind (fun d =>
      .ok (a + Real.logb 2 ((rg.nodes.filter (fun x => !x.isPattern)).length + 1) + edgesPerVertex n ps + b + c + d.sum)))))

end Verif.Graph
