import Verif.Graph.CoverModel

/-!
# The rewritten graph of GraphMDL: model

Source: `/repo/skmine/graph/graphmdl/code_table.py:689-751`. The rewritten graph is a `nx.DiGraph` whose nodes are numbered 1, 2, … in order of creation.
-/

set_option autoImplicit false

namespace Verif.Graph

variable {σ : Type} [DecidableEq σ]

/-- How names are written: `P{i}` for the row `i` (`code_table.py:699`), `str(v)` for the data vertex `v` (`code_table.py:745`). Labels are strings too, of the same type. -/
structure Names (σ : Type) where
  row : ℕ → σ
  vertex : ℕ → σ

/-- A node of the rewritten graph: attributes `label`, `is_Pattern`, `is_singleton`. -/
structure RNode (σ : Type) where
  label : σ
  isPattern : Bool
  isSingleton : Bool
  deriving DecidableEq

/-- The rewritten graph: the node number `i` is at position `i - 1`; an edge goes from a node to a node, its label `v3` is 3. -/
structure RGraph (σ : Type) where
  nodes : List (RNode σ)
  edges : List (ℕ × ℕ × ℕ)

/-- `add_edge` between existing nodes: an edge with the same ends gets the new label. -/
def RGraph.addEdge (rg : RGraph σ) (x y a : ℕ) : RGraph σ :=
  { rg with edges := if rg.edges.any (fun e => decide (e.1 = x ∧ e.2.1 = y)) then rg.edges.map (fun e => if e.1 = x ∧ e.2.1 = y then (x, y, a) else e) else rg.edges ++ [(x, y, a)] }

/-- `create_rewrite_edge`, `code_table.py:735-751`: the port is the first node, of any kind, whose label is the name of the data vertex; it is created if there is none. -/
def rewriteEdge (nm : Names σ) (x : ℕ) (rg : RGraph σ) (port : ℕ × ℕ) : RGraph σ :=
  let i := rg.nodes.findIdx (fun n => decide (n.label = nm.vertex port.1))
  if i < rg.nodes.length then rg.addEdge x (i + 1) port.2
  else RGraph.addEdge { rg with nodes := rg.nodes ++ [⟨nm.vertex port.1, false, false⟩] } x (rg.nodes.length + 1) port.2

/-- The node made for a piece of the cover, `code_table.py:700, 705, 711, 721, 733`. -/
def Piece.node (nm : Names σ) : Piece σ → RNode σ
  | .emb i _ _ => ⟨nm.row i, true, false⟩
  | .edge _ _ l => ⟨l, true, true⟩
  | .vertex _ l => ⟨l, true, true⟩

/-- The ports of the node made for a piece: pairs (data vertex, pattern vertex), `code_table.py:701, 707, 722, 734-735`. -/
def Piece.ports : Piece σ → List (ℕ × ℕ)
  | .emb _ _ ports => ports
  | .edge u v _ => [(u, 1), (v, 2)]
  | .vertex v _ => [(v, 1)]

/-- `create_pattern_node`, `create_vertex_singleton_node`, `create_edge_singleton_node`, `code_table.py:689-733`: a new node, then one edge per port. -/
def addPiece (nm : Names σ) (rg : RGraph σ) (n : RNode σ) (ports : List (ℕ × ℕ)) : RGraph σ :=
  ports.foldl (rewriteEdge nm (rg.nodes.length + 1)) { rg with nodes := rg.nodes ++ [n] }

/-- The rewritten graph after `cover`, `code_table.py:96-101`: the nodes are made in the order of the pieces. -/
def rewriteGraph (nm : Names σ) (ps : List (Piece σ)) : RGraph σ :=
  ps.foldl (fun rg pc => addPiece nm rg (pc.node nm) pc.ports) ⟨[], []⟩

end Verif.Graph
