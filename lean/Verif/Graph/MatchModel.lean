import Verif.Graph.MergeSpec

/-!
# Matching a pattern with the data graph of GraphMDL: model

Source: `/repo/skmine/graph/graphmdl/utils.py:283-379, 684-737`. The search of networkx (`subgraph_monomorphisms_iter`, `isomorphisms_iter`) is not modelled: it is taken to return the maps that pass its tests, which call the two
comparison functions. Directed graphs and directed multigraphs.
-/

set_option autoImplicit false

namespace Verif.Graph

variable {σ : Type} [DecidableEq σ]

/-- The `label` attribute of a vertex. -/
def LGraph.labelAt (g : LGraph σ) (v : ℕ) : Label σ := (g.nodes.lookup v).getD .none

/-- `_node_match(node1, node2)`, `/repo/skmine/graph/graphmdl/utils.py:283-309`: `d` is the label of the data vertex, `p` that of the pattern vertex. -/
def nodeMatch : Label σ → Label σ → Bool
  | _, .none => true
  | .none, _ => false
  | .str a, .str b => decide (a = b)
  | .tuple l, .str b => decide (b ∈ l)
  | .list l, .str b => decide (b ∈ l)
  | .tuple l, .tuple k => k.all (fun i => decide (i ∈ l))
  | .tuple l, .list k => k.all (fun i => decide (i ∈ l))
  | .list l, .tuple k => k.all (fun i => decide (i ∈ l))
  | .list l, .list k => k.all (fun i => decide (i ∈ l))
  | .str _, _ => false

/-- `_edge_match(edge1, edge2)`, `/repo/skmine/graph/graphmdl/utils.py:312-325`. When a label is missing the exception is returned, not raised, and an exception object counts as true. -/
def edgeMatch (d p : Label σ) : Bool := if d ≠ .none ∧ p ≠ .none then decide (d = p) else true

/-- `_edge_match_for_multigraph(edge1, edge2)`, `/repo/skmine/graph/graphmdl/utils.py:328-345`, on the labels of the parallel edges: only the first of each side is read. Here the exception is raised. -/
def edgeMatchMulti (d p : List (Label σ)) : Except String Bool :=
  match d.head?, p.head? with
  | some a, some b => if a ≠ .none ∧ b ≠ .none then .ok (decide (a = b)) else .error "ValueError"
  | _, _ => .error "IndexError"

/-- The labels of the parallel edges from `u` to `v`, in order. -/
def LGraph.edgeData (g : LGraph σ) (u v : ℕ) : List (Label σ) := (g.edges.filter (fun e => decide (e.1 = u ∧ e.2.1 = v))).map (fun e => e.2.2)

/-- The comparison of the edges between two pairs of vertices as called by networkx. -/
def edgesMatch (multi : Bool) (d p : List (Label σ)) : Except String Bool :=
  if multi then edgeMatchMulti d p
  else match d.head?, p.head? with
    | some a, some b => .ok (edgeMatch a b)
    | _, _ => .error "IndexError"

/-- The embeddings returned by `get_embeddings`, `/repo/skmine/graph/graphmdl/utils.py:348-379`, as maps from the pattern to the data (the code has the inverse dictionaries): the tests of networkx for monomorphisms. Different vertices,
at least as many parallel edges, and the two comparison functions. -/
structure Found (multi : Bool) (d p : LGraph σ) (h : ℕ → ℕ) : Prop where
  verts : ∀ a ∈ p.verts, h a ∈ d.verts
  inj : ∀ a ∈ p.verts, ∀ b ∈ p.verts, h a = h b → a = b
  number : ∀ a ∈ p.verts, ∀ b ∈ p.verts, (p.edgeData a b).length ≤ (d.edgeData (h a) (h b)).length
  nodes : ∀ a ∈ p.verts, nodeMatch (d.labelAt (h a)) (p.labelAt a) = true
  edges : ∀ a ∈ p.verts, ∀ b ∈ p.verts, p.edgeData a b ≠ [] → edgesMatch multi (d.edgeData (h a) (h b)) (p.edgeData a b) = .ok true

/-- The tests of networkx for isomorphisms of simple graphs, with the comparison functions of `is_isomorphic` and `get_automorphisms`, `/repo/skmine/graph/graphmdl/utils.py:684-737`. -/
structure IsoFound (d p : LGraph σ) (h : ℕ → ℕ) : Prop where
  found : Found false d p h
  onto : ∀ v ∈ d.verts, ∃ a ∈ p.verts, h a = v
  number : ∀ a ∈ p.verts, ∀ b ∈ p.verts, (p.edgeData a b).length = (d.edgeData (h a) (h b)).length

/-- `is_isomorphic(graph, pattern)`, `/repo/skmine/graph/graphmdl/utils.py:684-707`. -/
def isIsomorphic (d p : LGraph σ) : Prop := ∃ h : ℕ → ℕ, IsoFound d p h

/-- The members of `get_automorphisms(graph)`, `/repo/skmine/graph/graphmdl/utils.py:710-737`. -/
def IsAutomorphism (g : LGraph σ) (h : ℕ → ℕ) : Prop := IsoFound g g h

end Verif.Graph
