import Verif.Graph.MergeModel
import Verif.Graph.LabelProps

/-!
# Merging two patterns of GraphMDL: specification
-/

set_option autoImplicit false

namespace Verif.Graph

variable {σ : Type} [DecidableEq σ]

/-- The vertices of a graph. -/
def LGraph.verts (g : LGraph σ) : List ℕ := g.nodes.map Prod.fst

/-- The labels of a vertex. -/
def LGraph.namesAt (g : LGraph σ) (v : ℕ) : List σ := ((g.nodes.lookup v).map Label.names).getD []

/-- A pattern as the search makes them: the vertices are numbered from 1, the edges join two different vertices and are labelled, two edges have different ends unless the graph is a multigraph. -/
structure IsPattern (multi : Bool) (g : LGraph σ) : Prop where
  verts : g.verts = List.range' 1 g.nodes.length
  ends : ∀ e ∈ g.edges, e.1 ∈ g.verts ∧ e.2.1 ∈ g.verts ∧ e.1 ≠ e.2.1
  labelled : ∀ e ∈ g.edges, e.2.2 ≠ .none
  simple : multi = false → (g.edges.map (fun e => (e.1, e.2.1))).Nodup

/-- The ports match vertices of the first pattern with vertices of the second, each at most once. -/
structure PortsOk (p q : LGraph σ) (ports : List (ℕ × ℕ)) : Prop where
  firsts : (ports.map Prod.fst).Nodup
  seconds : (ports.map Prod.snd).Nodup
  mem : ∀ x ∈ ports, x.1 ∈ p.verts ∧ x.2 ∈ q.verts

/-- No two shared vertices are joined by an edge of both patterns. -/
def NoCommonEdge (p q : LGraph σ) (ports : List (ℕ × ℕ)) : Prop :=
  ∀ e ∈ p.edges, ∀ e' ∈ q.edges, ¬((e.1, e'.1) ∈ ports ∧ (e.2.1, e'.2.1) ∈ ports)

/-- An occurrence of a pattern in a data graph: vertices go to different vertices of the data, which have their labels, edges to edges with their label. -/
structure Occurs (d p : LGraph σ) (h : ℕ → ℕ) : Prop where
  verts : ∀ a ∈ p.verts, h a ∈ d.verts
  inj : ∀ a ∈ p.verts, ∀ b ∈ p.verts, h a = h b → a = b
  labels : ∀ a ∈ p.verts, ∀ l ∈ p.namesAt a, l ∈ d.namesAt (h a)
  edges : ∀ e ∈ p.edges, (h e.1, h e.2.1, e.2.2) ∈ d.edges

end Verif.Graph
