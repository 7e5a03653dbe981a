import Verif.Graph.EncodeModel
import Verif.Graph.MergeSpec
import Mathlib.Data.Finset.Dedup

/-!
# Description of patterns: specification
-/

set_option autoImplicit false

namespace Verif.Graph

variable {σ : Type} [DecidableEq σ]

/-- The vertex has the label. -/
def LGraph.HasV (p : LGraph σ) (v : ℕ) (l : σ) : Prop := ∃ n ∈ p.nodes, n.1 = v ∧ l ∈ n.2.names

/-- There is an edge with the label. -/
def LGraph.HasE (p : LGraph σ) (u v : ℕ) (l : σ) : Prop := ∃ e ∈ p.edges, e.1 = u ∧ e.2.1 = v ∧ l ∈ e.2.2.names

/-- The same pattern: as many vertices (numbered from 1), the same labels on vertices and edges. -/
def LGraph.Same (p q : LGraph σ) : Prop := p.nodes.length = q.nodes.length ∧ (∀ v l, p.HasV v l ↔ q.HasV v l) ∧ ∀ u v l, p.HasE u v l ↔ q.HasE u v l

/-- A pattern that is described by its labelled vertices and labelled edges: no label is written twice on a vertex, no edge occurs twice with the same label. -/
structure Tidy (p : LGraph σ) : Prop where
  hash : p.Hashable
  verts : p.verts = List.range' 1 p.nodes.length
  ends : ∀ e ∈ p.edges, e.1 ∈ p.verts ∧ e.2.1 ∈ p.verts
  vonce : ∀ n ∈ p.nodes, n.2.names.Nodup
  eonce : (p.edges.flatMap (fun e => e.2.2.names.map (fun l => (e.1, e.2.1, l)))).Nodup

/-- The labels of the pattern are labels of the data, at vertices or at edges. -/
def FromData (g p : LGraph σ) : Prop := (∀ l ∈ p.vertexNames, l ∈ g.vertexNames) ∧ ∀ l ∈ p.edgeNames, l ∈ g.edgeNames

/-- The number of labels as `get_total_label` counts them (C45): the edges whose label is a vertex label are left out. -/
def LGraph.total (g : LGraph σ) : ℕ := g.vertexNames.length + (g.edgeNames.filter (fun s => decide (s ∉ g.vertexNames))).length

/-- The vertices with a label. -/
def vset (p : LGraph σ) (l : σ) : Finset ℕ := ((p.nodes.filter (fun n => decide (l ∈ n.2.names))).map Prod.fst).toFinset

/-- The pairs of vertices joined by an edge with the label. -/
def eset (p : LGraph σ) (l : σ) : Finset (ℕ × ℕ) := ((p.edges.filter (fun e => decide (l ∈ e.2.2.names))).map (fun e => (e.1, e.2.1))).toFinset

end Verif.Graph
