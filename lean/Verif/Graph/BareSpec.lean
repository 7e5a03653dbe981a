import Verif.Graph.RelabelSpec
import Verif.Graph.MatchModel
import Verif.Graph.MergeProps

/-!
# Vertices without label and edges: specification
-/

set_option autoImplicit false

namespace Verif.Graph

variable {σ : Type} [DecidableEq σ]

/-- The second graph is the first one with further vertices that have neither a label nor an edge, anywhere in the list of vertices. -/
structure AddsBare (d d' : LGraph σ) : Prop where
  nodup : d'.verts.Nodup
  edges : d'.edges = d.edges
  nodes : d.nodes.Sublist d'.nodes
  bare : ∀ n ∈ d'.nodes, n ∉ d.nodes → n.2 = .none ∧ ∀ e ∈ d.edges, e.1 ≠ n.1 ∧ e.2.1 ≠ n.1

/-- Every vertex of the pattern has a label or an edge. -/
def EachTouched (p : LGraph σ) : Prop := ∀ a ∈ p.verts, p.namesAt a ≠ [] ∨ ∃ e ∈ p.edges, e.1 = a ∨ e.2.1 = a

end Verif.Graph
