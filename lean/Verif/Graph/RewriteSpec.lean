import Verif.Graph.RewriteModel
import Verif.Graph.CoverSpec

/-!
# Reading a rewritten graph: specification
-/

set_option autoImplicit false

namespace Verif.Graph

variable {σ : Type} [DecidableEq σ]

/-- A vertex of the graph described by a rewritten graph: the port with this number, or a vertex of the pattern of a node that is no port. -/
abbrev DVert := ℕ ⊕ (ℕ × ℕ)

/-- The vertex `a` of the pattern of the node `x`: a port if an edge from `x` carries this number. -/
def RGraph.place (rg : RGraph σ) (x a : ℕ) : DVert := match rg.edges.find? (fun e => decide (e.1 = x ∧ e.2.2 = a)) with
  | some e => .inl e.2.1
  | none => .inr (x, a)

/-- The pattern a node stands for: the pattern of the row it names; for a singleton, an edge from `1` to `2` if it has both ports, a loop if it has the port `2` only, and a labelled vertex otherwise. -/
def RGraph.Shape (rg : RGraph σ) (nm : Names σ) (rows : List (Row σ)) (x : ℕ) (p : DGraph σ) : Prop :=
  ∃ n, 1 ≤ x ∧ rg.nodes[x - 1]? = some n ∧ n.isPattern = true ∧
    if n.isSingleton then
      if ∃ e ∈ rg.edges, e.1 = x ∧ e.2.2 = 2 then
        if ∃ e ∈ rg.edges, e.1 = x ∧ e.2.2 = 1 then p = ⟨false, [(1, []), (2, [])], [(1, 2, n.label)]⟩ else p = ⟨false, [(2, [])], [(2, 2, n.label)]⟩
      else p = ⟨false, [(1, [n.label])], []⟩
    else ∃ i r, n.label = nm.row i ∧ rows[i]? = some r ∧ p = r.pattern

/-- The rewritten graph describes this labelled edge. -/
def RGraph.DescribesEdge (rg : RGraph σ) (nm : Names σ) (rows : List (Row σ)) (s t : DVert) (l : σ) : Prop :=
  ∃ x p a b, rg.Shape nm rows x p ∧ (a, b, l) ∈ p.edges ∧ rg.place x a = s ∧ rg.place x b = t

/-- The rewritten graph describes this label of this vertex. -/
def RGraph.DescribesLabel (rg : RGraph σ) (nm : Names σ) (rows : List (Row σ)) (s : DVert) (l : σ) : Prop :=
  ∃ x p a, rg.Shape nm rows x p ∧ l ∈ p.labels a ∧ rg.place x a = s

/-- The rewritten graph mentions this vertex. -/
def RGraph.Mentions (rg : RGraph σ) (nm : Names σ) (rows : List (Row σ)) (s : DVert) : Prop :=
  (∃ t l, rg.DescribesEdge nm rows s t l ∨ rg.DescribesEdge nm rows t s l) ∨ ∃ l, rg.DescribesLabel nm rows s l

/-- Reading the rewritten graph with the patterns of the table gives the data graph, up to the names of the vertices and to vertices without edge and label: vertices that differ in the description differ in the data. -/
def Rebuilds (rg : RGraph σ) (nm : Names σ) (rows : List (Row σ)) (g : DGraph σ) : Prop :=
  ∃ name : DVert → ℕ, (∀ s t, rg.Mentions nm rows s → rg.Mentions nm rows t → name s = name t → s = t) ∧
    (∀ u v l, (u, v, l) ∈ g.edges ↔ ∃ s t, rg.DescribesEdge nm rows s t l ∧ name s = u ∧ name t = v) ∧
    ∀ v l, l ∈ g.labels v ↔ ∃ s, rg.DescribesLabel nm rows s l ∧ name s = v

end Verif.Graph
