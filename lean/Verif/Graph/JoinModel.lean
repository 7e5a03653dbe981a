import Verif.Graph.CoverModel

/-!
# Data graphs put together from graphs that were fitted before: model

`fit` keeps the graph object of the caller (`/repo/skmine/graph/graphmdl/graph_mdl.py:86`) and covers write to it: the graph attribute `cover_marker` (`code_table.py:88-94`) and the attribute `cover_mark` of vertices and edges
(`code_table.py:393-408, 478-493`). They are never removed. `nx.union(G, H)` of two graphs without common vertex takes the vertices and edges with their attributes from both, and the graph attributes of `G` updated with those of `H`.
-/

set_option autoImplicit false

namespace Verif.Graph

variable {σ : Type} [DecidableEq σ]

/-- `nx.union(G, H)`, for graphs of the same kind without common vertex. -/
def DGraph.union (G H : DGraph σ) : DGraph σ := ⟨G.multi, G.nodes ++ H.nodes, G.edges ++ H.edges⟩

/-- The attributes written by covers that `nx.union(G, H)` has: `cover_marker` of `H` if it was covered, otherwise that of `G`, and the marks on the vertices and edges of both. -/
def Marks.union (G H : DGraph σ) (m n : Marks σ) : Marks σ where
  marker := if n.marker = 0 then m.marker else n.marker
  emark x := if x ∈ G.edges then m.emark x else if x ∈ H.edges then n.emark x else 0
  nmark x := if x.2 ∈ G.labels x.1 then m.nmark x else if x.2 ∈ H.labels x.1 then n.nmark x else 0

end Verif.Graph
