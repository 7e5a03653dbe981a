import Verif.Graph.GenModel

/-!
# The merge candidates of a rewritten graph: specification
-/

set_option autoImplicit false

namespace Verif.Graph

variable {σ : Type} [DecidableEq σ]

/-- A port of the rewritten graph. -/
def RGraph.IsPort (rg : RGraph σ) (p : ℕ) : Prop := ∃ n, 1 ≤ p ∧ rg.nodes[p - 1]? = some n ∧ n.isPattern = false

/-- The node `x` stands for an occurrence of a pattern and has this label. -/
def RGraph.Carries (rg : RGraph σ) (x : ℕ) (l : σ) : Prop := ∃ n, 1 ≤ x ∧ rg.nodes[x - 1]? = some n ∧ n.isPattern = true ∧ n.label = l

/-- The nodes `x` and `y` meet at the port `p`, which is the vertex `a` of the pattern of `x` and the vertex `b` of the pattern of `y`. -/
def RGraph.Meet (rg : RGraph σ) (x y p a b : ℕ) : Prop := rg.IsPort p ∧ (x, p, a) ∈ rg.edges ∧ (y, p, b) ∈ rg.edges

/-- The nodes `x` and `y` are an occurrence of a candidate: two different nodes with its labels, in this order, that meet exactly as its ports say. -/
structure RGraph.Occurs (rg : RGraph σ) (c : GCand σ) (x y : ℕ) : Prop where
  ne : x ≠ y
  first : rg.Carries x c.first
  second : rg.Carries y c.second
  ports : ∀ a b, (a, b) ∈ c.port ↔ ∃ p, rg.Meet x y p a b

/-- Two candidates merge the same patterns at the same ports. -/
def GCand.Alike (c d : GCand σ) : Prop := c.first = d.first ∧ c.second = d.second ∧ ∀ q, q ∈ c.port ↔ q ∈ d.port

/-- The second candidate is the first one read the other way round. -/
def GCand.Opposite (c d : GCand σ) : Prop := d.first = c.second ∧ d.second = c.first ∧ ∀ a b, (a, b) ∈ d.port ↔ (b, a) ∈ c.port

/-- What a run of the generation may rely on: `list(set)` lists every element once, and labels are compared by a total order. -/
structure GenEnv.Ok (env : GenEnv σ) : Prop where
  pairs : ∀ l : List (ℕ × ℕ), (env.ordPairs l).Perm l.dedup
  ports : ∀ l : List ℕ, (env.ordPorts l).Perm l.dedup
  asymm : ∀ a b, env.lt a b = true → env.lt b a = false
  total : ∀ a b, a ≠ b → env.lt a b = true ∨ env.lt b a = true

/-- What the generation reads from a code table that was just used for a cover: the row named `P3` has the number 3, the table has these rows, and the singletons are those of the cover. -/
structure GenEnv.For (env : GenEnv σ) (nm : Names σ) (rows : List (Row σ)) (ps : List (Piece σ)) : Prop where
  idx : ∀ i, env.idx (nm.row i) = i
  nRows : env.nRows = rows.length
  isE : ∀ l, env.isE l = true ↔ ∃ u v, Piece.edge u v l ∈ ps
  isV : ∀ l, env.isV l = true ↔ ∃ v, Piece.vertex v l ∈ ps

/-- The label is used in the data graph. -/
def DGraph.Uses (g : DGraph σ) (l : σ) : Prop := (∃ v ls, (v, ls) ∈ g.nodes ∧ l ∈ ls) ∨ ∃ u v, (u, v, l) ∈ g.edges

end Verif.Graph
