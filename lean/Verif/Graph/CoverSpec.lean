import Verif.Graph.CoverModel

/-!
# The cover of a data graph: specification
-/

set_option autoImplicit false

namespace Verif.Graph

variable {σ : Type} [DecidableEq σ]

/-- The piece describes the labelled edge: the edge is the singleton, or the image of a pattern edge with this label. -/
def Piece.coversEdge (rows : List (Row σ)) : Piece σ → ℕ × ℕ × σ → Bool
  | .emb i e _, x => match rows[i]? with
    | some r => r.pattern.edges.any (fun y => decide (y.2.2 = x.2.2 ∧ (x.1, y.1) ∈ e ∧ (x.2.1, y.2.1) ∈ e))
    | Option.none => false
  | .edge u v l, x => decide (x = (u, v, l))
  | .vertex _ _, _ => false

/-- The piece is an embedding that describes this label of this vertex. -/
def Piece.embCovers (rows : List (Row σ)) : Piece σ → ℕ × σ → Bool
  | .emb i e _, x => match rows[i]? with
    | some r => e.any (fun y => decide (y.1 = x.1 ∧ x.2 ∈ r.pattern.labels y.2))
    | Option.none => false
  | _, _ => false

/-- The dictionary is an embedding of the pattern as networkx returns it: distinct data vertices and distinct pattern vertices, all ends of pattern edges, edges sent to edges with the same label, labels of a pattern vertex found on
its data vertex. In a multigraph only the first of several parallel edges is compared: an edge of the data must exist but may have another label. -/
structure IsEmbedding (g p : DGraph σ) (e : Embedding) : Prop where
  keys : (e.map Prod.fst).Nodup
  values : (e.map Prod.snd).Nodup
  total : ∀ a b l, (a, b, l) ∈ p.edges → a ∈ e.map Prod.snd ∧ b ∈ e.map Prod.snd
  edges : ∀ a b l, (a, b, l) ∈ p.edges → ∀ u v, (u, a) ∈ e → (v, b) ∈ e → if g.multi then ∃ l', (u, v, l') ∈ g.edges else (u, v, l) ∈ g.edges
  labels : ∀ v a, (v, a) ∈ e → ∀ l ∈ p.labels a, l ∈ g.labels v

/-- A row whose embeddings are embeddings of its pattern. A pattern with edges has no label on an isolated vertex; a pattern without edge has a label on every vertex. (Patterns made by merging candidates are connected.) -/
structure RowOk (g : DGraph σ) (r : Row σ) : Prop where
  embs : ∀ e ∈ r.embeddings, IsEmbedding g r.pattern e
  connected : r.pattern.edges ≠ [] → ∀ a, r.pattern.labels a ≠ [] → ∃ b l, (a, b, l) ∈ r.pattern.edges ∨ (b, a, l) ∈ r.pattern.edges
  labelled : r.pattern.edges = [] → ∀ e ∈ r.embeddings, ∀ x ∈ e, r.pattern.labels x.2 ≠ []

/-- The marks after any number of earlier covers of the data graph with any rows. -/
inductive History (g : DGraph σ) : Marks σ → Prop
  | fresh : History g Marks.fresh
  | cover (m m' : Marks σ) (rows rows' : List (Row σ)) (ps : List (Piece σ)) : History g m → cover g rows m = .ok (m', rows', ps) → History g m'

end Verif.Graph
