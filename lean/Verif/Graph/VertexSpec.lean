import Verif.Graph.EndModel

/-!
# Other numbers for the vertices of a data graph: specification
-/

set_option autoImplicit false

namespace Verif.Graph

variable {σ : Type} [DecidableEq σ]

/-- The same graph with other vertices: the vertex `v` is now `f v`. Vertices, edges and labels keep their places. -/
def LGraph.renamed (f : ℕ → ℕ) (g : LGraph σ) : LGraph σ := ⟨g.nodes.map (fun n => (f n.1, n.2)), g.edges.map (fun e => (f e.1, f e.2.1, e.2.2))⟩

/-- The same embedding in the data with other vertices. The vertices of the pattern are the same. -/
def Embedding.renamed (f : ℕ → ℕ) (e : Embedding) : Embedding := e.map (fun x => (f x.1, x.2))

/-- The embeddings of a pattern in the data with other vertices: the same ones in the same order. -/
def embRenamed (f : ℕ → ℕ) (emb : LGraph σ → List Embedding) : LGraph σ → List Embedding := fun p => (emb p).map (Embedding.renamed f)

/-- The value, 0 for an error (which ends `fit`). -/
def okOr (x : Except String ℕ) : ℕ := match x with
  | .ok n => n
  | .error _ => 0

/-- The search uses the real table, also for the order of rows (number of labels and support, `code_table.py:333-344`) and for the usages the pruning compares (`graph_mdl.py:213-229, 240`). -/
structure WholeSearch (blank : σ → Bool) (t : LabelTable σ) (nm : Names σ) (emb : LGraph σ → List Embedding) (d : LGraph σ) (env : SEnv (Tried σ) ℝ) : Prop extends RealSearch blank t nm emb d env where
  size : ∀ c, env.size c = (okOr (totalLabel c.pattern), okOr (getSupport (emb c.pattern)))
  usage : ∀ rows r, env.usage rows r = okOr ((cover d.view (tableRows emb (patsOf rows)) Marks.fresh).map (fun x => rowUsage x.2.2 (rows.idxOf r)))

end Verif.Graph
