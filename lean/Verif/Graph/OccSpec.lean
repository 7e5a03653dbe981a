import Verif.Graph.GenSpec
import Verif.Graph.CoverSpec
import Verif.Graph.MatchModel
import Verif.Graph.MergeProps

/-!
# The patterns tested by GraphMDL: specification

The tables of the search, from the pieces modelled apart: matching (`MatchModel`), cover (`CoverModel`), rewritten graph (`RewriteModel`), candidates (`GenModel`) and merging (`MergeModel`).
-/

set_option autoImplicit false

namespace Verif.Graph

variable {σ : Type} [DecidableEq σ]

deriving instance DecidableEq for LGraph

/-- A simple directed graph as the cover reads it: labels of vertices as lists, edges with a string as label. -/
def LGraph.view (g : LGraph σ) : DGraph σ :=
  ⟨false, g.nodes.map (fun n => (n.1, n.2.names)), g.edges.filterMap (fun e => match e.2.2 with
    | .str l => some (e.1, e.2.1, l)
    | _ => none)⟩

/-- A data graph: at most one edge from one vertex to another, no loop, every edge labelled by a string, no label used both for a vertex and for an edge. -/
structure PlainData (d : LGraph σ) : Prop where
  verts : d.verts.Nodup
  ends : ∀ e ∈ d.edges, e.1 ∈ d.verts ∧ e.2.1 ∈ d.verts
  noLoop : ∀ e ∈ d.edges, e.1 ≠ e.2.1
  simple : (d.edges.map (fun e => (e.1, e.2.1))).Nodup
  str : ∀ e ∈ d.edges, ∃ l, e.2.2 = .str l
  apart : ∀ v l, l ∈ d.namesAt v → ∀ e ∈ d.edges, e.2.2 ≠ .str l

/-- The row of a pattern after `add_row`, `code_table.py:48-64`: its embeddings are the dictionaries returned by `get_embeddings`, in any order. -/
structure RowFor (d p : LGraph σ) (r : Row σ) : Prop where
  pattern : r.pattern = p.view
  embs : ∀ e ∈ r.embeddings, ∃ h : ℕ → ℕ, Found false d p h ∧ e.Perm (p.verts.map (fun a => (h a, a)))
  all : ∀ h : ℕ → ℕ, Found false d p h → ∃ e ∈ r.embeddings, e.Perm (p.verts.map (fun a => (h a, a)))

/-- The rows of a table whose patterns are these. -/
def TableFor (d : LGraph σ) (pats : List (LGraph σ)) (rows : List (Row σ)) : Prop := List.Forall₂ (RowFor d) pats rows

/-- What the generation reads when the cover of the rewritten graph need not be the last one (`graph_mdl.py:107, 241-251`: after a pruning that is undone, the singletons are those of the cover that was given up): the rows are those of
the cover, the singletons are labels of edges and labels of vertices of the data. -/
structure GenEnv.Reads (env : GenEnv σ) (nm : Names σ) (rows : List (Row σ)) (d : LGraph σ) : Prop where
  idx : ∀ i, env.idx (nm.row i) = i
  nRows : env.nRows = rows.length
  isE : ∀ l, env.isE l = true → ∃ e ∈ d.edges, e.2.2 = .str l
  isV : ∀ l, env.isV l = true → ∃ v, l ∈ d.namesAt v

/-- The names are apart: no label is the name of a row or of a vertex, and no row is named like a vertex. -/
structure NamesApart (nm : Names σ) (d : LGraph σ) : Prop where
  row : ∀ i l, d.view.Uses l → l ≠ nm.row i
  vertex : ∀ v l, d.view.Uses l → l ≠ nm.vertex v
  rows : ∀ i v, nm.row i ≠ nm.vertex v

/-- The graph of a pattern, given what it stands for: the pattern of a row or a singleton, `utils.py:915-953, 971-978`. -/
def patternOf (pats : List (LGraph σ)) : Option (PKind σ) → Option (LGraph σ)
  | some (.row i) => pats[i]?
  | some (.edge l) => some (edgeSingleton l)
  | some (.vertex l) => some (vertexSingleton l)
  | none => none

/-- `final_pattern`, `candidate.py:39-49`: the two patterns of the candidate merged at its ports. -/
def finalPattern (pats : List (LGraph σ)) (c : GCand σ) : Except String (LGraph σ) :=
  match patternOf pats c.firstPat, patternOf pats c.secondPat with
  | some p, some q => mergeCand false p q c.port
  | _, _ => .error "AttributeError"

/-- The candidate is generated from the cover of the data by a table with these patterns, after any earlier covers. -/
def Generated (d : LGraph σ) (nm : Names σ) (pats : List (LGraph σ)) (c : GCand σ) : Prop :=
  ∃ rows m r env cs, TableFor d pats rows ∧ History d.view m ∧ cover d.view rows m = .ok r ∧ env.Ok ∧ env.Reads nm rows d ∧ generate env (rewriteGraph nm r.2.2) = .ok cs ∧ c ∈ cs

/-- The lists of patterns the table can have during the search: it starts empty; the final pattern of a generated candidate is added, at any place (`graph_mdl.py:126-127`); rows are removed, and rows that were in the table are put
back (`graph_mdl.py:146, 153, 241-251`). The candidates are generated while the rows are in the order of the cover behind the rewritten graph; C46 has the one way to leave that order. -/
inductive Tables (d : LGraph σ) (nm : Names σ) : List (LGraph σ) → Prop
  | empty : Tables d nm []
  | tested (pats pats' : List (LGraph σ)) (c : GCand σ) (g : LGraph σ) : Tables d nm pats → Generated d nm pats c → finalPattern pats c = .ok g → pats'.Perm (g :: pats) → Tables d nm pats'
  | changed (pats' : List (LGraph σ)) (src : LGraph σ → List (LGraph σ)) : (∀ p ∈ pats', Tables d nm (src p)) → (∀ p ∈ pats', p ∈ src p) → Tables d nm pats'

end Verif.Graph
