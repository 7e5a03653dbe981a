import Verif.Graph.OccSpec
import Verif.Graph.EncodeModel
import Verif.Graph.SearchModel

/-!
# The search of GraphMDL with its parts: model

Source: `/repo/skmine/graph/graphmdl/code_table.py:48-64, 115-123` and `graph_mdl.py:107-128`. The search of `SearchModel` with the cover, the description length, the candidates and the merging modelled apart.
-/

set_option autoImplicit false

namespace Verif.Graph

variable {σ : Type} [DecidableEq σ]

/-- The rows with these patterns, `code_table.py:48-64`. `emb` is what `get_embeddings` returns for a pattern. -/
def tableRows (emb : LGraph σ → List Embedding) (pats : List (LGraph σ)) : List (Row σ) := pats.map (fun p => ⟨p.view, emb p, []⟩)

/-- `cover` and then `compute_total_description_length`, `code_table.py:82-123`, for a table with these patterns. The marks of earlier covers do not matter (`cover_history`). -/
noncomputable def totalLength (blank : σ → Bool) (t : LabelTable σ) (nm : Names σ) (emb : LGraph σ → List Embedding) (d : LGraph σ) (pats : List (LGraph σ)) : Except String ℝ :=
  (cover d.view (tableRows emb pats) Marks.fresh).bind (fun r => (tableDescription blank t pats r.2.2).bind (fun a => (rewriteDesc pats.length r.2.2 (rewriteGraph nm r.2.2)).map (fun b => a + b)))

/-- A candidate with its final pattern, which is computed when the candidates are sorted and kept (`candidate.py:39-49`, `graph_mdl.py:108, 210-211`). -/
structure Tried (σ : Type) where
  cand : GCand σ
  pattern : LGraph σ

deriving instance DecidableEq for Tried

/-- The patterns of a table. -/
def patsOf (rows : List (SRow (Tried σ))) : List (LGraph σ) := rows.map (fun r => r.cand.pattern)

/-- The search uses the real table: the length of a table is its total description length (a cover or a description that raises ends `fit`; the search of the model goes on with the length 0), candidates are compared by `__eq__`,
and the candidates of a state are among those generated from the cover by the rows of the table in any order (after a pruning that is undone the order can differ, C46), with the patterns of the rows in their current order. A
generation that raises ends `fit`: the model has no candidates then, which ends the search too. -/
structure RealSearch (blank : σ → Bool) (t : LabelTable σ) (nm : Names σ) (emb : LGraph σ → List Embedding) (d : LGraph σ) (env : SEnv (Tried σ) ℝ) : Prop where
  dl : ∀ rows, env.dl rows = match totalLength blank t nm emb d (patsOf rows) with
    | .ok x => x
    | .error _ => 0
  same : ∀ a b, env.same a b = a.cand.same b.cand
  gen : ∀ s : SState (Tried σ) ℝ, ∀ c ∈ env.gen s, ∃ pats m r genv cs, pats.Perm (patsOf s.rows) ∧ History d.view m ∧ cover d.view (tableRows emb pats) m = .ok r ∧ genv.Ok ∧
    generate genv (rewriteGraph nm r.2.2) = .ok cs ∧ c.cand ∈ cs ∧ finalPattern (patsOf s.rows) c.cand = .ok c.pattern

end Verif.Graph
