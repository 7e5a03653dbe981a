import Verif.Graph.CodeModel
import Verif.Graph.OccSpec
import Verif.Util.Text

/-!
# The summary printed by GraphMDL: model

Source: `/repo/skmine/graph/graphmdl/utils.py:538-576`, `/repo/skmine/graph/graphmdl/code_table.py:319-331`, `/repo/skmine/graph/graphmdl/code_table_row.py:173-181` and `/repo/skmine/graph/graphmdl/graph_mdl.py:297-312`. `txt` is
the text of a label (`str.format`).
-/

set_option autoImplicit false

namespace Verif.Graph

open Verif.Text

variable {σ : Type} [DecidableEq σ]

/-- `_get_node_labels`, `utils.py:538-553`: the label, or the number of a vertex without label. -/
def nodeText (txt : Label σ → List Char) (g : LGraph σ) (v : ℕ) : Except String (List Char) :=
  match g.nodes.lookup v with
  | none => .error "KeyError"
  | some .none => .ok (showNat v)
  | some l => .ok (txt l)

/-- The arrow of an edge, `utils.py:568-573`. -/
def arrow (txt : Label σ → List Char) : Label σ → List Char
  | .none => ['-', '-', '-', '>']
  | l => '-' :: '-' :: (txt l ++ ['-', '-', '>'])

/-- The line of an edge, `utils.py:568-573`. -/
def edgeLine (txt : Label σ → List Char) (g : LGraph σ) (e : ℕ × ℕ × Label σ) : Except String (List Char) :=
  match nodeText txt g e.1, nodeText txt g e.2.1 with
  | .ok a, .ok b => .ok (a ++ arrow txt e.2.2 ++ b ++ ['\n'])
  | .error x, _ => .error x
  | _, .error x => .error x

/-- `display_graph`, `utils.py:556-576`: one line per edge; the label of the vertex 1 if there is no edge. -/
def displayGraph (txt : Label σ → List Char) (g : LGraph σ) : Except String (List Char) :=
  if g.edges = [] then nodeText txt g 1 else (g.edges.mapM (edgeLine txt g)).map List.flatten

/-- What `discover` prints: the table (its first column), the description length, the two titles and the patterns below them. -/
inductive Printed (σ : Type)
  | table (labels : List σ)
  | length
  | patternsTitle
  | pattern (text : List Char)
  | singletonsTitle
  | singleton (l : σ)
  deriving DecidableEq

/-- The display of the pattern a kind of node stands for, `graph_mdl.py:305-306`. -/
def showKind (txt : Label σ → List Char) (pats : List (LGraph σ)) (k : PKind σ) : Except String (List Char) :=
  match patternOf pats (some k) with
  | some g => displayGraph txt g
  | none => .error "AttributeError"

/-- `discover`, `graph_mdl.py:297-312`, after a fit whose last cover made the pieces `ps` with rows of the patterns `pats`. The set of patterns is listed in some `order`. `display_row` calls `utils.draw_pattern`, which does not exist
(`code_table_row.py:179`); it is called for the rows in use (`code_table.py:325`). A frame of no rows with six columns is a `ValueError` of pandas (`code_table.py:328`). -/
noncomputable def discover (txt : Label σ → List Char) (order : List (PKind σ) → List (PKind σ)) (pats : List (LGraph σ)) (ps : List (Piece σ)) : Except String (List (Printed σ)) :=
  if (List.range pats.length).any (fun i => decide (rowUsage ps i ≠ 0)) then .error "AttributeError"
  else (singletonCodes pats.length ps).bind (fun d =>
    if d.isEmpty then .error "ValueError"
    else (patterns pats.length ps).bind (fun P => ((order P).mapM (showKind txt pats)).map (fun L =>
      [.table (d.map Prod.fst), .length, .patternsTitle] ++ L.map .pattern ++ .singletonsTitle :: d.map (fun x => .singleton x.1))))

/-- `discover` on a miner, `graph_mdl.py:301, 311-312`: before the fit it raises. -/
noncomputable def discoverObj (txt : Label σ → List Char) (order : List (PKind σ) → List (PKind σ)) : Option (List (LGraph σ) × List (Piece σ)) → Except String (List (Printed σ))
  | some x => discover txt order x.1 x.2
  | none => .error "ValueError"

end Verif.Graph
