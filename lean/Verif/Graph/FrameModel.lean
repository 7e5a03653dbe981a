import Verif.Graph.CodeModel

/-!
# The table of patterns shown by GraphMDL: model

Source: `/repo/skmine/graph/graphmdl/code_table.py:319-331`, `/repo/skmine/graph/graphmdl/code_table_row.py:173-181`, printed by `discover`, `/repo/skmine/graph/graphmdl/graph_mdl.py:297-302`. Floats are real numbers.
The drawing of a pattern is given by the number of its row; an empty cell is `none`.
-/

set_option autoImplicit false

namespace Verif.Graph

variable {σ : Type} [DecidableEq σ]

/-- A line of the table: the six columns of `code_table.py:328-331`. The first is the drawing of a row, or a label. -/
structure Line (σ : Type) where
  pattern : ℕ ⊕ σ
  usage : ℝ
  code : Option ℝ
  portCount : Option ℕ
  portUsage : Option (List (ℕ × ℕ))
  portCode : Option (List (ℕ × ℝ))

/-- `display_row`, `code_table_row.py:173-181`, of the row `i` after a cover by `n` rows that made the pieces `ps`. -/
noncomputable def displayRow (n : ℕ) (ps : List (Piece σ)) (i : ℕ) : Except String (Line σ) :=
  (rowCode n ps i).bind (fun c => (portCodes ps i).map (fun d => ⟨.inl i, rowUsage ps i, some c, some (portUsage ps i).length, some (portUsage ps i), some d⟩))

/-- The line of a singleton, `code_table.py:326-327`: the code length is the second cell. -/
noncomputable def singletonLine (x : σ × ℝ) : Line σ := ⟨.inr x.1, x.2, none, none, none, none⟩

/-- `display_ct`, `code_table.py:319-331`. Pandas refuses no lines with names for the columns. Numpy turns the cells into texts if there are only singletons; the model keeps the numbers. -/
noncomputable def displayCt (n : ℕ) (ps : List (Piece σ)) : Except String (List (Line σ)) :=
  (((List.range n).filter (fun i => decide (rowUsage ps i ≠ 0))).mapM (displayRow n ps)).bind (fun data =>
    (singletonCodes n ps).bind (fun d => if (data ++ d.map singletonLine).isEmpty then .error "ValueError" else .ok (data ++ d.map singletonLine)))

end Verif.Graph
