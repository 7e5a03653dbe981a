import Verif.Graph.LabelModel
import Mathlib.Data.Int.Notation
import Mathlib.Order.Basic

/-!
# One label of a vertex (C165)

Source: `/repo/skmine/graph/graphmdl/utils.py:454-487`.
-/

set_option autoImplicit false

namespace Verif.Graph

variable {σ : Type} [DecidableEq σ]

/-- The exceptions raised by these functions. -/
inductive AtErr where
  | valueError
  | keyError
  | indexError
  deriving DecidableEq

/-- `get_label_index(label, values)`, `/repo/skmine/graph/graphmdl/utils.py:464-467`. -/
def labelIndex (label : σ) (values : List σ) : Except AtErr ℕ := if label ∈ values then .ok (values.idxOf label) else .error .valueError

/-- `t[i]` of a tuple: a negative index counts from the end. -/
def pyAt (l : List σ) (i : ℤ) : Except AtErr (Label σ) :=
  match l[(if 0 ≤ i then i else i + l.length).toNat]?, decide (0 ≤ i + l.length) with
  | some s, true => .ok (.str s)
  | _, _ => .error .indexError

/-- `get_node_label(key, index, graph)`, `/repo/skmine/graph/graphmdl/utils.py:481-487`. A vertex without label is a `KeyError`. The length of a string or of a list is looked at
as well, but only tuples are indexed. -/
def nodeLabelAt (g : LGraph σ) (key : ℕ) (i : ℤ) : Except AtErr (Label σ) :=
  match g.nodes.lookup key with
  | none => .error .valueError
  | some .none => .error .keyError
  | some (.tuple l) => if i < l.length then pyAt l i else .ok (.tuple l)
  | some l => .ok l

end Verif.Graph
