import Verif.Graph.LabelModel

/-!
# Recognising singleton patterns: model

Source: `/repo/skmine/graph/graphmdl/utils.py:382-417`.
-/

set_option autoImplicit false

namespace Verif.Graph

variable {σ : Type} [DecidableEq σ]

/-- `is_vertex_singleton`, `utils.py:382-391`: the labels are counted only for patterns of one vertex. -/
def isVertexSingleton (g : LGraph σ) : Except String Bool :=
  if g.nodes.length = 1 then (totalLabel g).map (fun n => decide (n = 1)) else .ok false

/-- `'label' not in pattern.nodes(data=True)[k]`, `utils.py:405-406`: the vertex is looked up by its number. -/
def unlabelled (g : LGraph σ) (k : ℕ) : Except String Bool :=
  match g.nodes.lookup k with
  | some l => .ok (decide (l = .none))
  | none => .error "KeyError"

/-- `is_edge_singleton`, `utils.py:394-417`: `and` does not look at the vertex 2 when the vertex 1 has a label; `count_edge_label` never gives `None`. -/
def isEdgeSingleton (g : LGraph σ) : Except String Bool :=
  if g.nodes.length = 2 then
    match unlabelled g 1 with
    | .error m => .error m
    | .ok false => .ok false
    | .ok true =>
      match unlabelled g 2 with
      | .error m => .error m
      | .ok false => .ok false
      | .ok true => (countEdge g).map (fun d => match d.map Prod.snd with | [n] => decide (n = 1) | _ => false)
  else .ok false

end Verif.Graph
