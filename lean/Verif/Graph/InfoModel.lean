import Verif.Graph.RewriteModel
import Mathlib.Data.List.Dedup

/-!
# Summaries of a rewritten graph: model

Source: `/repo/skmine/graph/graphmdl/utils.py:1007-1052, 1076-1089`.
-/

set_option autoImplicit false

namespace Verif.Graph

variable {σ : Type} [DecidableEq σ]

/-- An entry of the lists made by `get_pattern_node_infos`: the list of the labels of the edges of a node (`v3` is 3), or the word `singleton`. -/
inductive Info where
  | ports (l : List ℕ)
  | singleton
  deriving DecidableEq, Repr

/-- `[edge[2]['label'] for edge in rewritten_graph.edges(x, data=True)]`, `utils.py:1035-1037`: the edges that leave `x`, in order of creation. -/
def RGraph.outLabels (rg : RGraph σ) (x : ℕ) : List ℕ := (rg.edges.filter (fun e => decide (e.1 = x))).map (fun e => e.2.2)

/-- `d[k].append(e)`, the list being created for a new key, `utils.py:1039-1043`. -/
def addInfo (k : σ) (e : Info) : List (σ × List Info) → List (σ × List Info)
  | [] => [(k, [e])]
  | (a, l) :: t => if a = k then (a, l ++ [e]) :: t else (a, l) :: addInfo k e t

/-- The dictionary at a key, empty if there is none. -/
def infoAt (d : List (σ × List Info)) (k : σ) : List Info := (d.lookup k).getD []

/-- One step of the loop of `get_pattern_node_infos`, `utils.py:1033-1050`, for the node number `x`. The variable `res` keeps its value from one node to the next; the attribute `is_singleton` is always `True` when present. -/
def infoStep (rg : RGraph σ) (x : ℕ) (n : RNode σ) (res : Option (List ℕ)) (d : List (σ × List Info)) : Except String (Option (List ℕ) × List (σ × List Info)) :=
  match if n.isPattern then some (rg.outLabels x) else res with
  | none => .error "UnboundLocalError"
  | some r =>
    let d' := addInfo n.label (.ports r) d
    .ok (some r, if n.isSingleton ∧ Info.singleton ∉ infoAt d' n.label then addInfo n.label .singleton d' else d')

/-- The loop of `get_pattern_node_infos` from the node number `x` on. -/
def infoLoop (rg : RGraph σ) : ℕ → List (RNode σ) → Option (List ℕ) → List (σ × List Info) → Except String (List (σ × List Info))
  | _, [], _, d => .ok d
  | x, n :: t, res, d =>
    match infoStep rg x n res d with
    | .error m => .error m
    | .ok r => infoLoop rg (x + 1) t r.1 r.2

/-- `get_pattern_node_infos`, `utils.py:1023-1052`. -/
def patternInfos (rg : RGraph σ) : Except String (List (σ × List Info)) := infoLoop rg 1 rg.nodes none []

/-- `count_port_node`, `utils.py:1007-1020`. -/
def countPorts (rg : RGraph σ) : ℕ := (rg.nodes.filter (fun n => !n.isPattern)).length

/-- `get_port_node`, `utils.py:1076-1089`: the set is a list here; `int(label.split('v')[1])` is the number of the label. -/
def portsOfNode (rg : RGraph σ) (x : ℕ) : List ℕ := (rg.outLabels x).dedup

end Verif.Graph
