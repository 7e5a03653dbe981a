import Verif.Export.NumpyModel

/-!
# Exporting in place (C147)

Source: `/repo/skmine/periodic/pattern_collection.py:199-233` and `/repo/skmine/periodic/pattern.py:326-372`.

`output_pattern_list_and_cost` does not copy the dictionary of the nodes of a pattern: `pattern_tree = p.nodes`, and the three keys and the conversion of the integers go into the pattern itself. It is called by `transform` and by `export_patterns`.
-/

set_option autoImplicit false

namespace Verif.Export

open Verif.Nodes

/-- A pattern object of the collection with its first time and corrections, `/repo/skmine/periodic/pattern_collection.py:206`. -/
structure Obj where
  nodes : NDict
  nextId : ℕ
  t0 : Num
  E : List Num

/-- `pattern_json_tree` of the pattern, `/repo/skmine/periodic/pattern_collection.py:215-222`. -/
def Obj.exported (o : Obj) : NDict := exportTreeN o.nodes o.nextId o.t0 o.E

/-- The pattern afterwards: the exported dictionary is the one of its nodes, `/repo/skmine/periodic/pattern_collection.py:215`. -/
def Obj.after (o : Obj) : Obj := { o with nodes := o.exported }

/-- One call: what is output, and the patterns afterwards, `/repo/skmine/periodic/pattern_collection.py:205-228`. -/
def output (os : List Obj) : List NDict × List Obj := (os.map Obj.exported, os.map Obj.after)

/-- The patterns after a number of calls. -/
def calls : ℕ → List Obj → List Obj
  | 0, os => os
  | n + 1, os => calls n (output os).2

mutual
/-- The tree which the methods of `Pattern` see from a node: `self.nodes[nid]` and its children, `/repo/skmine/periodic/pattern.py:326-372,418-431`. The first argument bounds the depth. -/
def treeOfD : ℕ → Dict → ℕ → Option (PTree.Tree ℕ)
  | 0, _, _ => none
  | f + 1, d, nid =>
    match (d.lookup (.int nid)).bind readNode with
    | some (.leaf _ ev) => some (.leaf ev)
    | some (.inner _ (some (r, p)) ch) => (forestOfD f d ch).map (fun F => .node r p F)
    | _ => none
/-- The children of a node. -/
def forestOfD : ℕ → Dict → List (ℕ × ℤ) → Option (PTree.Forest ℕ)
  | _, _, [] => some .nil
  | 0, _, _ :: _ => none
  | f + 1, d, (c, dist) :: rest =>
    match treeOfD f d c, forestOfD f d rest with
    | some t, some F => some (.cons dist t F)
    | _, _ => none
end

end Verif.Export
