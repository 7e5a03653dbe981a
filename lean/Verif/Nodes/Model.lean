import Verif.PTree.Model

/-!
# Dictionaries of nodes (C37, C61)

Source: `/repo/skmine/periodic/pattern.py`.

A pattern is a dictionary from node numbers to nodes. A leaf has no `children`; an inner node may have no `r` and `p` yet (`Pattern.repeat` adds them together). Dictionaries are association lists
in insertion order.
-/

set_option autoImplicit false

namespace Verif.Nodes

open Verif.PTree

variable {α : Type}

/-- An entry of the dictionary, `/repo/skmine/periodic/pattern.py:143-157`. -/
inductive Node (α : Type)
  | leaf (parent : Option ℕ) (event : α)
  | inner (parent : Option ℕ) (rp : Option (ℕ × ℤ)) (children : List (ℕ × ℤ))

/-- `Pattern.nodes`. -/
abbrev NodeDict (α : Type) := List (ℕ × Node α)

mutual
/-- The tree under a node, as read by the recursive functions of the class, e.g. `/repo/skmine/periodic/pattern.py:402-431`: `KeyError` for a missing node or a node without `r`. The first argument bounds the depth. -/
def treeOf : ℕ → NodeDict α → ℕ → Option (PTree.Tree α)
  | 0, _, _ => none
  | f + 1, ns, nid =>
    match ns.lookup nid with
    | some (.leaf _ ev) => some (.leaf ev)
    | some (.inner _ (some (r, p)) ch) => (forestOf f ns ch).map (fun F => .node r p F)
    | _ => none
/-- The children of a node. -/
def forestOf : ℕ → NodeDict α → List (ℕ × ℤ) → Option (Forest α)
  | _, _, [] => some .nil
  | 0, _, _ :: _ => none
  | f + 1, ns, (c, d) :: rest =>
    match treeOf f ns c, forestOf f ns rest with
    | some t, some F => some (.cons d t F)
    | _, _ => none
end

end Verif.Nodes
