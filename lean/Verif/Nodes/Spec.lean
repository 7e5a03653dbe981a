import Verif.Nodes.Model
import Verif.PTree.Spec

/-!
# Numbered trees

Independent of the functions of `Verif/Nodes/BuildModel.lean`. A dictionary of nodes describes a numbered tree when it consists of the entries of the tree, each number once.
-/

set_option autoImplicit false

namespace Verif.Nodes

open Verif.PTree

variable {α β : Type}

mutual
/-- A tree whose nodes have numbers; the repetitions and the period of an inner node may not be set yet. -/
inductive NTree (α : Type)
  | leaf (id : ℕ) (ev : α)
  | node (id : ℕ) (rp : Option (ℕ × ℤ)) (ch : NForest α)
/-- Children with their distances. -/
inductive NForest (α : Type)
  | nil
  | cons (d : ℤ) (t : NTree α) (rest : NForest α)
end

/-- The number of the root. -/
def NTree.id : NTree α → ℕ
  | .leaf id _ => id
  | .node id _ _ => id

/-- Numbers and distances of the roots. -/
def NForest.kids : NForest α → List (ℕ × ℤ)
  | .nil => []
  | .cons d t rest => (t.id, d) :: rest.kids

mutual
/-- The entries of a tree under a parent. -/
def NTree.entries : NTree α → Option ℕ → List (ℕ × Node α)
  | .leaf id ev, q => [(id, .leaf q ev)]
  | .node id rp ch, q => (id, .inner q rp ch.kids) :: ch.entries (some id)
/-- The entries of the children of a node. -/
def NForest.entries : NForest α → Option ℕ → List (ℕ × Node α)
  | .nil, _ => []
  | .cons _ t rest, q => t.entries q ++ rest.entries q
end

mutual
/-- The numbers. -/
def NTree.ids : NTree α → List ℕ
  | .leaf id _ => [id]
  | .node id _ ch => id :: ch.ids
/-- The numbers in the children. -/
def NForest.ids : NForest α → List ℕ
  | .nil => []
  | .cons _ t rest => t.ids ++ rest.ids
end

mutual
/-- The tree without numbers, when every inner node has its repetitions and period. -/
def NTree.plain : NTree α → Option (PTree.Tree α)
  | .leaf _ ev => some (.leaf ev)
  | .node _ none _ => none
  | .node _ (some rp) ch => ch.plain.map (fun F => .node rp.1 rp.2 F)
/-- The children without numbers. -/
def NForest.plain : NForest α → Option (Forest α)
  | .nil => some .nil
  | .cons d t rest => t.plain.bind (fun T => rest.plain.map (fun F => .cons d T F))
end

/-- The dictionary describes the tree: each number once, the entries of the tree and nothing else, in any order; the root is node 0 and is an inner node. -/
structure Describes (ns : NodeDict α) (t : NTree α) : Prop where
  keys : (ns.map Prod.fst).Nodup
  ids : t.ids.Nodup
  same : ∀ x, x ∈ ns ↔ x ∈ t.entries none
  root : ∃ rp ch, t = .node 0 rp ch

/-- One more child. -/
def NForest.snoc (d : ℤ) (s : NTree α) : NForest α → NForest α
  | .nil => .cons d s .nil
  | .cons e t rest => .cons e t (rest.snoc d s)

mutual
/-- The tree with a new last child under the node `a`. -/
def NTree.addLast (a : ℕ) (d : ℤ) : NTree α → NTree α → NTree α
  | .leaf id ev, _ => .leaf id ev
  | .node id rp ch, s => if id = a then .node id rp (ch.snoc d s) else .node id rp (ch.addLast a d s)
/-- The children, with a new last child under the node `a`. -/
def NForest.addLast (a : ℕ) (d : ℤ) : NForest α → NTree α → NForest α
  | .nil, _ => .nil
  | .cons e t rest, s => .cons e (t.addLast a d s) (rest.addLast a d s)
end

mutual
/-- The numbers of the inner nodes. -/
def NTree.inner : NTree α → List ℕ
  | .leaf _ _ => []
  | .node id _ ch => id :: ch.inner
/-- The numbers of the inner nodes of the children. -/
def NForest.inner : NForest α → List ℕ
  | .nil => []
  | .cons _ t rest => t.inner ++ rest.inner
end

mutual
/-- The tree with other numbers. -/
def NTree.rename (f : ℕ → ℕ) : NTree α → NTree α
  | .leaf id ev => .leaf (f id) ev
  | .node id rp ch => .node (f id) rp (ch.rename f)
/-- The children with other numbers. -/
def NForest.rename (f : ℕ → ℕ) : NForest α → NForest α
  | .nil => .nil
  | .cons d t rest => .cons d (t.rename f) (rest.rename f)
end

/-- The sum of the distances of the children. -/
def NForest.span : NForest α → ℤ
  | .nil => 0
  | .cons d _ rest => d + rest.span

mutual
/-- The times, for a tree started at a time, from which a new last child of the node `a` counts its distance: for every repetition of the node, the start of its last child. -/
def NTree.slots (a : ℕ) : NTree α → ℤ → List ℤ
  | .leaf _ _, _ => []
  | .node _ none _, _ => []
  | .node id (some rp) ch, time =>
    if id = a then (List.range rp.1).map (fun i : ℕ => time + (i : ℤ) * rp.2 + ch.span)
    else (List.range rp.1).flatMap (fun i : ℕ => ch.slots a (time + (i : ℤ) * rp.2))
/-- The same for successive children. -/
def NForest.slots (a : ℕ) : NForest α → ℤ → List ℤ
  | .nil, _ => []
  | .cons d t rest, time => t.slots a (time + d) ++ rest.slots a (time + d)
end

end Verif.Nodes
