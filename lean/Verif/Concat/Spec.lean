import Verif.Concat.Model
import Verif.PTree.Spec

/-!
# What it means for a candidate to describe its occurrences

Source: `/repo/skmine/periodic/candidate.py`.
-/

set_option autoImplicit false

namespace Verif.Concat

open Verif.PTree

variable {α : Type}

/-- The tree is regular, and regenerating the occurrences from the tree, the first time and the corrections gives the occurrences of the candidate. -/
def Describes (c : Cand α) : Prop :=
  c.tree.Regular ∧ c.O.length = nbOccs c.tree ∧ c.E.length + 1 = c.O.length ∧
    ∃ t0, c.O.head? = some t0 ∧ getOccs c.tree (occsStar c.tree [] 0) t0 c.E = some c.O

/-- The tree is regular, and there are as many occurrences as it says, and as many corrections as needed. -/
def Shape (c : Cand α) : Prop := c.tree.Regular ∧ c.O.length = nbOccs c.tree ∧ c.E.length + 1 = c.O.length

/-- The occurrences of repetition `i` of the root: an equal share of the list. -/
def Cand.rep (c : Cand α) (i : ℕ) : List ℤ := (c.O.drop (i * nbOccsF c.ch)).take (nbOccsF c.ch)

/-- The events of one repetition of the root, in order. -/
def Cand.repEvents (c : Cand α) : List α := (genF c.ch 0).map Prod.snd

/-- The events of all the occurrences, in order. -/
def Cand.events (c : Cand α) : List α := (gen c.tree 0).map Prod.snd

/-- One child. -/
def OneChild : Forest α → Prop
  | .cons _ _ .nil => True
  | _ => False

/-- All but the last have one child. -/
def AllButLast : List (Forest α) → Prop
  | [] => True
  | [_] => True
  | F :: G :: rest => OneChild F ∧ AllButLast (G :: rest)

end Verif.Concat
