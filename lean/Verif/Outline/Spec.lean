import Verif.Outline.Model

/-!
# What the outline should say

A list of lines, each with its indentation: one for every node and one for every distance.
-/

set_option autoImplicit false

namespace Verif.Outline

open Verif.Nodes Verif.Text

variable {α : Type}

mutual
/-- Every inner node has its repetitions, its period and at least one child. -/
def Filled : NTree α → Prop
  | .leaf _ _ => True
  | .node _ rp ch => rp.isSome ∧ ch.kids ≠ [] ∧ FilledF ch
/-- The same for children. -/
def FilledF : NForest α → Prop
  | .nil => True
  | .cons _ t rest => Filled t ∧ FilledF rest
end

mutual
/-- All events of the tree satisfy `P`. -/
def Events (P : α → Prop) : NTree α → Prop
  | .leaf _ e => P e
  | .node _ _ ch => EventsF P ch
/-- The same for children. -/
def EventsF (P : α → Prop) : NForest α → Prop
  | .nil => True
  | .cons _ t rest => Events P t ∧ EventsF P rest
end

/-- The line of a leaf. -/
def leafLine (id : ℕ) (w : List Char) : List Char := "|_ [".toList ++ showNat id ++ "] ".toList ++ w

/-- The line of an inner node. -/
def innerLine (id r : ℕ) (p : ℤ) : List Char := "|_ [".toList ++ showNat id ++ "] r=".toList ++ showNat r ++ " p=".toList ++ showInt p

/-- The line of a distance. -/
def distLine (d : ℤ) : List Char := "| d=".toList ++ showInt d

mutual
/-- The lines of a tree with their indentations. -/
def lines (ev : α → List Char) : NTree α → ℕ → List (ℕ × List Char)
  | .leaf id e, L => [(L, leafLine id (ev e))]
  | .node id rp ch, L => (L, innerLine id (rp.getD (0, 0)).1 (rp.getD (0, 0)).2) :: linesF ev ch (L + 1)
/-- The lines of children: for each its distance, then itself. -/
def linesF (ev : α → List Char) : NForest α → ℕ → List (ℕ × List Char)
  | .nil, _ => []
  | .cons d t rest, L => (L, distLine d) :: (lines ev t L ++ linesF ev rest L)
end

/-- A text from its lines. -/
def textOf (ls : List (ℕ × List Char)) : List Char := ls.flatMap (fun x => List.replicate x.1 '\t' ++ x.2 ++ ['\n'])

/-- The printed names tell the events apart and stay on one line. -/
structure OneLine (P : α → Prop) (name : α → List Char) : Prop where
  inj : ∀ a b, P a → P b → name a = name b → a = b
  line : ∀ a, P a → '\n' ∉ name a

end Verif.Outline
