import Verif.Display.Model

/-!
# What the table should say
-/

set_option autoImplicit false

namespace Verif.Display

open Verif.PTree

variable {α : Type}

/- The events and the times of a tree satisfy these. -/
mutual
/-- All events of the tree satisfy `P`, all its periods and distances `Q`. -/
def Over (P : α → Prop) (Q : ℤ → Prop) : PTree.Tree α → Prop
  | .leaf ev => P ev
  | .node _ p ch => Q p ∧ OverF P Q ch
/-- The same for children. -/
def OverF (P : α → Prop) (Q : ℤ → Prop) : Forest α → Prop
  | .nil => True
  | .cons d t rest => Q d ∧ Over P Q t ∧ OverF P Q rest
end

/- A tree in a unit `k` times finer. -/
mutual
/-- All times of the tree times `k`. -/
def scale (k : ℤ) : PTree.Tree α → PTree.Tree α
  | .leaf ev => .leaf ev
  | .node r p ch => .node r (p * k) (scaleF k ch)
/-- The same for children. -/
def scaleF (k : ℤ) : Forest α → Forest α
  | .nil => .nil
  | .cons d t rest => .cons (d * k) (scale k t) (scaleF k rest)
end

/-- The text has no round bracket and no opening square bracket. -/
def Plain (w : List Char) : Prop := '(' ∉ w ∧ ')' ∉ w ∧ '[' ∉ w

/-- The printed names of the events tell the events apart and are plain. -/
structure NamesOk (P : α → Prop) (name : α → List Char) : Prop where
  inj : ∀ a b, P a → P b → name a = name b → a = b
  plain : ∀ a, P a → Plain (name a)

/-- The times that are printed exactly: any integer, or, for dates, a whole number of microseconds. -/
def Exact (dates : Bool) (k : ℤ) (x : ℤ) : Prop := dates = true → x * k % 1000 = 0

/-- The row that a pattern should have, given in the unit of the data. -/
def dataRow (dates : Bool) (name : α → List Char) (m : Mined α) : TRow := ⟨m.t0, text true name (timeText dates 1) m.tree, m.r, m.p, m.E⟩

/-- A pattern in the unit of the data. -/
def Mined.inData (k : ℤ) (m : Mined α) : Mined α := ⟨m.r, m.p * k, scaleF k m.ch, m.t0 * k, m.E.map (· * k)⟩

end Verif.Display
