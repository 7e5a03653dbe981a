import Verif.Draw.Model
import Verif.Nodes.Spec
import Verif.Display.Spec

/-!
# What a drawing shows

Independent of how the drawing is made. A drawing is read as follows: the label and shape of a name, the solid edges that leave it, in order, and the dotted edges that enter it.
-/

set_option autoImplicit false

namespace Verif.Draw

open Verif.Nodes Verif.Display Verif.Text

/-- Labels and shapes given to a name. -/
def labels (L : List Stmt) (a : ℕ) : List (List Char × Bool) := L.filterMap (fun s => match s with
  | .node b w sh => if b = a then some (w, sh) else none
  | _ => none)

/-- Ends of the solid edges that leave a name. -/
def targets (L : List Stmt) (a : ℕ) : List ℕ := L.filterMap (fun s => match s with
  | .edge (some b) c none => if b = a then some c else none
  | _ => none)

/-- Dotted edges that enter a name: where they come from, with their labels. -/
def dotted (L : List Stmt) (a : ℕ) : List (Option ℕ × List Char) := L.filterMap (fun s => match s with
  | .edge b c (some w) => if c = a then some (b, w) else none
  | _ => none)

/-- Names in a statement. -/
def Stmt.names : Stmt → List (Option ℕ)
  | .node a _ _ => [some a]
  | .edge a b _ => [a, some b]

/-- How a drawing writes things: the name of an event, a duration, a start, and whether a distance of zero is written. -/
structure Style where
  name : ℕ → List Char
  time : ℤ → List Char
  start : ℤ → List Char
  zeros : Bool

/-- The label of a box: period and repetitions, preceded by the start for the root. -/
def Style.box (s : Style) (t0 : Option ℤ) (r : ℕ) (p : ℤ) : List Char :=
  (match t0 with
    | some x => "𝜏=".toList ++ s.start x ++ ['\n']
    | none => []) ++ "p=".toList ++ s.time p ++ "\nr=".toList ++ showNat r

/-- The dotted edge that should enter a child which is not the first. -/
def Style.gap (s : Style) (before : ℕ) (d : ℤ) : List (Option ℕ × List Char) := if d = 0 ∧ s.zeros = false then [] else [(some before, s.time d)]

/-- The dotted edge that should enter a child: none for the first one. -/
def Style.gapOf (s : Style) (before : Option ℕ) (d : ℤ) : List (Option ℕ × List Char) := match before with
  | some b => s.gap b d
  | none => []

mutual
/-- The drawing shows the tree: each inner node is one box with period and repetitions (and the start at the root), linked to its children in order; each leaf is one ellipse with the name of its event; a dotted edge with the distance goes from each
child to the next one. `t0` is the start, at the root; `g` is what enters the root of this tree. -/
def Shows (s : Style) (L : List Stmt) (t0 : Option ℤ) (g : List (Option ℕ × List Char)) : NTree ℕ → Prop
  | .leaf id ev => labels L id = [(s.name ev, false)] ∧ targets L id = [] ∧ dotted L id = g
  | .node _ none _ => False
  | .node id (some rp) ch => labels L id = [(s.box t0 rp.1 rp.2, true)] ∧ targets L id = ch.kids.map Prod.fst ∧ dotted L id = g ∧ ShowsF s L none ch
/-- The same for children; `before` is the child before. -/
def ShowsF (s : Style) (L : List Stmt) (before : Option ℕ) : NForest ℕ → Prop
  | .nil => True
  | .cons d t rest => Shows s L none (s.gapOf before d) t ∧ ShowsF s L (some t.id) rest
end

/-- The style of a miner: durations and dates when the index has dates and the times were rescaled, otherwise integers; all times in the unit of the data. -/
def styleOf (clock : ℤ → List Char) (auto : Bool) (f : Fit) : Style where
  name := fun ev => f.events.getD ev []
  time := timeText (auto && f.dates) 1
  start := fun x => if auto && f.dates then clock (micro x) else showInt x
  zeros := auto && f.dates

/-- The unit of the mined times, in the unit of the data. -/
def unitOf (auto : Bool) (f : Fit) : ℤ := if auto then f.k else 1

mutual
/-- The numbered tree with all times multiplied by `k`. -/
def scaleN (k : ℤ) : NTree ℕ → NTree ℕ
  | .leaf id ev => .leaf id ev
  | .node id rp ch => .node id (rp.map (fun x => (x.1, x.2 * k))) (scaleNF k ch)
/-- The same for children. -/
def scaleNF (k : ℤ) : NForest ℕ → NForest ℕ
  | .nil => .nil
  | .cons d t rest => .cons (d * k) (scaleN k t) (scaleNF k rest)
end

mutual
/-- The events of the tree are numbers below `n`. -/
def EventsBelow (n : ℕ) : NTree ℕ → Prop
  | .leaf _ ev => ev < n
  | .node _ _ ch => EventsBelowF n ch
/-- The same for children. -/
def EventsBelowF (n : ℕ) : NForest ℕ → Prop
  | .nil => True
  | .cons _ t rest => EventsBelow n t ∧ EventsBelowF n rest
end

mutual
/-- The tree with names in place of the numbers of the events. -/
def named (name : ℕ → List Char) : PTree.Tree ℕ → PTree.Tree (List Char)
  | .leaf ev => .leaf (name ev)
  | .node r p ch => .node r p (namedF name ch)
/-- The same for children. -/
def namedF (name : ℕ → List Char) : PTree.Forest ℕ → PTree.Forest (List Char)
  | .nil => .nil
  | .cons d t rest => .cons d (named name t) (namedF name rest)
end

/-- The nodes of a pattern of the miner: they describe a tree `t` that is regular, whose events are events of the data. -/
structure Drawable (f : Fit) (ns : NodeDict ℕ) (t : NTree ℕ) : Prop where
  describes : Describes ns t
  regular : ∃ T, t.plain = some T ∧ T.Regular
  events : EventsBelow f.events.length t

/-- The call returns the drawing when the stack is deep enough. -/
def Returns (call : ℕ → Except String (List Stmt)) (L : List Stmt) : Prop := ∃ m, ∀ n, m ≤ n → call n = .ok L

end Verif.Draw
