import Verif.Cost.Model
import Verif.PTree.Spec

/-!
# What a pattern costs to transmit

Written without reference to the functions of `Verif/Cost/Model.lean` (only the record `Details` and the lengths of trees are shared). A pattern is transmitted as: its events with brackets, then a list of numbers, each with the number of values it may take, then its corrections.
-/

set_option autoImplicit false

namespace Verif.Cost

open Verif.PTree

variable {α : Type} [DecidableEq α]

/-- Number of occurrences of an event in the data. -/
def countEv (S : List (ℤ × α)) (a : α) : ℕ := (S.map Prod.snd).count a

/-- The details describe the data: the counts of the events present, and the window of the times. -/
structure IsDetails (S : List (ℤ × α)) (D : Details α) : Prop where
  keys : (D.nb.map Prod.fst).Nodup
  counts : ∀ a n, (a, n) ∈ D.nb ↔ n = countEv S a ∧ 0 < n
  window : ∀ x ∈ S, D.tStart ≤ x.1 ∧ x.1 ≤ D.tEnd

/- Every inner node repeats at least twice with a positive period, and children do not go back in time. -/
mutual
/-- A proper tree. -/
def Proper : PTree.Tree α → Prop
  | .leaf _ => True
  | .node r p ch => 2 ≤ r ∧ 1 ≤ p ∧ ProperF ch
/-- Proper children. -/
def ProperF : Forest α → Prop
  | .nil => True
  | .cons d t rest => 0 ≤ d ∧ Proper t ∧ ProperF rest
end

mutual
/-- The events at the leaves, left to right. -/
def leafEvents : PTree.Tree α → List α
  | .leaf a => [a]
  | .node _ _ ch => leafEventsF ch
/-- The events under successive children. -/
def leafEventsF : Forest α → List α
  | .nil => []
  | .cons _ t rest => leafEvents t ++ leafEventsF rest
end

mutual
/-- The number of inner nodes, each of which costs a pair of brackets. -/
def nbBlocks : PTree.Tree α → ℕ
  | .leaf _ => 0
  | .node _ _ ch => 1 + nbBlocksF ch
/-- The number of inner nodes under successive children. -/
def nbBlocksF : Forest α → ℕ
  | .nil => 0
  | .cons _ t rest => nbBlocks t + nbBlocksF rest
end

/-- A number to transmit, counted from 0, and how many values it may take. -/
abbrev Field := ℤ × ℤ

/-- The number is one of the values it may take. -/
def Fits (f : Field) : Prop := 0 ≤ f.1 ∧ f.1 < f.2

/-- Bits to transmit fields: logarithm of the number of values, summed. -/
noncomputable def bits (l : List Field) : ℝ := (l.map (fun f => Real.logb 2 (f.2 : ℝ))).sum

/-- Occurrences in the data of the rarest event of a block. -/
def rarest (S : List (ℤ × α)) (t : PTree.Tree α) : ℕ := (((leafEvents t).map (countEv S)).min?).getD 0

mutual
/-- The repetitions of the blocks: from 1 up to the occurrences of the rarest event of the block. -/
def fieldsR (S : List (ℤ × α)) : PTree.Tree α → List Field
  | .leaf _ => []
  | .node r p ch => fieldsRF S ch ++ [((r : ℤ) - 1, (rarest S (.node r p ch) : ℤ))]
/-- The repetitions of the blocks under successive children. -/
def fieldsRF (S : List (ℤ × α)) : Forest α → List Field
  | .nil => []
  | .cons _ t rest => fieldsR S t ++ fieldsRF S rest
end

/-- Distances, each at most `room`. -/
def fieldsD : Forest α → ℤ → List Field
  | .nil, _ => []
  | .cons d _ rest, room => (d, room + 1) :: fieldsD rest room

mutual
/-- The periods and distances of a block that has `room` time units from its start: the period is at most `room / (r - 1)`; one repetition has `room - (r - 1)` time units. -/
def fieldsP : PTree.Tree α → ℤ → List Field
  | .leaf _, _ => []
  | .node r p ch, room => (p - 1, room / ((r : ℤ) - 1)) :: fieldsPF ch (room - ((r : ℤ) - 1))
/-- The distances between the children of a repetition that has `room` time units, then the periods and distances of the children. -/
def fieldsPF : Forest α → ℤ → List Field
  | .nil, _ => []
  | .cons _ t rest, room => fieldsD rest room ++ fieldsP t room ++ fieldsPL rest room
/-- The same for the children after the first, which start later. -/
def fieldsPL : Forest α → ℤ → List Field
  | .nil, _ => []
  | .cons d t rest, room => fieldsP t (room - d) ++ fieldsPL rest (room - d)
end

mutual
/-- For each generated occurrence, whether it is in the last repetition of all its blocks (`b` for those above) and the last child of its block. -/
def marks : PTree.Tree α → Bool → Bool → List Bool
  | .leaf _, b, last => [b && last]
  | .node r _ ch, b, _ => (List.range r).flatMap (fun i => marksF ch (b && decide (i + 1 = r)))
/-- The marks under successive children. -/
def marksF : Forest α → Bool → List Bool
  | .nil, _ => []
  | .cons _ t .nil, b => marks t b true
  | .cons _ t (.cons d' t' rest), b => marks t b false ++ marksF (.cons d' t' rest) b
end

/-- How far the marked occurrences are from where the tree puts them. -/
def markedShifts (T : PTree.Tree α) (t0 : ℤ) (times : List ℤ) : List ℤ :=
  ((((gen T t0).zip times).zip (marks T true true)).filter Prod.snd).map (fun x => x.1.2 - x.1.1.1)

/-- Duration of one repetition: largest time generated by the children from 0. -/
def span (ch : Forest α) : ℤ := ((genF ch 0).map Prod.fst).max?.getD 0

/-- The numbers transmitted for a pattern whose occurrences are at `times`: the repetitions of all blocks, the period and the start of the outer cycle, and for a pattern that is not a simple cycle the duration of a repetition and the inner periods and distances.
With `X` the start of the last repetition, the outer period may exceed the actual one by at most the room left, shared by the repetitions, and the start may be anywhere such that the last repetition starts in the window. -/
def message (S : List (ℤ × α)) (D : Details α) (r : ℕ) (p : ℤ) (ch : Forest α) (t0 : ℤ) (times : List ℤ) : List Field :=
  let X := (times[(r - 1) * nbOccsF ch]?).getD 0
  let room := D.tEnd - D.tStart - (X - t0)
  fieldsR S (.node r p ch) ++ [(p - 1, p + room / ((r : ℤ) - 1)), (t0 - D.tStart, room + 1)] ++
    match ch with
    | .cons _ (.leaf _) .nil => []
    | ch => (span ch, D.tEnd - t0 - p * ((r : ℤ) - 1) - ((markedShifts (.node r p ch) t0 times).min?).getD 0 + 1) :: fieldsPF ch (span ch)

/-- Bits for the events and brackets: an event costs the logarithm of 3 over its frequency, a bracket the logarithm of 3. -/
noncomputable def eventBits (S : List (ℤ × α)) (T : PTree.Tree α) : ℝ :=
  ((leafEvents T).map (fun a => Real.logb 2 (3 * (S.length : ℝ) / (countEv S a : ℝ)))).sum + 2 * (nbBlocks T : ℝ) * Real.logb 2 3

/-- Bits for the corrections: two, and one per unit. -/
def corrBits (E : List ℤ) : ℤ := 2 * (E.length : ℤ) + (E.map (fun e => |e|)).sum

end Verif.Cost
