import Verif.PTree.Model
import Mathlib.Data.List.Sort

/-!
# Kinds of patterns, events of a pattern (C76)

Source: `/repo/skmine/periodic/pattern.py` and `/repo/skmine/periodic/pattern_collection.py`.

Trees are those of `Verif/PTree/Model.lean`. The tests of `isNode` always hold on a tree. `numpy.max` of an empty list raises (`none`).
-/

set_option autoImplicit false

namespace Verif.Kinds

open Verif.PTree

variable {α : Type}

mutual
/-- `Pattern.getDepth`, `/repo/skmine/periodic/pattern.py:1239-1257`. -/
def depth : PTree.Tree α → Option ℕ
  | .leaf _ => some 0
  | .node _ _ ch => (depthF ch).map (fun m => 1 + m)
/-- `np.max` over the children. -/
def depthF : Forest α → Option ℕ
  | .nil => none
  | .cons _ t .nil => depth t
  | .cons _ t (.cons d t' rest) =>
    match depth t, depthF (.cons d t' rest) with
    | some a, some b => some (max a b)
    | _, _ => none
end

mutual
/-- `Pattern.getWidth`, `/repo/skmine/periodic/pattern.py:1259-1277`. -/
def width : PTree.Tree α → ℕ
  | .leaf _ => 1
  | .node _ _ ch => widthF ch
/-- `np.sum` over the children. -/
def widthF : Forest α → ℕ
  | .nil => 0
  | .cons _ t rest => width t + widthF rest
end

/-- `Pattern.isSimpleCycle`, `/repo/skmine/periodic/pattern.py:1300-1313`. -/
def isSimpleCycle (t : PTree.Tree α) : Option Bool := (depth t).map (fun d => d == 1 && width t == 1)

/-- `Pattern.isNested`, `/repo/skmine/periodic/pattern.py:1315-1329`. -/
def isNested (t : PTree.Tree α) : Option Bool := (depth t).map (fun d => decide (1 < d) && width t == 1)

/-- `Pattern.isConcat`, `/repo/skmine/periodic/pattern.py:1331-1345`. -/
def isConcat (t : PTree.Tree α) : Option Bool := (depth t).map (fun d => d == 1 && decide (1 < width t))

/-- The strings of `getTypeStr`. -/
inductive Kind | simple | nested | concat | other
  deriving DecidableEq, Repr

/-- `Pattern.getTypeStr`, `/repo/skmine/periodic/pattern.py:1347-1363`. -/
def typeStr (t : PTree.Tree α) : Option Kind :=
  match isSimpleCycle t with
  | none => none
  | some true => some .simple
  | some false =>
    match isNested t with
    | none => none
    | some true => some .nested
    | some false =>
      match isConcat t with
      | none => none
      | some true => some .concat
      | some false => some .other

/-- `nbs[k] = nbs.get(k, 0) + 1`. -/
def bump (k : Kind) : List (Kind × ℕ) → List (Kind × ℕ)
  | [] => [(k, 1)]
  | (k', n) :: rest => if k' = k then (k', n + 1) :: rest else (k', n) :: bump k rest

/-- `PatternCollection.nbPatternsByType`, `/repo/skmine/periodic/pattern_collection.py:76-89`, on the trees of the patterns. -/
def nbByType (ts : List (PTree.Tree α)) : Option (List (Kind × ℕ)) :=
  ts.foldlM (fun nbs t => (typeStr t).map (fun k => bump k nbs)) []

/-- The order of the report, `sorted(nbs.items(), key=lambda x: -x[1])`, `/repo/skmine/periodic/pattern_collection.py:242`. -/
def reportOrder (nbs : List (Kind × ℕ)) : List (Kind × ℕ) := nbs.insertionSort (fun a b => b.2 ≤ a.2)

/-! ### Events -/

/-- `n * ll` for a list. -/
def times {β : Type} (n : ℕ) (l : List β) : List β := (List.replicate n l).flatten

mutual
/-- `Pattern.getEventsMinor`, `/repo/skmine/periodic/pattern.py:820-848`; the flag is `rep`. -/
def eventsMinor : Bool → PTree.Tree α → List α
  | _, .leaf ev => [ev]
  | rep, .node r _ ch => if rep then times r (eventsMinorF ch) else eventsMinorF ch
/-- The loop over the children, always with `rep=True`. -/
def eventsMinorF : Forest α → List α
  | .nil => []
  | .cons _ t rest => eventsMinor true t ++ eventsMinorF rest
end

/-- A token of `getEventsList`: an event or a parenthesis. -/
inductive Token (α : Type)
  | open | close | ev (a : α)

mutual
/-- `Pattern.getEventsList`, `/repo/skmine/periodic/pattern.py:787-818`; the flag is `add_delimiter`; events are not yet written as text. -/
def eventsList : Bool → PTree.Tree α → List (Token α)
  | _, .leaf e => [.ev e]
  | delim, .node _ _ ch => if delim then .open :: (eventsListF delim ch ++ [.close]) else eventsListF delim ch
/-- The loop over the children. -/
def eventsListF : Bool → Forest α → List (Token α)
  | _, .nil => []
  | delim, .cons _ t rest => eventsList delim t ++ eventsListF delim rest
end

/-! ### Counts -/

mutual
/-- `Pattern.cardO`, `/repo/skmine/periodic/pattern.py:1464-1483`. -/
def cardO : PTree.Tree α → ℕ
  | .leaf _ => 1
  | .node r _ ch => r * cardOF ch
/-- The sum over the children. -/
def cardOF : Forest α → ℕ
  | .nil => 0
  | .cons _ t rest => cardO t + cardOF rest
end

mutual
/-- `Pattern.getRVals`, `/repo/skmine/periodic/pattern.py:1417-1440`. -/
def rVals : PTree.Tree α → List ℕ
  | .leaf _ => []
  | .node r _ ch => r :: rValsF ch
/-- The loop over the children. -/
def rValsF : Forest α → List ℕ
  | .nil => []
  | .cons _ t rest => rVals t ++ rValsF rest
end

/-- `occs[::n]` for `n ≥ 1`; `occs[::0]` raises `ValueError`. -/
def everyNth {β : Type} (n : ℕ) (l : List β) : Option (List β) :=
  if n = 0 then none else some ((List.range ((l.length + n - 1) / n)).filterMap (fun j => l[j * n]?))

/-- `Pattern.nodeR(0)`, `/repo/skmine/periodic/pattern.py:1052-1069`. -/
def rootR : PTree.Tree α → ℕ
  | .leaf _ => 0
  | .node r _ _ => r

/-- `Pattern.nodeP(0)`, `/repo/skmine/periodic/pattern.py:1033-1050`. -/
def rootP : PTree.Tree α → ℤ
  | .leaf _ => 0
  | .node _ p _ => p

/-- `Pattern.getMajorOccs`, `/repo/skmine/periodic/pattern.py:1071-1091`. -/
def majorOccs {β : Type} (t : PTree.Tree α) (occs : List β) : Option (List β) :=
  match depth t with
  | none => none
  | some d =>
    if 1 < d ∨ 1 < width t then
      if rootR t = 0 then none else everyNth (occs.length / rootR t) occs
    else some occs

end Verif.Kinds
