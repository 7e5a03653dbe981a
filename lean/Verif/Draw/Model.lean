import Verif.Nodes.Model
import Verif.Display.Model

/-!
# The drawing of a pattern (C106)

Source: `/repo/skmine/periodic/pattern.py:55-135` and `/repo/skmine/periodic/cycles.py:429-480`.

A drawing is the list of the statements sent to the graph library, in order. Names of nodes are their numbers (`str` of a number is one-to-one).
-/

set_option autoImplicit false

namespace Verif.Draw

open Verif.Nodes Verif.Display Verif.Text

/-- A time in the dictionary that is drawn: an integer, a `timedelta` or a `datetime`, the latter two in microseconds. -/
inductive Val
  | int (x : ℤ)
  | delta (us : ℤ)
  | date (us : ℤ)
  deriving DecidableEq

/-- An entry of the dictionary that is drawn. -/
inductive DNode
  | leaf (event : List Char)
  | inner (rp : Option (ℕ × Val)) (children : List (ℕ × Val))

/-- The dictionary that is drawn. -/
structure DPattern where
  nodes : List (ℕ × DNode)
  t0 : Val

/-- A statement of the drawing: `graph.node(name, label, shape)` and `graph.edge(a, b)`; `none` as the source is the name `-1`; an edge with a label is dotted, one without label is solid. -/
inductive Stmt
  | node (name : ℕ) (label : List Char) (box : Bool)
  | edge (a : Option ℕ) (b : ℕ) (label : Option (List Char))
  deriving DecidableEq

/-- `str` of a time; `clock` prints a date (library function). -/
def Val.str (clock : ℤ → List Char) : Val → List Char
  | .int x => showInt x
  | .delta us => deltaText us
  | .date us => clock us

/-- `child[1] != 0`: a `timedelta` is never equal to 0. -/
def Val.nonzero : Val → Bool
  | .int x => decide (x ≠ 0)
  | _ => true

/-- The label of an inner node, `/repo/skmine/periodic/pattern.py:107-110`. -/
def boxLabel (clock : ℤ → List Char) (t0 : Option Val) (r : ℕ) (p : Val) : List Char :=
  (match t0 with
    | some t0 => '𝜏' :: '=' :: (t0.str clock ++ ['\n'])
    | none => []) ++ 'p' :: '=' :: (p.str clock ++ '\n' :: 'r' :: '=' :: showNat r)

/-- The start is shown in node 0, `/repo/skmine/periodic/pattern.py:107`. -/
def startAt (id : ℕ) (t0 : Val) : Option Val := if id = 0 then some t0 else none

/-- The dotted edge, `/repo/skmine/periodic/pattern.py:116-118, 131-132`. -/
def gapStmt (clock : ℤ → List Char) (id : ℕ) : Option (ℕ × Val) → List Stmt
  | some (a, d) => [.edge (some a) id (some (d.str clock))]
  | none => []

/-- The distance handed to the call for a child, `/repo/skmine/periodic/pattern.py:121`. -/
def childGap (prev : ℕ) (d : Val) : Option (ℕ × Val) := if d.nonzero then some (prev, d) else none

/-- The number of the last element: `element["children"][-1][0]` for the child of position 0. -/
def lastId : List (ℕ × Val) → ℕ
  | [] => 0
  | [c] => c.1
  | _ :: rest => lastId rest

mutual
/-- `draw_pattern_rec`, `/repo/skmine/periodic/pattern.py:75-135`; the first argument bounds the depth of the recursion. -/
def drawRec (clock : ℤ → List Char) (P : DPattern) : ℕ → ℕ → Option ℕ → Option (ℕ × Val) → Except String (List Stmt)
  | 0, _, _, _ => .error "RecursionError"
  | f + 1, id, parent, gap =>
    match P.nodes.lookup id with
    | none => .error "KeyError"
    | some (.inner (some (r, p)) ch) =>
      (drawAll clock P f id (lastId ch) ch).map (fun L =>
        .node id (boxLabel clock (startAt id P.t0) r p) true ::
          ((match parent with
            | some q => .edge (some q) id none :: gapStmt clock id gap
            | none => []) ++ L))
    | some (.inner none _) => .error "KeyError"
    | some (.leaf ev) => .ok (.node id ev false :: .edge parent id none :: gapStmt clock id gap)
/-- The loop over the children, `/repo/skmine/periodic/pattern.py:120-124`: `prev` is the number of the child before (of the last one for the first). -/
def drawAll (clock : ℤ → List Char) (P : DPattern) : ℕ → ℕ → ℕ → List (ℕ × Val) → Except String (List Stmt)
  | _, _, _, [] => .ok []
  | 0, _, _, _ :: _ => .error "RecursionError"
  | f + 1, id, prev, (c, d) :: rest =>
    match drawRec clock P f c (some id) (childGap prev d), drawAll clock P f id c rest with
    | .ok A, .ok B => .ok (A ++ B)
    | .error e, _ => .error e
    | _, .error e => .error e
end

/-! ### The miner -/

/-- A period or a distance in the unit of the data, `/repo/skmine/periodic/cycles.py:458-461, 464-468`; `k` is `10 ** n_zeros * div_nb_sec`. -/
def restore (auto dates : Bool) (k x : ℤ) : Val := if auto then (if dates then .delta (micro (x * k)) else .int (x * k)) else .int x

/-- The start in the unit of the data, `/repo/skmine/periodic/cycles.py:471-475`: `utcfromtimestamp` rounds to microseconds; the division is exact here, a float in the code. -/
def restoreStart (auto dates : Bool) (k x : ℤ) : Val := if auto then (if dates then .date (micro (x * k)) else .int (x * k)) else .int x

/-- The children of a node, `/repo/skmine/periodic/cycles.py:462-469`: the first distance is left as it is. -/
def restoreKids (auto dates : Bool) (k : ℤ) : List (ℕ × ℤ) → List (ℕ × Val)
  | [] => []
  | (c, d) :: rest => (c, .int d) :: rest.map (fun x => (x.1, restore auto dates k x.2))

/-- A node, `/repo/skmine/periodic/cycles.py:452-469`; `events` are the names in the order of their numbers. -/
def restoreNode (auto dates : Bool) (k : ℤ) (events : List (List Char)) : Node ℕ → Except String DNode
  | .leaf _ ev =>
    match events[ev]? with
    | some w => .ok (.leaf w)
    | none => .error "IndexError"
  | .inner _ rp ch =>
    match rp with
    | some (r, p) => .ok (.inner (some (r, restore auto dates k p)) (restoreKids auto dates k ch))
    | none => .ok (.inner none (ch.map (fun x => (x.1, .int x.2))))

/-- The loop over the nodes, `/repo/skmine/periodic/cycles.py:452-469`. -/
def restoreNodes (auto dates : Bool) (k : ℤ) (events : List (List Char)) : NodeDict ℕ → Except String (List (ℕ × DNode))
  | [] => .ok []
  | (id, n) :: rest =>
    match restoreNode auto dates k events n, restoreNodes auto dates k events rest with
    | .ok a, .ok b => .ok ((id, a) :: b)
    | .error e, _ => .error e
    | _, .error e => .error e

/-- What `fit` leaves in the miner, `/repo/skmine/periodic/cycles.py:121-160`: kind of index, factor of the scaling, names of the events in the order of their numbers, patterns with their starts. -/
structure Fit where
  dates : Bool
  k : ℤ
  events : List (List Char)
  mined : List (NodeDict ℕ × ℤ)

/-- The attributes that `draw_pattern` reads. `cycles` does not exist before the first `transform`. -/
structure Obj where
  auto : Bool
  fit : Option Fit
  cycles : Option (List (NodeDict ℕ × ℤ))

/-- A new miner, `/repo/skmine/periodic/cycles.py:84-86`. -/
def Obj.new (auto : Bool) : Obj := ⟨auto, none, none⟩

/-- `fit`, `/repo/skmine/periodic/cycles.py:97-161`: `cycles` is not touched. -/
def Obj.doFit (o : Obj) (f : Fit) : Obj := { o with fit := some f }

/-- `transform`, `/repo/skmine/periodic/cycles.py:201-232`: without patterns it returns before `cycles` is set. Rows keep their numbers when they are sorted. -/
def Obj.transform (o : Obj) : Obj :=
  match o.fit with
  | none => o
  | some f => if f.mined.isEmpty then o else { o with cycles := some f.mined }

/-- `draw_pattern(pattern_id)`, `/repo/skmine/periodic/cycles.py:429-480`, for a pattern with the nodes `ns` and the start `t0` drawn with the attributes of `f`. -/
def drawWith (clock : ℤ → List Char) (auto : Bool) (f : Fit) (fuel : ℕ) (ns : NodeDict ℕ) (t0 : ℤ) : Except String (List Stmt) :=
  (restoreNodes auto f.dates f.k f.events ns).bind (fun nodes => drawRec clock ⟨nodes, restoreStart auto f.dates f.k t0⟩ fuel 0 none none)

/-- `draw_pattern(pattern_id)`, `/repo/skmine/periodic/cycles.py:429-480`: `AttributeError` before the first `transform` (`self.cycles` does not exist, line 447), `KeyError` for a number that is not in the table. -/
def Obj.draw (clock : ℤ → List Char) (o : Obj) (fuel i : ℕ) : Except String (List Stmt) :=
  match o.fit, o.cycles with
  | some f, some rows =>
    match rows[i]? with
    | some (ns, t0) => drawWith clock o.auto f fuel ns t0
    | none => .error "KeyError"
  | _, _ => .error "AttributeError"

end Verif.Draw
