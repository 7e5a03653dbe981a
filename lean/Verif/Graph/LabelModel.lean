import Mathlib.Data.List.Count
import Mathlib.Data.Nat.Notation

/-!
# Labels, support and candidates of GraphMDL: model

Source: `/repo/skmine/graph/graphmdl/utils.py:50-116, 420-451` and `/repo/skmine/graph/graphmdl/candidate.py`.
-/

set_option autoImplicit false

namespace Verif.Graph

variable {σ : Type} [DecidableEq σ]

/-- The `label` attribute of a vertex or of an edge: missing, a string, a tuple of strings or a list of strings. -/
inductive Label (σ : Type) where
  | none
  | str (s : σ)
  | tuple (l : List σ)
  | list (l : List σ)
  deriving DecidableEq, Repr

/-- A labelled graph: vertices and edges with their labels, in the order of networkx. In a simple graph an ordered pair of vertices occurs once in `edges`, in a multigraph several times. -/
structure LGraph (σ : Type) where
  nodes : List (ℕ × Label σ)
  edges : List (ℕ × ℕ × Label σ)

/-- The values stored by the loops of `count_edge_label` / `count_vertex_label`, `utils.py:60-71, 85-95`: one per string, or per element of a tuple. A list is stored as one value. -/
def labelValues : List (Label σ) → List (σ ⊕ List σ)
  | [] => []
  | .none :: t => labelValues t
  | .str s :: t => .inl s :: labelValues t
  | .tuple l :: t => l.map .inl ++ labelValues t
  | .list l :: t => .inr l :: labelValues t

/-- One step of `Counter`: add one to the count of a key, new keys at the end. -/
def bump (k : σ) : List (σ × ℕ) → List (σ × ℕ)
  | [] => [(k, 1)]
  | (a, n) :: t => if a = k then (a, n + 1) :: t else (a, n) :: bump k t

/-- `Counter(values)` (`utils.py:72, 96`): a list is not hashable, hence the error. -/
def counter : List (σ ⊕ List σ) → List (σ × ℕ) → Except String (List (σ × ℕ))
  | [], acc => .ok acc
  | .inl s :: t, acc => counter t (bump s acc)
  | .inr _ :: _, _ => .error "TypeError: unhashable type: 'list'"

/-- `count_vertex_label`, `utils.py:75-96`. -/
def countVertex (g : LGraph σ) : Except String (List (σ × ℕ)) := counter (labelValues (g.nodes.map Prod.snd)) []

/-- `count_edge_label`, `utils.py:50-72`. -/
def countEdge (g : LGraph σ) : Except String (List (σ × ℕ)) := counter (labelValues (g.edges.map (fun e => e.2.2))) []

/-- `d[k] = v`: an existing key keeps its place. -/
def setKey (k : σ) (v : ℕ) : List (σ × ℕ) → List (σ × ℕ)
  | [] => [(k, v)]
  | (a, n) :: t => if a = k then (a, v) :: t else (a, n) :: setKey k v t

/-- `d.update(e)`. -/
def update (d e : List (σ × ℕ)) : List (σ × ℕ) := e.foldl (fun d p => setKey p.1 p.2 d) d

/-- `get_total_label`, `utils.py:99-116` (the float sum of integers is exact). -/
def totalLabel (g : LGraph σ) : Except String ℕ :=
  match countEdge g, countVertex g with
  | .ok e, .ok v => .ok ((update e v).map Prod.snd).sum
  | .error m, _ => .error m
  | _, .error m => .error m

/-! ## Support -/

/-- An embedding: a dictionary from data vertices to pattern vertices. -/
abbrev Embedding := List (ℕ × ℕ)

/-- One step of the loop of `get_support`, `utils.py:434-439`: the first image of a pattern vertex creates an empty set, the next ones are added. -/
def addImage (acc : List (ℕ × List ℕ)) (i : ℕ × ℕ) : List (ℕ × List ℕ) :=
  match acc with
  | [] => [(i.2, [])]
  | (p, s) :: t => if p = i.2 then (p, if i.1 ∈ s then s else s ++ [i.1]) :: t else (p, s) :: addImage t i

/-- `get_support`, `utils.py:420-451`. `min` of an empty sequence raises. -/
def getSupport (es : List Embedding) : Except String ℕ :=
  if es = [] then .ok 0
  else match ((es.flatten.foldl addImage []).map (fun x => x.2.length)).min? with
    | some m => .ok m
    | Option.none => .error "ValueError: min() arg is an empty sequence"

/-! ## Candidates -/

/-- A merge candidate: the labels of two patterns and the associated ports, `candidate.py:4-28`. -/
structure Cand (σ : Type) where
  first : σ
  second : σ
  port : List (σ × σ)
  deriving DecidableEq

/-- `_is_ports_equals`, `candidate.py:171-182`. -/
def portsEqual (own ports : List (σ × σ)) : Bool :=
  if ports.length ≠ own.length then false else own.all (fun p => decide (p ∈ ports))

/-- `a == b`, `candidate.py:215-218`. -/
def candEq (a b : Cand σ) : Bool := decide (b.first = a.first) && decide (b.second = a.second) && portsEqual a.port b.port

/-- `inverse`, `candidate.py:195-210`: the fields of the object are overwritten and the object itself is returned. The result is the pair (value returned, value of the object after the call). -/
def inverse (c : Cand σ) : Cand σ × Cand σ :=
  let c' : Cand σ := ⟨c.second, c.first, c.port.map (fun p => (p.2, p.1))⟩
  (c', c')

end Verif.Graph
