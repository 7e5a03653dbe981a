import Verif.Graph.LabelModel

/-!
# Merging two patterns of GraphMDL: model

Source: `/repo/skmine/graph/graphmdl/candidate.py:39-169` and `utils.py:982-1004`. Directed graphs and directed multigraphs. A port name `v3` stands for the vertex 3 (`candidate.py:63`): ports are pairs of vertices here.
-/

set_option autoImplicit false

namespace Verif.Graph

variable {σ : Type} [DecidableEq σ]

/-- `add_node` of networkx: a vertex that is already there keeps its place, and keeps its label unless another one is given. -/
def addNode (nodes : List (ℕ × Label σ)) (v : ℕ) (l : Label σ) : List (ℕ × Label σ) :=
  if v ∈ nodes.map Prod.fst then nodes.map (fun n => if n.1 = v then (v, if l = .none then n.2 else l) else n) else nodes ++ [(v, l)]

/-- `add_edge` of networkx: missing ends are created. In a multigraph the edge is added beside the parallel ones; otherwise an edge with the same ends gets the new label. -/
def addEdge (multi : Bool) (g : LGraph σ) (u v : ℕ) (l : Label σ) : LGraph σ :=
  { nodes := addNode (addNode g.nodes u .none) v .none
    edges := if !multi && g.edges.any (fun e => decide (e.1 = u ∧ e.2.1 = v)) then g.edges.map (fun e => if e.1 = u ∧ e.2.1 = v then (u, v, l) else e)
      else g.edges ++ [(u, v, l)] }

/-- The loop over the labels to add, `candidate.py:156-158, 166-168`. -/
def appendNew (acc ls : List σ) : List σ := ls.foldl (fun acc l => if l ∈ acc then acc else acc ++ [l]) acc

/-- `_get_new_label`, `candidate.py:137-169`. Two strings give a string or a tuple, everything else a list. It is called with two labels; a missing label (`none`) stands for an empty one. -/
def newLabel (first second : Label σ) : Label σ :=
  match second with
  | .str s => match first with
    | .str a => if a ≠ s then .tuple [a, s] else .str s
    | .tuple l => .list (appendNew [s] l)
    | .list l => .list (appendNew [s] l)
    | .none => .list [s]
  | .tuple l => match first with
    | .str a => .list (if a ∈ l then l else l ++ [a])
    | .tuple k => .list (appendNew l k)
    | .list k => .list (appendNew l k)
    | .none => .list l
  | .list l => match first with
    | .str a => .list (if a ∈ l then l else l ++ [a])
    | .tuple k => .list (appendNew l k)
    | .list k => .list (appendNew l k)
    | .none => .list l
  | .none => first

/-- `add_edge(.., label=edge[2]['label'])`: an edge without label is a KeyError. -/
def addLabelled (multi : Bool) (g : LGraph σ) (u v : ℕ) (l : Label σ) : Except String (LGraph σ) :=
  if l = .none then .error "KeyError" else .ok (addEdge multi g u v l)

/-- The edge loop of `create_candidate_first_pattern`, `candidate.py:85-86`. -/
def firstEdges (multi : Bool) : List (ℕ × ℕ × Label σ) → LGraph σ → Except String (LGraph σ)
  | [], g => .ok g
  | (u, v, l) :: t, g => (addLabelled multi g u v l).bind (firstEdges multi t)

/-- `create_candidate_first_pattern`, `candidate.py:71-86`, on an empty graph. -/
def firstPattern (multi : Bool) (p : LGraph σ) : Except String (LGraph σ) :=
  firstEdges multi p.edges ⟨p.nodes.foldl (fun acc n => addNode acc n.1 n.2) [], []⟩

/-- `first_port[second_port.index(b)]`, `candidate.py:111, 126`. -/
def portOf (ports : List (ℕ × ℕ)) (b : ℕ) : Option ℕ := (ports.find? (fun p => decide (p.2 = b))).map Prod.fst

/-- `graph.nodes[a]['label'] = ..`, `candidate.py:112-117`: the label of the port is completed. The port must be a vertex of the graph (KeyError), which only matters when a label is added. -/
def addPortLabel (nodes : List (ℕ × Label σ)) (a : ℕ) (l : Label σ) : Except String (List (ℕ × Label σ)) :=
  if l = .none then .ok nodes
  else match nodes.lookup a with
    | Option.none => .error "KeyError"
    | some k => .ok (addNode nodes a (if k = .none then l else newLabel l k))

/-- The vertex loop of `create_candidate_second_pattern`, `candidate.py:103-117`: vertices of the graph and `mapping`. -/
def secondNodes (ports : List (ℕ × ℕ)) : List (ℕ × Label σ) → List (ℕ × Label σ) → List (ℕ × ℕ) → Except String (List (ℕ × Label σ) × List (ℕ × ℕ))
  | [], nodes, mp => .ok (nodes, mp)
  | (b, l) :: t, nodes, mp => match portOf ports b with
    | Option.none => secondNodes ports t (addNode nodes (nodes.length + 1) l) ((b, nodes.length + 1) :: mp)
    | some a => (addPortLabel nodes a l).bind (fun nodes => secondNodes ports t nodes mp)

/-- `mapping[p[1]] = p[0]` for every port, `candidate.py:120-121`; later entries hide earlier ones. -/
def portMapping (ports mp : List (ℕ × ℕ)) : List (ℕ × ℕ) := ports.foldl (fun mp p => (p.2, p.1) :: mp) mp

/-- `mapping[x]`. -/
def mapped (mp : List (ℕ × ℕ)) (b : ℕ) : Except String ℕ := match mp.lookup b with
  | some a => .ok a
  | Option.none => .error "KeyError"

/-- The ends of an edge of the second pattern in the graph, `candidate.py:125-135`. A loop on a vertex that is no port reads `port[1]` where `port` is an integer or is not assigned: the error of both is TypeError here (UnboundLocalError
if no port was met before). -/
def edgeEnds (ports mp : List (ℕ × ℕ)) (u v : ℕ) : Except String (ℕ × ℕ) :=
  match portOf ports u with
  | some a => (mapped mp v).map (fun b => (a, b))
  | Option.none => match portOf ports v with
    | some b => (mapped mp u).map (fun a => (a, b))
    | Option.none => if u = v then .error "TypeError" else (mapped mp u).bind (fun a => (mapped mp v).map (fun b => (a, b)))

/-- The edge loop of `create_candidate_second_pattern`, `candidate.py:124-135`. -/
def secondEdges (multi : Bool) (ports mp : List (ℕ × ℕ)) : List (ℕ × ℕ × Label σ) → LGraph σ → Except String (LGraph σ)
  | [], g => .ok g
  | (u, v, l) :: t, g => (edgeEnds ports mp u v).bind (fun x => (addLabelled multi g x.1 x.2 l).bind (secondEdges multi ports mp t))

/-- `create_candidate_second_pattern`, `candidate.py:88-135`. -/
def secondPattern (multi : Bool) (q g : LGraph σ) (ports : List (ℕ × ℕ)) : Except String (LGraph σ) :=
  (secondNodes ports q.nodes g.nodes []).bind (fun x => secondEdges multi ports (portMapping ports x.2) q.edges ⟨x.1, g.edges⟩)

/-- `merge_candidate`, `candidate.py:51-69`. `multi`: the first pattern is a multigraph. -/
def mergeCand (multi : Bool) (p q : LGraph σ) (ports : List (ℕ × ℕ)) : Except String (LGraph σ) :=
  (firstPattern multi p).bind (fun g => secondPattern multi q g ports)

/-- `create_singleton_pattern` for an edge label, `utils.py:997-999`. -/
def edgeSingleton (l : σ) : LGraph σ := ⟨[(1, .none), (2, .none)], [(1, 2, .str l)]⟩

/-- `create_singleton_pattern` for a vertex label, `utils.py:1000-1001`. -/
def vertexSingleton (l : σ) : LGraph σ := ⟨[(1, .str l)], []⟩

end Verif.Graph
