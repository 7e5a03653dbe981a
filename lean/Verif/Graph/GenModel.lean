import Verif.Graph.DescModel
import Mathlib.Data.Finset.Card
import Mathlib.Data.Finset.Union
import Mathlib.Data.Finset.Dedup
import Mathlib.Algebra.BigOperators.Group.Finset.Basic
import Mathlib.Algebra.Order.Floor.Ring
import Mathlib.Data.Rat.Floor

/-!
# The merge candidates of a rewritten graph: model

Source: `/repo/skmine/graph/graphmdl/utils.py:490-535, 634-681, 740-1004, 1055-1073`, `candidate.py:4-28, 171-218`. Numbers are rationals instead of floats.
-/

set_option autoImplicit false

namespace Verif.Graph

variable {σ : Type} [DecidableEq σ]

/-- The node with a number. -/
def RGraph.node? (rg : RGraph σ) (x : ℕ) : Option (RNode σ) := if x = 0 then none else rg.nodes[x - 1]?

/-- The nodes without the attribute `is_Pattern`, `utils.py:902` and `utils.py:647`. -/
def RGraph.portNodes (rg : RGraph σ) : List ℕ :=
  (List.range' 1 rg.nodes.length).filter (fun x => match rg.node? x with
    | some n => !n.isPattern
    | none => false)

/-- The sources of `in_edges(port)`, in the order the edges were made, `utils.py:904`. -/
def RGraph.sources (rg : RGraph σ) (p : ℕ) : List ℕ := (rg.edges.filter (fun e => decide (e.2.1 = p))).map Prod.fst

/-- The pairs built by `get_port_candidates`, `utils.py:740-757`, before `list(set)`. -/
def pairsOf : List ℕ → List (ℕ × ℕ)
  | [] => []
  | x :: t => t.map (fun y => (x, y)) ++ pairsOf t

/-- The ports found by `get_two_nodes_all_port`, `utils.py:634-657`, before `list(set)`. -/
def RGraph.sharedPorts (rg : RGraph σ) (x y : ℕ) : List ℕ :=
  rg.portNodes.filter (fun p => decide ((rg.sources p).countP (fun z => decide (z = x ∨ z = y)) = 2))

/-- `get_edge_label` on the rewritten graph, `utils.py:490-523`; 0 stands for the ValueError of a missing edge, which cannot occur on shared ports. -/
def RGraph.edgeLabel (rg : RGraph σ) (x p : ℕ) : ℕ := ((rg.edges.find? (fun e => decide (e.1 = x ∧ e.2.1 = p))).map (fun e => e.2.2)).getD 0

/-- What the generation of candidates reads besides the graph: the order of `list(set)` for pairs of nodes and for ports; the number in the name of a row (`int(label.split('P')[1])`); the order of labels; the labels with an edge or a
vertex singleton in the last cover; the number of rows; whether the pattern of a row has no edge. -/
structure GenEnv (σ : Type) where
  ordPairs : List (ℕ × ℕ) → List (ℕ × ℕ)
  ordPorts : List ℕ → List ℕ
  idx : σ → ℕ
  lt : σ → σ → Bool
  isE : σ → Bool
  isV : σ → Bool
  nRows : ℕ
  noEdge : ℕ → Bool

/-- A candidate, `candidate.py:19-29`; a port `v3` is 3, a pattern is given by what it stands for. The set `data_port` is a Finset. -/
structure GCand (σ : Type) where
  first : σ
  second : σ
  port : List (ℕ × ℕ)
  dataPort : Finset ℕ
  firstPat : Option (PKind σ)
  secondPat : Option (PKind σ)
  usage : ℚ
  exclusive : ℕ
  deriving DecidableEq

/-- `a == b`, `candidate.py:215-218`. -/
def GCand.same (a b : GCand σ) : Bool := decide (b.first = a.first) && decide (b.second = a.second) && portsEqual a.port b.port

/-- `get_all_candidate_ports_labels_tuple`, `utils.py:660-681`. -/
def portTuples (rg : RGraph σ) (ports : List ℕ) (x y : ℕ) (inverse : Bool) : List (ℕ × ℕ) :=
  ports.map (fun p => if inverse then (rg.edgeLabel y p, rg.edgeLabel x p) else (rg.edgeLabel x p, rg.edgeLabel y p))

/-- `code_table.rows()[i].pattern()`. -/
def rowPattern (env : GenEnv σ) (i : ℕ) : Except String (PKind σ) := if i < env.nRows then .ok (.row i) else .error "IndexError"

/-- `create_singleton_pattern`, `utils.py:982-1004`. -/
def singletonPattern (env : GenEnv σ) (l : σ) : Except String (PKind σ) :=
  if env.isE l then .ok (.edge l) else if env.isV l then .ok (.vertex l) else .error "ValueError"

/-- The candidate made for two nodes, `utils.py:907-953`. -/
def makeCand (env : GenEnv σ) (rg : RGraph σ) (x y : ℕ) : Except String (GCand σ) :=
  match rg.node? x, rg.node? y with
  | some n, some m =>
    let all := env.ordPorts (rg.sharedPorts x y)
    if !n.isSingleton && !m.isSingleton then
      let inv := !decide (env.idx n.label < env.idx m.label)
      let a := if inv then m.label else n.label
      let b := if inv then n.label else m.label
      (rowPattern env (env.idx a)).bind (fun k1 => (rowPattern env (env.idx b)).map (fun k2 =>
        ⟨a, b, portTuples rg all x y inv, all.toFinset, some k1, some k2, 0, 0⟩))
    else if n.isSingleton && !m.isSingleton then
      (rowPattern env (env.idx m.label)).map (fun k1 => ⟨m.label, n.label, portTuples rg all x y true, all.toFinset, some k1, none, 0, 0⟩)
    else if !n.isSingleton && m.isSingleton then
      (rowPattern env (env.idx n.label)).bind (fun k1 => (singletonPattern env m.label).map (fun k2 =>
        ⟨n.label, m.label, portTuples rg all x y false, all.toFinset, some k1, some k2, 0, 0⟩))
    else if env.lt n.label m.label then .ok ⟨n.label, m.label, portTuples rg all x y false, all.toFinset, none, none, 0, 0⟩
    else .ok ⟨m.label, n.label, portTuples rg all x y true, all.toFinset, none, none, 0, 0⟩
  | _, _ => .error "KeyError"

/-- `utils.py:955-960`: a new candidate is appended, otherwise its data ports are added to those of the first equal one. -/
def addCand : List (GCand σ) → GCand σ → List (GCand σ)
  | [], c => [c]
  | d :: t, c => if d.same c then { d with dataPort := d.dataPort ∪ c.dataPort } :: t else d :: addCand t c

/-- The loops of `generate_candidates`, `utils.py:903-960`, over the pairs of nodes in the order they are visited. -/
def collect (env : GenEnv σ) (rg : RGraph σ) : List (ℕ × ℕ) → List (GCand σ) → Except String (List (GCand σ))
  | [], cs => .ok cs
  | q :: t, cs => (makeCand env rg q.1 q.2).bind (fun c => collect env rg t (addCand cs c))

/-- The pairs of nodes visited, `utils.py:902-907`: for every port, the pairs of its neighbours. -/
def visited (env : GenEnv σ) (rg : RGraph σ) : List (ℕ × ℕ) := rg.portNodes.flatMap (fun p => env.ordPairs (pairsOf (rg.sources p)))

/-- `get_port_node_infos`, `utils.py:1055-1073`, at one port: label of the neighbour and label of the edge, for every edge. The code concatenates the two strings, which loses nothing: what follows the last `v` is the number. -/
def RGraph.infos (rg : RGraph σ) (p : ℕ) : List (σ × ℕ) :=
  (rg.edges.filter (fun e => decide (e.2.1 = p))).filterMap (fun e => (rg.node? e.1).map (fun n => (n.label, e.2.2)))

/-- `compute_pattern_usage`, `utils.py:760-782`. -/
def patternUsage (rg : RGraph σ) (fmt : List (σ × ℕ)) (ports : Finset ℕ) : ℚ :=
  ((∑ p ∈ ports, (rg.infos p).countP (fun i => decide (i ∈ fmt)) : ℕ) : ℚ) / fmt.length

/-- `is_without_edge`, `utils.py:526-535`. -/
def PKind.noEdge (env : GenEnv σ) : PKind σ → Bool
  | .row i => env.noEdge i
  | .edge _ => false
  | .vertex _ => true

/-- `compute_pattern_embeddings`, `utils.py:852-866`. -/
def nodesWith (rg : RGraph σ) (l : σ) : ℕ := rg.nodes.countP (fun n => decide (n.label = l))

/-- The usage set by `compute_candidate_usage`, `utils.py:785-849`. The test of a candidate with equal labels against its inverse always succeeds (`self_inverse_test`). -/
def candUsage (env : GenEnv σ) (rg : RGraph σ) (c : GCand σ) : Except String ℚ :=
  let u1 := patternUsage rg (c.port.map (fun p => (c.first, p.1))) c.dataPort
  let u2 := patternUsage rg (c.port.map (fun p => (c.second, p.2))) c.dataPort
  if c.first = c.second then .ok (⌊u1 / 2⌋ : ℤ)
  else match c.firstPat, c.secondPat with
    | some k1, some k2 =>
      if k1.noEdge env && !k2.noEdge env then .ok u2
      else if k2.noEdge env && !k1.noEdge env then .ok u1
      else if k1.noEdge env && k2.noEdge env then .ok (nodesWith rg c.first)
      else .ok (min u1 u2)
    | none, some _ => .error "ValueError"
    | some k1, none =>
      if env.isE c.second then (if k1.noEdge env then .ok u2 else .ok (min u1 u2)) else .ok u1
    | none, none =>
      if env.isE c.first && !env.isE c.second then .ok u1
      else if !env.isE c.first && env.isE c.second then .ok u2
      else .ok (min u1 u2)

/-- The object after `compute_candidate_usage`: a candidate with equal labels was replaced by its inverse, `candidate.py:195-210`. -/
def GCand.flip (c : GCand σ) : GCand σ := if c.first = c.second then { c with port := c.port.map (fun p => (p.2, p.1)) } else c

/-- The number of exclusive ports, `utils.py:869-888, 964-969`, with the candidates as they are at that moment. -/
def exclusivePorts (cs : List (GCand σ)) (r : GCand σ) : ℕ :=
  (r.dataPort.filter (fun p => (cs.all (fun c => !decide (p ∈ c.dataPort) || c.same r)) = true)).card

/-- The patterns of a candidate at the end, `utils.py:971-978`. -/
def finalPats (env : GenEnv σ) (c : GCand σ) : Except String (Option (PKind σ) × Option (PKind σ)) :=
  match c.firstPat, c.secondPat with
  | none, some _ => .error "ValueError"
  | some k1, none => (singletonPattern env c.second).map (fun k2 => (some k1, some k2))
  | none, none => (singletonPattern env c.first).bind (fun k1 => (singletonPattern env c.second).map (fun k2 => (some k1, some k2)))
  | some k1, some k2 => .ok (some k1, some k2)

/-- The second loop of `generate_candidates`, `utils.py:962-978`. -/
def finish (env : GenEnv σ) (rg : RGraph σ) : List (GCand σ) → List (GCand σ) → Except String (List (GCand σ))
  | done, [] => .ok done
  | done, r :: t =>
    (candUsage env rg r).bind (fun u =>
      (finalPats env r.flip).bind (fun k =>
        finish env rg (done ++ [{ r.flip with usage := u, exclusive := exclusivePorts (done ++ r.flip :: t) r.flip, firstPat := k.1, secondPat := k.2 }]) t))

/-- `generate_candidates`, `utils.py:891-979`. -/
def generate (env : GenEnv σ) (rg : RGraph σ) : Except String (List (GCand σ)) :=
  (collect env rg (visited env rg) []).bind (finish env rg [])

end Verif.Graph
