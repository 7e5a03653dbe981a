import Verif.Graph.LabelModel
import Mathlib.Data.List.Dedup

/-!
# The cover of a data graph by a code table: model

Source: `/repo/skmine/graph/graphmdl/code_table.py:82-113, 346-846`. Directed graphs and directed multigraphs (`nx.DiGraph`, `nx.MultiDiGraph`), the only kinds GraphMDL supports.
-/

set_option autoImplicit false

namespace Verif.Graph

variable {σ : Type} [DecidableEq σ]

/-- A graph as the cover reads it: the labels of every vertex (a string is one label, a tuple several, no label none), and labelled edges. Every edge has one string as label: the code raises ValueError or KeyError otherwise. -/
structure DGraph (σ : Type) where
  multi : Bool
  nodes : List (ℕ × List σ)
  edges : List (ℕ × ℕ × σ)

/-- The labels of a vertex. -/
def DGraph.labels (g : DGraph σ) (v : ℕ) : List σ := (g.nodes.lookup v).getD []

/-- `(u, v) in graph.edges(u)`. -/
def DGraph.hasEdge (g : DGraph σ) (u v : ℕ) : Bool := g.edges.any (fun e => decide (e.1 = u ∧ e.2.1 = v))

/-- `utils.get_edge_label`, `utils.py:490-523`: the label of an edge, all labels of the parallel edges in a multigraph. -/
def DGraph.edgeLabels (g : DGraph σ) (u v : ℕ) : List σ := (g.edges.filter (fun e => decide (e.1 = u ∧ e.2.1 = v))).map (fun e => e.2.2)

/-- The number of edges at a vertex, `len(in_edges) + len(out_edges)`, `code_table.py:654-655`. -/
def DGraph.degree (g : DGraph σ) (v : ℕ) : ℕ :=
  (g.edges.filter (fun e => decide (e.2.1 = v))).length + (g.edges.filter (fun e => decide (e.1 = v))).length

/-- The marks left on the data graph: the value of `cover_marker` (0 when missing) and, for every edge and label and for every vertex and label, the cover that marked it last (0 when none). In a multigraph the mark is kept on the
first parallel edge with the label, so edges with equal ends and label share it. -/
structure Marks (σ : Type) where
  marker : ℕ
  emark : ℕ × ℕ × σ → ℕ
  nmark : ℕ × σ → ℕ

/-- A data graph that was never covered. -/
def Marks.fresh : Marks σ := ⟨0, fun _ => 0, fun _ => 0⟩

/-- `utils.get_edge_in_embedding`, `utils.py:593-618`: the pattern edges with both ends in the embedding. -/
def edgesIn (e : Embedding) (p : DGraph σ) : List (ℕ × ℕ) :=
  ((p.edges.map (fun x => (x.1, x.2.1))).filter (fun x => decide (x.1 ∈ e.map Prod.snd ∧ x.2 ∈ e.map Prod.snd))).dedup

/-- `utils.get_key_from_value`, `utils.py:621-631`; 0 stands for the IndexError of a missing value, which cannot occur on `edgesIn`. -/
def keyOf (e : Embedding) (p : ℕ) : ℕ := ((e.find? (fun x => decide (x.2 = p))).map Prod.fst).getD 0

/-- `is_edge_marked` on an existing edge, `code_table.py:427-464`. In a multigraph a label that no parallel edge has makes the function return (not raise) a ValueError, which counts as true. -/
def edgeMarked (g : DGraph σ) (m : Marks σ) (u v : ℕ) (l : σ) : Bool :=
  if g.multi && decide ((u, v, l) ∉ g.edges) then true else decide (m.emark (u, v, l) = m.marker)

/-- `mark_edge` on an existing edge, `code_table.py:466-495`. The test `label in edge['label']` is equality here (on strings it is also true for substrings). -/
def markEdge (g : DGraph σ) (m : Marks σ) (u v : ℕ) (l : σ) : Except String (Marks σ) :=
  if (u, v, l) ∈ g.edges then .ok { m with emark := fun x => if x = (u, v, l) then m.marker else m.emark x }
  else .error (if g.multi then "KeyError" else "ValueError")

/-- `mark_node`, `code_table.py:381-408`. A single string is marked even if the data vertex lacks it, which is never read. -/
def markNode (g : DGraph σ) (m : Marks σ) (v : ℕ) (ls : List σ) : Marks σ :=
  { m with nmark := fun x => if x.1 = v ∧ x.2 ∈ ls ∧ x.2 ∈ g.labels v then m.marker else m.nmark x }

/-- The loop of `is_embedding_marked`, `code_table.py:515-541`. -/
def anyMarked (g p : DGraph σ) (m : Marks σ) (e : Embedding) : List (ℕ × ℕ) → Except String Bool
  | [] => .ok false
  | (a, b) :: t =>
    if g.hasEdge (keyOf e a) (keyOf e b) then
      (anyMarked g p m e t).map (fun r => (p.edgeLabels a b).any (edgeMarked g m (keyOf e a) (keyOf e b)) || r)
    else if g.hasEdge (keyOf e b) (keyOf e a) then .error "KeyError"
    else anyMarked g p m e t

/-- `is_embedding_marked`, `code_table.py:497-543`: without edges a ValueError is returned (not raised), which counts as true. -/
def embMarked (g p : DGraph σ) (m : Marks σ) (e : Embedding) : Except String Bool :=
  if edgesIn e p = [] then .ok true else anyMarked g p m e (edgesIn e p)

/-- Marking the labels of one pattern edge. -/
def markLabels (g : DGraph σ) (u v : ℕ) : List σ → Marks σ → Except String (Marks σ)
  | [], m => .ok m
  | l :: t, m => (markEdge g m u v l).bind (markLabels g u v t)

/-- The loop of `mark_embedding`, `code_table.py:555-580`. -/
def markEdges (g p : DGraph σ) (e : Embedding) : List (ℕ × ℕ) → Marks σ → Except String (Marks σ)
  | [], m => .ok m
  | (a, b) :: t, m =>
    (if g.hasEdge (keyOf e a) (keyOf e b) then markLabels g (keyOf e a) (keyOf e b) (p.edgeLabels a b) m
     else if g.hasEdge (keyOf e b) (keyOf e a) then .error "KeyError"
     else .ok m).bind (fun m => markEdges g p e t (markNode g (markNode g m (keyOf e a) (p.labels a)) (keyOf e b) (p.labels b)))

/-- `mark_embedding`, `code_table.py:545-583`. -/
def markEmb (g p : DGraph σ) (m : Marks σ) (e : Embedding) : Except String (Marks σ) := markEdges g p e (edgesIn e p) m

/-- `is_node_all_labels_marked`, `code_table.py:661-687`. -/
def allLabelsMarked (g : DGraph σ) (m : Marks σ) (v : ℕ) : Bool := (g.labels v).all (fun l => decide (m.nmark (v, l) = m.marker))

/-- `search_port`, `code_table.py:603-634`: the pairs (data vertex, pattern vertex) of the embedding that are ports. -/
def searchPort (g p : DGraph σ) (m : Marks σ) (e : Embedding) : List (ℕ × ℕ) :=
  e.filter (fun x => decide (g.degree x.1 ≠ p.degree x.2) || !allLabelsMarked g m x.1)

/-- A row: its pattern, the embeddings of the pattern in the data graph in the order networkx returns them, and the embeddings used so far (`_used_embeddings`, never emptied, `code_table_row.py:29, 96-97`). -/
structure Row (σ : Type) where
  pattern : DGraph σ
  embeddings : List Embedding
  used : List (Embedding × List (ℕ × ℕ))

/-- One node of the rewritten graph: an embedding of a row with its ports, an edge singleton or a vertex singleton. -/
inductive Piece (σ : Type) where
  | emb (row : ℕ) (e : Embedding) (ports : List (ℕ × ℕ))
  | edge (u v : ℕ) (l : σ)
  | vertex (v : ℕ) (l : σ)
  deriving DecidableEq

/-- `row_cover` for a pattern with edges, `code_table.py:765-773`. The result also lists the nodes added to the rewritten graph. -/
def coverEmbs (g p : DGraph σ) (i : ℕ) : List Embedding → Marks σ → Except String (Marks σ × List (Piece σ))
  | [], m => .ok (m, [])
  | e :: t, m =>
    (embMarked g p m e).bind (fun b =>
      if b then coverEmbs g p i t m
      else (markEmb g p m e).bind (fun m' =>
        (coverEmbs g p i t m').map (fun r => (r.1, .emb i e (searchPort g p m' e) :: r.2))))

/-- The inner loop of `row_cover` for a pattern without edge, `code_table.py:778-792`. The label of a pattern vertex without label is a KeyError. -/
def coverVerts (g p : DGraph σ) (i : ℕ) (e : Embedding) : List (ℕ × ℕ) → Marks σ → Except String (Marks σ × List (Piece σ))
  | [], m => .ok (m, [])
  | (v, a) :: t, m =>
    if p.labels a = [] then .error "KeyError"
    else if (p.labels a).any (fun l => decide (l ∉ g.labels v)) then .error "ValueError"
    else if (p.labels a).all (fun l => decide (m.nmark (v, l) = m.marker)) then coverVerts g p i e t m
    else (coverVerts g p i e t (markNode g m v (p.labels a))).map (fun r => (r.1, .emb i e (searchPort g p m e) :: r.2))

/-- The outer loop, `code_table.py:775`. -/
def coverNodes (g p : DGraph σ) (i : ℕ) : List Embedding → Marks σ → Except String (Marks σ × List (Piece σ))
  | [], m => .ok (m, [])
  | e :: t, m => (coverVerts g p i e e m).bind (fun r => (coverNodes g p i t r.1).map (fun s => (s.1, r.2 ++ s.2)))

/-- `row_cover`, `code_table.py:753-795`. -/
def rowCover (g : DGraph σ) (i : ℕ) (r : Row σ) (m : Marks σ) : Except String (Marks σ × List (Piece σ)) :=
  if r.pattern.edges ≠ [] then coverEmbs g r.pattern i r.embeddings m else coverNodes g r.pattern i r.embeddings m

/-- The entry added to the used embeddings of a row. -/
def Piece.entry? : Piece σ → Option (Embedding × List (ℕ × ℕ))
  | .emb _ e ports => some (e, ports)
  | _ => Option.none

/-- The loop over the rows of `cover`, `code_table.py:98-99`. Also returns the rows with their new used embeddings. -/
def coverRows (g : DGraph σ) : ℕ → List (Row σ) → Marks σ → Except String (Marks σ × List (Row σ) × List (Piece σ))
  | _, [], m => .ok (m, [], [])
  | i, r :: t, m =>
    (rowCover g i r m).bind (fun x =>
      (coverRows g (i + 1) t x.1).map (fun y => (y.1, { r with used := r.used ++ x.2.filterMap Piece.entry? } :: y.2.1, x.2 ++ y.2.2)))

/-- The edge loop of `singleton_cover`, `code_table.py:812-823`. -/
def singleEdges (g : DGraph σ) : List (ℕ × ℕ × σ) → Marks σ → Marks σ × List (Piece σ)
  | [], m => (m, [])
  | (u, v, l) :: t, m =>
    if edgeMarked g m u v l then singleEdges g t m
    else
      let r := singleEdges g t { m with emark := fun x => if x = (u, v, l) then m.marker else m.emark x }
      (r.1, .edge u v l :: r.2)

/-- The loop over the labels of a vertex, `code_table.py:827-844`. -/
def singleLabels (v : ℕ) : List σ → Marks σ → Marks σ × List (Piece σ)
  | [], m => (m, [])
  | l :: t, m =>
    if m.nmark (v, l) = m.marker then singleLabels v t m
    else
      let r := singleLabels v t { m with nmark := fun x => if x = (v, l) then m.marker else m.nmark x }
      (r.1, .vertex v l :: r.2)

/-- The vertex loop of `singleton_cover`, `code_table.py:825-844`. -/
def singleNodes : List (ℕ × List σ) → Marks σ → Marks σ × List (Piece σ)
  | [], m => (m, [])
  | (v, ls) :: t, m =>
    let r := singleLabels v ls m
    let s := singleNodes t r.1
    (s.1, r.2 ++ s.2)

/-- `cover`, `code_table.py:82-113`: a new marker, then the rows in order, then the singletons. The pieces are the pattern nodes of the rewritten graph in order of creation; code lengths are not modelled. -/
def cover (g : DGraph σ) (rows : List (Row σ)) (m : Marks σ) : Except String (Marks σ × List (Row σ) × List (Piece σ)) :=
  (coverRows g 0 rows { m with marker := m.marker + 1 }).map (fun x =>
    let a := singleEdges g g.edges x.1
    let b := singleNodes g.nodes a.1
    (b.1, x.2.1, x.2.2 ++ a.2 ++ b.2))

end Verif.Graph
