import Verif.Datasets.Model

/-!
# Model of `get_graph_from_file` (C122)

Source: `/repo/skmine/graph/graphmdl/utils.py:1092-1110`. The text of the file is a list of characters: decoding is not modelled.
-/

set_option autoImplicit false

namespace Verif.GraphFile

open Verif.Text
open Verif.Datasets (universalNewlines isSpace rstrip)

/-- Exceptions: `IndexError` for a missing field, `ValueError` of `int`. -/
inductive Err | index | value
  deriving DecidableEq

/-- Labels are strings. -/
abbrev Label := List Char

/-- The graph under construction: `networkx.DiGraph` keeps a dict of nodes, with an optional attribute `label`, and one edge per ordered pair. -/
structure Gr where
  nodes : List (ℤ × Option Label)
  edges : List ((ℤ × ℤ) × Label)
  deriving DecidableEq

/-- Iteration over an open text file, `/repo/skmine/graph/graphmdl/utils.py:1102`: the lines keep their `\n`. `cur` is the current line, reversed. -/
def fileLines (cur : List Char) : List Char → List (List Char)
  | [] => if cur = [] then [] else [cur.reverse]
  | c :: cs => if c = '\n' then ('\n' :: cur).reverse :: fileLines [] cs else fileLines (c :: cur) cs

/-- `d[k] = v` on a dict in insertion order. -/
def put {K V : Type*} [DecidableEq K] (k : K) (v : V) : List (K × V) → List (K × V)
  | [] => [(k, v)]
  | (k', v') :: d => if k' = k then (k', v) :: d else (k', v') :: put k v d

/-- `d.get(k)`. -/
def get {K V : Type*} [DecidableEq K] (k : K) : List (K × V) → Option V
  | [] => none
  | (k', v') :: d => if k' = k then some v' else get k d

/-- A node added by `add_edge` when it is missing: it has no label. -/
def touch (u : ℤ) (nodes : List (ℤ × Option Label)) : List (ℤ × Option Label) :=
  match get u nodes with
  | none => put u none nodes
  | some _ => nodes

/-- `graph.add_node(u, label=l)`: an earlier label is replaced. -/
def addNode (g : Gr) (u : ℤ) (l : Label) : Gr := { g with nodes := put u (some l) g.nodes }

/-- `graph.add_edge(u, v, label=l)` of a `DiGraph`: an earlier label of the pair is replaced. -/
def addEdge (g : Gr) (u v : ℤ) (l : Label) : Gr := { nodes := touch v (touch u g.nodes), edges := put (u, v) l g.edges }

/-- `line[i]`. -/
def field (line : List (List Char)) (i : ℕ) : Except Err (List Char) :=
  match line[i]? with
  | none => .error .index
  | some f => .ok f

/-- `int(line[i]) + 1`. `int` ignores surrounding blanks; underscores and non-ASCII digits are not modelled. -/
def number (line : List (List Char)) (i : ℕ) : Except Err ℤ :=
  match field line i with
  | .error e => .error e
  | .ok f =>
    match parseInt ((rstrip f).dropWhile isSpace) with
    | none => .error .value
    | some z => .ok (z + 1)

/-- `line[3].split('\n')[0]`. -/
def label (line : List (List Char)) : Except Err Label :=
  match field line 3 with
  | .error e => .error e
  | .ok f => .ok ((splitOn '\n' f).headD [])

/-- Body of the loop, `/repo/skmine/graph/graphmdl/utils.py:1104-1108`. Every line that does not start with `v` is an edge. -/
def readLine (g : Gr) (line : List (List Char)) : Except Err Gr :=
  if line.head? = some ['v'] then
    match number line 1 with
    | .error e => .error e
    | .ok u =>
      match label line with
      | .error e => .error e
      | .ok l => .ok (addNode g u l)
  else
    match number line 1 with
    | .error e => .error e
    | .ok u =>
      match number line 2 with
      | .error e => .error e
      | .ok v =>
        match label line with
        | .error e => .error e
        | .ok l => .ok (addEdge g u v l)

/-- The loop. -/
def readLines (g : Gr) : List (List (List Char)) → Except Err Gr
  | [] => .ok g
  | line :: ls =>
    match readLine g line with
    | .error e => .error e
    | .ok g' => readLines g' ls

/-- `get_graph_from_file`, `/repo/skmine/graph/graphmdl/utils.py:1092-1110`. The first three lines are skipped. -/
def readGraph (text : List Char) : Except Err Gr :=
  readLines ⟨[], []⟩ (((fileLines [] (universalNewlines text)).map (splitOn ' ')).drop 3)

end Verif.GraphFile
