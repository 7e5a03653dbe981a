import Verif.Nodes.Model

/-!
# Building and combining patterns: model

Source: `/repo/skmine/periodic/pattern.py:165-355, 1093-1118`, `/repo/skmine/periodic/candidate.py:73-80, 222-230`, `/repo/skmine/periodic/run_mine.py:57-93, 162-178`.

Exceptions are errors; what an operation has changed before it raises is not modelled.
-/

set_option autoImplicit false

namespace Verif.Nodes

variable {α β : Type}

/-- A `Pattern`: its nodes and the next node number, `/repo/skmine/periodic/pattern.py:165-178`. -/
structure PatObj (α : Type) where
  nodes : NodeDict α
  nextId : ℕ

/-! ### Dictionaries -/

/-- `d[k] = v`: an existing key keeps its place. -/
def put (d : NodeDict α) (k : ℕ) (v : Node α) : NodeDict α := match d with
  | [] => [(k, v)]
  | (k', v') :: d => if k' = k then (k, v) :: d else (k', v') :: put d k v

/-- `d.update(e)`. -/
def update (d e : NodeDict α) : NodeDict α := e.foldl (fun acc x => put acc x.1 x.2) d

/-- A change of `d[k]`, which must exist. -/
def modifyKey (d : NodeDict α) (k : ℕ) (f : Node α → Except String (Node α)) : Except String (NodeDict α) :=
  match d.lookup k with
  | none => .error "KeyError"
  | some v => (f v).map (fun w => put d k w)

/-- `d.pop(k)`: the dictionary without the key. -/
def dropKey (d : NodeDict α) (k : ℕ) : NodeDict α := d.filter (fun x => x.1 ≠ k)

/-- `node["parent"] = q`. -/
def Node.setParent (q : Option ℕ) : Node α → Node α
  | .leaf _ ev => .leaf q ev
  | .inner _ rp ch => .inner q rp ch

/-- `node["children"].extend(l)`: `KeyError` for a leaf. -/
def Node.extend (l : List (ℕ × ℤ)) : Node α → Except String (Node α)
  | .leaf _ _ => .error "KeyError"
  | .inner q rp ch => .ok (.inner q rp (ch ++ l))

/-- `node["children"]`. -/
def Node.children : Node α → Except String (List (ℕ × ℤ))
  | .leaf _ _ => .error "KeyError"
  | .inner _ _ ch => .ok ch

/-- `node["children"] = ch` for a node that has children. -/
def Node.setChildren (ch : List (ℕ × ℤ)) : Node α → Except String (Node α)
  | .leaf _ _ => .error "KeyError"
  | .inner q rp _ => .ok (.inner q rp ch)

/-- `for c in ch: nodes[c[0]]["parent"] = q`, e.g. `/repo/skmine/periodic/run_mine.py:176-177`. -/
def setParents (q : Option ℕ) : List (ℕ × ℤ) → NodeDict α → Except String (NodeDict α)
  | [], d => .ok d
  | c :: t, d => (modifyKey d c.1 (fun v => .ok (v.setParent q))).bind (setParents q t)

/-! ### The methods of `Pattern` -/

/-- `Pattern()`, `/repo/skmine/periodic/pattern.py:165-178`. -/
def PatObj.empty : PatObj α := ⟨[(0, .inner none none [])], 1⟩

/-- `Pattern(event, r, p)` for an event, `/repo/skmine/periodic/pattern.py:172-176`: the node 0 is entered last. -/
def PatObj.cycle (ev : α) (r : ℕ) (p : ℤ) : PatObj α := ⟨[(1, .leaf (some 0) ev), (0, .inner none (some (r, p)) [(1, 0)])], 2⟩

/-- `Pattern(tree)` for a dictionary, `/repo/skmine/periodic/pattern.py:169-171`. -/
def PatObj.ofDict (d : NodeDict α) : Except String (PatObj α) :=
  if d = [] then .error "ValueError" else .ok ⟨d, (d.map Prod.fst).foldl max 0 + 1⟩

/-- `isInterm`, `/repo/skmine/periodic/pattern.py:325-355`. -/
def isInterm (d : NodeDict α) (k : ℕ) : Bool := match d.lookup k with
  | some (.inner _ _ _) => true
  | _ => false

/-- `mapEvents`, `/repo/skmine/periodic/pattern.py:193-207`; `f` is the list of names, `IndexError` where it is too short. -/
def mapEvents (f : α → Option β) : NodeDict α → Except String (NodeDict β)
  | [] => .ok []
  | (k, .leaf q ev) :: d => match f ev with
    | none => .error "IndexError"
    | some b => (mapEvents f d).map (fun r => (k, .leaf q b) :: r)
  | (k, .inner q rp ch) :: d => (mapEvents f d).map (fun r => (k, .inner q rp ch) :: r)

/-- `map_nids`, `/repo/skmine/periodic/pattern.py:227`: numbers in the order of the keys. -/
def nidMap (d : NodeDict α) (offset : ℕ) : List (ℕ × ℕ) := d.zipIdx.map (fun x => (x.1.1, offset + x.2))

/-- `map_nids.get(k, k)`. -/
def getNid (m : List (ℕ × ℕ)) (k : ℕ) : ℕ := (m.lookup k).getD k

/-- The copy of a node, `/repo/skmine/periodic/pattern.py:232-239`. -/
def renameNode (f : ℕ → ℕ) : Node α → Node α
  | .leaf q ev => .leaf (q.map f) ev
  | .inner q rp ch => .inner (q.map f) rp (ch.map (fun c => (f c.1, c.2)))

/-- `getTranslatedNodes`, `/repo/skmine/periodic/pattern.py:209-242`: the nodes are copied from the last to the first. The next number is `offset + len(nodes)`. -/
def translated (d : NodeDict α) (offset : ℕ) : NodeDict α :=
  d.reverse.foldl (fun acc x => put acc (getNid (nidMap d offset) x.1) (renameNode (getNid (nidMap d offset)) x.2)) []

/-- The anchor used, `/repo/skmine/periodic/pattern.py:265-266, 289-290`. -/
def anchorOf (d : NodeDict α) (anchor : ℕ) : ℕ := if isInterm d anchor then anchor else 0

/-- `merge`, `/repo/skmine/periodic/pattern.py:244-271`. -/
def merge (s p : PatObj α) (d : ℤ) (anchor : ℕ) : Except String (PatObj α) :=
  match (nidMap p.nodes s.nextId).lookup 0 with
  | none => .error "KeyError"
  | some k =>
    (modifyKey (translated p.nodes s.nextId) k (fun v => .ok (v.setParent (some (anchorOf s.nodes anchor))))).bind (fun nodes =>
      (modifyKey s.nodes (anchorOf s.nodes anchor) (Node.extend [(k, d)])).map (fun own => ⟨update own nodes, s.nextId + p.nodes.length⟩))

/-- `append`, `/repo/skmine/periodic/pattern.py:273-294`. -/
def append (s : PatObj α) (ev : α) (d : ℤ) (anchor : ℕ) : Except String (PatObj α) :=
  (modifyKey (put s.nodes s.nextId (.leaf (some (anchorOf s.nodes anchor)) ev)) (anchorOf s.nodes anchor) (Node.extend [(s.nextId, d)])).map (fun ns => ⟨ns, s.nextId + 1⟩)

/-- `repeat`, `/repo/skmine/periodic/pattern.py:296-323`. A root that is a leaf (only from a dictionary given to the constructor) is not modelled. -/
def repeatPat (s : PatObj α) (r : ℕ) (p : ℤ) : Except String (PatObj α) :=
  match s.nodes.lookup 0 with
  | none => .error "KeyError"
  | some (.leaf _ _) => .error "not modelled"
  | some (.inner q none ch) => .ok ⟨put s.nodes 0 (.inner q (some (r, p)) ch), s.nextId⟩
  | some (.inner _ (some rp) ch) =>
    (setParents (some s.nextId) ch (put (dropKey s.nodes 0) s.nextId (.inner (some 0) (some rp) ch))).map (fun ns =>
      ⟨put ns 0 (.inner none (some (r, p)) [(s.nextId, 0)]), s.nextId + 1⟩)

/-- `(nodes[nn[0]]["children"][0][0], nn[1])`, `/repo/skmine/periodic/pattern.py:1112`. -/
def grandChild (d : NodeDict α) (nn : ℕ × ℤ) : Except String (ℕ × ℤ) :=
  match d.lookup nn.1 with
  | none => .error "KeyError"
  | some v => v.children.bind (fun ch => match ch with
    | [] => .error "IndexError"
    | g :: _ => .ok (g.1, nn.2))

/-- `factorizeTree`, `/repo/skmine/periodic/pattern.py:1093-1118`. -/
def factorizeTree (d : NodeDict α) (nid : ℕ) : Except String (NodeDict α) :=
  match d.lookup nid with
  | some (.inner _ _ (c :: ch)) =>
    ((c :: ch).mapM (grandChild d)).bind (fun nch =>
      (setParents (some c.1) nch d).bind (fun d1 =>
        (modifyKey d1 c.1 (Node.setChildren nch)).bind (fun d2 =>
          modifyKey (ch.foldl (fun acc nn => dropKey acc nn.1) d2) nid (Node.setChildren [(c.1, 0)]))))
  | some (.inner _ _ []) => .error "IndexError"
  | _ => .error "KeyError"

/-! ### Combination of candidates -/

/-- What a candidate holds: a `Pattern` or a cycle of one event. -/
inductive Source (α : Type) where
  | pattern (d : NodeDict α)
  | simple (ev : α)

/-- `preparePatternSimple`, `/repo/skmine/periodic/candidate.py:73-80`. -/
def simpleTree (ev : α) (r : ℕ) (p : ℤ) : NodeDict α := [(0, .inner none (some (r, p)) [(1, 0)]), (1, .leaf (some 0) ev)]

/-- `getTranslatedPNodes`, `/repo/skmine/periodic/candidate.py:222-230`: nodes, next number and number of the root. -/
def Source.translated (offset : ℕ) : Source α → Except String (NodeDict α × ℕ × ℕ)
  | .pattern d => match (nidMap d offset).lookup 0 with
    | none => .error "KeyError"
    | some k => .ok (Nodes.translated d offset, offset + d.length, k)
  | .simple ev => .ok ([(offset, .inner none none [(offset + 1, 0)]), (offset + 1, .leaf (some offset) ev)], offset + 2, offset)

/-- The children of the root and the other nodes, `/repo/skmine/periodic/run_mine.py:170-172` and `/repo/skmine/periodic/run_mine.py:87-88`. -/
def Source.split (offset : ℕ) (s : Source α) : Except String (NodeDict α × ℕ × List (ℕ × ℤ)) :=
  (s.translated offset).bind (fun x => match x.1.lookup x.2.2 with
    | none => .error "KeyError"
    | some v => v.children.map (fun ch => (dropKey x.1 x.2.2, x.2.1, ch)))

/-- `ch[0] = (ch[0][0], d)`: `IndexError` when empty. -/
def setFirstChild (d : ℤ) : List (ℕ × ℤ) → Except String (List (ℕ × ℤ))
  | [] => .error "IndexError"
  | c :: t => .ok ((c.1, d) :: t)

/-- The children with the distance to the previous candidate, `/repo/skmine/periodic/run_mine.py:173-174`; `prev` are the blocks of occurrences of the previous candidate. -/
def linkFirst (prev : Option (List (List ℤ))) (bo : List (List ℤ)) (ch : List (ℕ × ℤ)) : Except String (List (ℕ × ℤ)) :=
  match prev with
  | none => .ok ch
  | some bp => match bo.head?.bind List.head?, bp.head?.bind List.head? with
    | some h, some h' => setFirstChild (h - h') ch
    | _, _ => .error "IndexError"

/-- The loop that builds the tree of a concatenation, `/repo/skmine/periodic/run_mine.py:165-178`: every candidate comes with its blocks of occurrences. -/
def concatLoop : List (Source α × List (List ℤ)) → Option (List (List ℤ)) → ℕ → NodeDict α → Except String (NodeDict α)
  | [], _, _, tree => .ok tree
  | (s, bo) :: rest, prev, offset, tree =>
    (s.split offset).bind (fun x => (linkFirst prev bo x.2.2).bind (fun ch => (modifyKey tree 0 (Node.extend ch)).bind (fun tree1 =>
      (setParents (some 0) ch x.1).bind (fun nodes => concatLoop rest (some bo) (x.2.1 - 1) (update tree1 nodes)))))

/-- The tree of `prepare_candidate_concats`, `/repo/skmine/periodic/run_mine.py:162-178`. -/
def concatTree (cands : List (Source α × List (List ℤ))) (p0 : ℤ) (r0 : ℕ) : Except String (NodeDict α) :=
  concatLoop cands none 0 [(0, .inner none (some (r0, p0)) [])]

/-- The chain of nodes of `prepare_tree_nested`, `/repo/skmine/periodic/run_mine.py:79-82`, from the number `i` on; the list has the period and length of each node. -/
def nestChain : List (ℤ × ℕ) → ℕ → NodeDict α
  | [], _ => []
  | (p, l) :: rest, i => (i, .inner (if i = 0 then none else some (i - 1)) (some (l, p)) [(i + 1, 0)]) :: nestChain rest (i + 1)

/-- `prepare_tree_nested`, `/repo/skmine/periodic/run_mine.py:57-93`; `depth` is the number of cycles of the pattern, 1 for a simple candidate. -/
def nestDict (s : Source α) (depth : ℕ) (prds : List ℤ) (lens : List ℕ) : Except String (NodeDict α) :=
  let m := prds.length + 1 - depth
  if lens.length < m then .error "IndexError"
  else if m = 0 then .error "KeyError"
  else match s with
    | .simple ev => .ok (put (nestChain ((prds.zip lens).take m) 0) m (.leaf (some (m - 1)) ev))
    | .pattern d =>
      ((Source.pattern d).split (m - 1)).bind (fun x =>
        (setParents (some (m - 1)) x.2.2 x.1).bind (fun nodes =>
          (modifyKey (nestChain ((prds.zip lens).take m) 0) (m - 1) (Node.setChildren x.2.2)).map (fun tree => update tree nodes)))

end Verif.Nodes
