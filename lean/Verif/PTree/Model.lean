import Mathlib.Data.Int.Notation
import Mathlib.Data.Finset.Basic
import Mathlib.Data.Finset.Lattice.Basic
import Mathlib.Data.Finset.Dedup
import Mathlib.Algebra.Order.Ring.Int

/-!
# Pattern trees (C34, C35, C50)

Source: `/repo/skmine/periodic/pattern.py`.

The dictionary of nodes of a pattern is modelled by the tree it describes (node ids are not represented here, see `Verif/Nodes` for dictionaries). Position keys, written as strings by
`l_to_key` and read back by `key_to_l`, are the lists of `(child, repetition)` pairs themselves: the conversion is a bijection (C41, `Verif.Periodic.key_roundtrip`).
Exceptions (`KeyError`, `IndexError`) are `none`.
-/

set_option autoImplicit false

namespace Verif.PTree

/- A pattern tree: a leaf holds an event; an inner node has a number of repetitions, a period and children at given distances,
`/repo/skmine/periodic/pattern.py:143-157`. -/
mutual
inductive Tree (α : Type)
  | leaf (ev : α)
  | node (r : ℕ) (p : ℤ) (ch : Forest α)
/-- The children: distance from the previous child, child, other children. -/
inductive Forest (α : Type)
  | nil
  | cons (d : ℤ) (t : Tree α) (rest : Forest α)
end

/-- A position: `(child, repetition)` from the root to the leaf. -/
abbrev Path := List (ℕ × ℕ)

variable {α : Type}

/-! ### Occurrences without corrections -/

mutual
/-- `Pattern.getOccsStar`, `/repo/skmine/periodic/pattern.py:402-431`; `pref` is built in reverse as in the code. -/
def occsStar : Tree α → Path → ℤ → List (ℤ × α × Path)
  | .leaf ev, pref, time => [(time, ev, pref.reverse)]
  | .node r p ch, pref, time => (List.range r).flatMap (fun i => occsStarF ch 0 i pref (time + (i : ℤ) * p))
/-- The loop over the children, `/repo/skmine/periodic/pattern.py:426-428`: `tt` accumulates the distances. -/
def occsStarF : Forest α → ℕ → ℕ → Path → ℤ → List (ℤ × α × Path)
  | .nil, _, _, _, _ => []
  | .cons d t rest, ni, i, pref, tt => occsStar t ((ni, i) :: pref) (tt + d) ++ occsStarF rest (ni + 1) i pref (tt + d)
end

/-! ### References -/

/-- The reference of an occurrence: `'root'`, another occurrence, or Python's `None`. -/
inductive Ref
  | root
  | key (k : Path)
  | nothing

mutual
/-- `Pattern.getOccsRefs`, `/repo/skmine/periodic/pattern.py:565-606`: the entries added to `refs`, in order, and the value returned. -/
def refsT : Tree α → Path → Ref → ℤ → List (Path × Ref × ℤ) × Ref
  | .leaf _, pref, cnref, offset => ([(pref.reverse, cnref, offset)], .key pref.reverse)
  | .node r p ch, pref, cnref, offset =>
    let s := (List.range r).foldl (fun (s : List (Path × Ref × ℤ) × Ref × Ref) i =>
      let e := refsF ch 0 i pref (if i = 0 then cnref else s.2.2) (if i = 0 then offset else p)
      (s.1 ++ e.1, (if i = 0 then e.2 else s.2.1), e.2)) ([], .nothing, .nothing)
    (s.1, s.2.1)
/-- The loop over the children, `/repo/skmine/periodic/pattern.py:587-601`: the first child receives the given offset, the others their distance; the entries and the
value returned for the first child. -/
def refsF : Forest α → ℕ → ℕ → Path → Ref → ℤ → List (Path × Ref × ℤ) × Ref
  | .nil, _, _, _, _, _ => ([], .nothing)
  | .cons d t rest, ni, i, pref, next, off0 =>
    let e := refsT t ((ni, i) :: pref) next (if ni = 0 then off0 else d)
    let e' := refsF rest (ni + 1) i pref e.2 off0
    (e.1 ++ e'.1, e.2)
end

/-! ### Corrections -/

/-- `children[c]`. -/
def Forest.get? : Forest α → ℕ → Option (Tree α)
  | .nil, _ => none
  | .cons _ t _, 0 => some t
  | .cons _ _ rest, c + 1 => rest.get? c

/-- `Pattern.getNidFromKey`, `/repo/skmine/periodic/pattern.py:608-640`, for keys without `-1`: the subtree at a position. -/
def nodeAt : Tree α → Path → Option (Tree α)
  | t, [] => some t
  | .leaf _, _ :: _ => none
  | .node _ _ ch, (c, _) :: k => (ch.get? c).bind (fun t => nodeAt t k)

/-- Descent to the first leaf with repetition 0, `/repo/skmine/periodic/pattern.py:738-751`; a node without children raises `IndexError`. -/
def leftmost : Tree α → Option Path
  | .leaf _ => some []
  | .node _ _ .nil => none
  | .node _ _ (.cons _ t _) => (leftmost t).map (fun k => (0, 0) :: k)

/-- `Pattern.getLeafKeyFromKey(k)`, `/repo/skmine/periodic/pattern.py:715-755`, with the default `cid` and `rep`, for a key without `-1`. -/
def leafKeyFromKey (T : Tree α) (k : Path) : Option Path :=
  (nodeAt T k).bind (fun t => (leftmost t).map (fun q => k ++ q))

/-- `Pattern.getLeafKeyFromKey(k + [(-1, i)])`, `/repo/skmine/periodic/pattern.py:715-755`: the first leaf in repetition `i` of the inner node at `k`. -/
def leafKeyFromRep (T : Tree α) (k : Path) (i : ℕ) : Option Path :=
  (nodeAt T k).bind (fun t => match t with
    | .leaf _ => none
    | .node _ _ .nil => none
    | .node _ _ (.cons _ t _) => (leftmost t).map (fun q => k ++ (0, i) :: q))

/-- `Pattern.gatherCorrKeys`, `/repo/skmine/periodic/pattern.py:757-785`, on the reversed key (the code pops the last pair). -/
def gatherRev (T : Tree α) : Path → Option (List Path)
  | [] => some []
  | (c, i) :: rk =>
    match (List.range c).mapM (fun j => leafKeyFromKey T (rk.reverse ++ [(j, i)])), (List.range i).mapM (fun j => leafKeyFromRep T rk.reverse j),
      gatherRev T rk with
    | some a, some b, some g => some (a ++ b ++ g)
    | _, _, _ => none

/-- `Pattern.gatherCorrKeys`, `/repo/skmine/periodic/pattern.py:757-785`. -/
def gather (T : Tree α) (k : Path) : Option (List Path) := gatherRev T k.reverse

/-- `Pattern.getCCorr`, `/repo/skmine/periodic/pattern.py:451-467`. -/
def getCCorr (T : Tree α) (k : Path) (Ed : List (Path × ℤ)) : Option ℤ :=
  match Ed.lookup k, (gather T k).bind (fun ks => ks.mapM (fun kk => Ed.lookup kk)) with
  | some e, some es => some (e + es.sum)
  | _, _ => none

/-- `getEDict`, `/repo/skmine/periodic/pattern.py:11-35`. -/
def getEDict (oStar : List (ℤ × α × Path)) (E : List ℤ) : List (Path × ℤ) :=
  let Ex := if oStar.length - 1 ≤ E.length then 0 :: E.take (oStar.length - 1) else oStar.map (fun _ => 0)
  (oStar.map (fun o => o.2.2)).zip Ex

/-- `Pattern.getOccs`, `/repo/skmine/periodic/pattern.py:469-495`. -/
def getOccs (T : Tree α) (oStar : List (ℤ × α × Path)) (t0 : ℤ) (E : List ℤ) : Option (List ℤ) :=
  oStar.mapM (fun o => (getCCorr T o.2.2 (getEDict oStar E)).map (fun c => o.1 + t0 + c))

/-- `Pattern.getCovSeq`, `/repo/skmine/periodic/pattern.py:497-519`. -/
def getCovSeq (T : Tree α) (t0 : ℤ) (E : List ℤ) : Option (List (ℤ × α)) :=
  let oStar := occsStar T [] 0
  oStar.mapM (fun o => (getCCorr T o.2.2 (getEDict oStar E)).map (fun c => (o.1 + t0 + c, o.2.1)))

/-- One entry of `computeEDict`, `/repo/skmine/periodic/pattern.py:537-542`. -/
def entryE (occs : List (Path × ℤ)) (e : Path × Ref × ℤ) : Option (Path × ℤ) :=
  match e.2.1 with
  | .root => (occs.lookup e.1).map (fun _ => (e.1, 0))
  | .nothing => none
  | .key f =>
    match occs.lookup e.1, occs.lookup f with
    | some a, some b => some (e.1, (a - b) - e.2.2)
    | _, _ => none

/-- `Pattern.computeEDict`, `/repo/skmine/periodic/pattern.py:521-543`: the corrections (the returned start time is not used by the callers modelled). -/
def computeEDict (T : Tree α) (occs : List (Path × ℤ)) : Option (List (Path × ℤ)) :=
  (refsT T [] .root 0).1.mapM (entryE occs)

/-- `Pattern.computeEFromO`, `/repo/skmine/periodic/pattern.py:545-563`. -/
def computeEFromO (T : Tree α) (occs : List ℤ) : Option (List ℤ) :=
  let oids := (occsStar T [] 0).map (fun o => o.2.2)
  (computeEDict T (oids.zip occs)).bind (fun Ed => oids.tail.mapM (fun k => Ed.lookup k))

/-! ### Counts -/

mutual
/-- `Pattern.getNbOccs`, `/repo/skmine/periodic/pattern.py:1218-1237`. -/
def nbOccs : Tree α → ℕ
  | .leaf _ => 1
  | .node r _ ch => r * nbOccsF ch
/-- The sum over the children. -/
def nbOccsF : Forest α → ℕ
  | .nil => 0
  | .cons _ t rest => nbOccs t + nbOccsF rest
end

mutual
/-- `Pattern.getNbLeaves`, `/repo/skmine/periodic/pattern.py:1198-1216`. -/
def nbLeaves : Tree α → ℕ
  | .leaf _ => 1
  | .node _ _ ch => nbLeavesF ch
/-- The sum over the children. -/
def nbLeavesF : Forest α → ℕ
  | .nil => 0
  | .cons _ t rest => nbLeaves t + nbLeavesF rest
end

mutual
/-- `Pattern.getAlphabet`, `/repo/skmine/periodic/pattern.py:1279-1298`. -/
def alphabet [DecidableEq α] : Tree α → Finset α
  | .leaf ev => {ev}
  | .node _ _ ch => alphabetF ch
/-- The union over the children. -/
def alphabetF [DecidableEq α] : Forest α → Finset α
  | .nil => ∅
  | .cons _ t rest => alphabet t ∪ alphabetF rest
end

/-! ### Factorisation -/

/-- The only child of a node that has exactly one, with the node's period, repetitions and the child's distance: `len(children) == 1`,
`/repo/skmine/periodic/pattern.py:1142`. -/
def onlyChild : Tree α → Option (ℤ × ℕ × ℤ × Tree α)
  | .node r p (.cons d t .nil) => some (p, r, d, t)
  | _ => none

/-- `all(len(children) == 1)` and `len(set((p, r))) == 1`, `/repo/skmine/periodic/pattern.py:1140-1146`, against the period and repetitions of the first child. -/
def sameCycle (p : ℤ) (r : ℕ) : Forest α → Bool
  | .nil => true
  | .cons _ t rest =>
    match onlyChild t with
    | none => false
    | some x => (x.1 == p && x.2.1 == r) && sameCycle p r rest

/-- The test made at one node by `canFactorize`, `/repo/skmine/periodic/pattern.py:1140-1147`. -/
def canFactorizeHere : Tree α → Bool
  | .node _ _ (.cons _ t (.cons d' t' rest)) =>
    match onlyChild t with
    | none => false
    | some x => sameCycle x.1 x.2.1 (.cons d' t' rest)
  | _ => false

/-- `nch`, `/repo/skmine/periodic/pattern.py:1112`: the grandchildren with the distances of the children (the distance of the grandchild itself is lost);
`none` is `IndexError`/`KeyError`. -/
def grandChildren : Forest α → Option (Forest α)
  | .nil => some .nil
  | .cons d t rest =>
    match t, grandChildren rest with
    | .node _ _ (.cons _ g _), some rest' => some (.cons d g rest')
    | _, _ => none

/-- `Pattern.factorizeTree` at one node, `/repo/skmine/periodic/pattern.py:1093-1118`: the first child is kept as the anchor. -/
def factorizeHere : Tree α → Option (Tree α)
  | .node r p (.cons d (.node r' p' ch') rest) =>
    (grandChildren (.cons d (.node r' p' ch') rest)).map (fun nch => .node r p (.cons 0 (.node r' p' nch) .nil))
  | _ => none

mutual
/-- `Pattern.canFactorize`, `/repo/skmine/periodic/pattern.py:1120-1150`: the nodes (as child numbers from the root) where the tree can be factorised, in the order of the code. -/
def canFactorize : Tree α → List (List ℕ)
  | .leaf _ => []
  | .node r p ch => canFactorizeF ch 0 ++ (if canFactorizeHere (.node r p ch) then [[]] else [])
/-- The loop over the children. -/
def canFactorizeF : Forest α → ℕ → List (List ℕ)
  | .nil, _ => []
  | .cons _ t rest, c => (canFactorize t).map (fun k => c :: k) ++ canFactorizeF rest (c + 1)
end

/-- Replacing a child. -/
def Forest.modify? : Forest α → ℕ → (Tree α → Option (Tree α)) → Option (Forest α)
  | .nil, _, _ => none
  | .cons d t rest, 0, f => (f t).map (fun t' => .cons d t' rest)
  | .cons d t rest, c + 1, f => (rest.modify? c f).map (fun rest' => .cons d t rest')

/-- `Pattern.factorizeTree(nid)`, `/repo/skmine/periodic/pattern.py:1093-1118`, for the node reached by the given child numbers. -/
def factorizeAt : List ℕ → Tree α → Option (Tree α)
  | [], t => factorizeHere t
  | _ :: _, .leaf _ => none
  | c :: k, .node r p ch => (ch.modify? c (factorizeAt k)).map (fun ch' => .node r p ch')

end Verif.PTree
