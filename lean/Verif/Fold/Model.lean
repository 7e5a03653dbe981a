import Mathlib.Data.Int.Notation
import Mathlib.Data.Nat.Notation
import Mathlib.Algebra.Order.Group.Int
import Mathlib.Algebra.Order.Group.Abs

/-!
# Chains and triples of nearly equidistant occurrences (C65, C66)

Source: `/repo/skmine/periodic/extract_cycles.py`.

Costs are not computed: `effTrip dE dp` and `effChain occs` stand for the comparisons of a cost with a threshold. Dictionaries are association lists. Exceptions and fuel running out are `none`.
-/

set_option autoImplicit false

namespace Verif.Fold

/-- What is left open: comparisons of floating point numbers, and the optional `max_p`. -/
structure Par where
  /-- `deltaE < bound_dE`. -/
  small : ℤ → Bool
  /-- The test on the cost of a triple, `/repo/skmine/periodic/extract_cycles.py:331`; the cost is a function of `dp` and `deltaE` for the event. -/
  effTrip : ℤ → ℤ → Bool
  /-- The test on the cost of a chain, `/repo/skmine/periodic/extract_cycles.py:326`. -/
  effChain : List ℤ → Bool
  /-- `max_p`. -/
  maxP : Option ℤ

/-- `aft`, `/repo/skmine/periodic/extract_cycles.py:259-261`; `i` is always a position of the list. -/
def aft (P : Par) (occs : List ℤ) (i : ℕ) : List ℤ :=
  let l := (occs.drop (i + 1)).map (fun o => o - occs.getD i 0)
  match P.maxP with
  | none => l
  | some m => l.filter (fun x => decide (x < m))

/-- `bef`, `/repo/skmine/periodic/extract_cycles.py:258,262`. -/
def bef (P : Par) (occs : List ℤ) (i : ℕ) : List ℤ :=
  let l := (occs.take i).reverse.map (fun o => o - occs.getD i 0)
  match P.maxP with
  | none => l
  | some m => l.filter (fun x => decide (-m < x))

/-- The loop over `seen_ps`, `/repo/skmine/periodic/extract_cycles.py:277-285`. -/
def seenLoop (dp alt : ℤ) : ℕ → List ℤ → ℤ → Option (List ℤ × ℤ)
  | 0, _, _ => none
  | f + 1, seen, ipp =>
    if 0 ≤ ipp then
      match seen[ipp.toNat]? with
      | none => some (seen, ipp)
      | some v =>
        if dp = 2 * v then seenLoop dp alt f (seen ++ [dp]) (-v)
        else if alt = 2 * v then seenLoop dp alt f (seen ++ [alt]) (-v)
        else seenLoop dp alt f seen (ipp + 1)
    else some (seen, ipp)

/-- `ib < len(bef) - 1 and abs(aft[ia] + bef[ib]) > abs(aft[ia] + bef[ib + 1])`, and the same with the roles exchanged, `/repo/skmine/periodic/extract_cycles.py:266,268`. -/
def closer (x y : ℤ) : Option ℤ → Bool
  | none => false
  | some z => decide (|x + z| < |x + y|)

/-- The loop over the two sides of a center, `/repo/skmine/periodic/extract_cycles.py:265-302`: the pairs `(ia, ib)` for which the dictionaries are updated, in order (the updates, which do not influence the
loop, are made afterwards). The first argument bounds `seenLoop`, the next one this loop. -/
def scan (P : Par) (fuel : ℕ) (aft bef : List ℤ) : ℕ → ℕ → ℕ → List ℤ → Option (List (ℕ × ℕ))
  | 0, _, _, _ => none
  | g + 1, ia, ib, seen =>
    match aft[ia]?, bef[ib]? with
    | some a, some b =>
      if closer a b bef[ib + 1]? then scan P fuel aft bef g ia (ib + 1) seen
      else if closer b a aft[ia + 1]? then scan P fuel aft bef g (ia + 1) ib seen
      else if P.small |a + b| then
        match seenLoop (min a (-b)) (max a (-b)) fuel seen 0 with
        | none => none
        | some (seen', ipp) =>
          if 0 ≤ ipp then (scan P fuel aft bef g (ia + 1) (ib + 1) (seen' ++ [min a (-b)])).map (fun r => (ia, ib) :: r)
          else scan P fuel aft bef g (ia + 1) (ib + 1) seen'
      else scan P fuel aft bef g (ia + 1) (ib + 1) seen
    | _, _ => some []

/-- A dictionary on pairs of positions; values are `deltaE`, `dp` and a third position. -/
abbrev Dict := List ((ℕ × ℕ) × (ℤ × ℤ × ℕ))

/-- `d[k] = v`. -/
def Dict.set (k : ℕ × ℕ) (v : ℤ × ℤ × ℕ) : Dict → Dict
  | [] => [(k, v)]
  | x :: d => if x.1 = k then (k, v) :: d else x :: Dict.set k v d

/-- `d.pop(k)`, `del d[k]`; nothing happens if the key is absent. -/
def Dict.del (k : ℕ × ℕ) (d : Dict) : Dict := d.filter (fun x => decide (x.1 ≠ k))

/-- `d.update(e)`. -/
def Dict.update (d e : Dict) : Dict := e.foldl (fun d x => Dict.set x.1 x.2 d) d

/-- The dictionaries `pairs_chain_test` (without the cost, see `Par`), `pairs_chain_fwd`, `pairs_chain_bck` and `triples_tmp`. -/
structure St where
  test : Dict
  fwd : Dict
  bck : Dict
  trip : Dict

/-- The first update, `/repo/skmine/periodic/extract_cycles.py:290-296`, for the positions `a < i < c`. -/
def updFwd (a i c : ℕ) (dE dp : ℤ) (s : St) : St :=
  match s.fwd.lookup (a, i) with
  | none =>
    match s.test.lookup (a, i) with
    | none => s
    | some v => { s with fwd := Dict.set (a, i) (dE, dp, c) s.fwd, bck := Dict.set (a, i) v s.bck, test := Dict.del (a, i) s.test }
  | some w => if dE < w.1 then { s with fwd := Dict.set (a, i) (dE, dp, c) s.fwd } else s

/-- The second update, `/repo/skmine/periodic/extract_cycles.py:298-299`. -/
def updTest (a i c : ℕ) (dE dp : ℤ) (s : St) : St :=
  match s.test.lookup (i, c) with
  | none => { s with test := Dict.set (i, c) (dE, dp, a) s.test }
  | some w => if dE < w.1 then { s with test := Dict.set (i, c) (dE, dp, a) s.test } else s

/-- The updates for a pair `(ia, ib)` at center `i`, `/repo/skmine/periodic/extract_cycles.py:271-275,290-299`. -/
def upd (aft bef : List ℤ) (i : ℕ) (s : St) (x : ℕ × ℕ) : St :=
  let a := aft.getD x.1 0
  let b := bef.getD x.2 0
  updTest (i - x.2 - 1) i (i + x.1 + 1) |a + b| (min a (-b)) (updFwd (i - x.2 - 1) i (i + x.1 + 1) |a + b| (min a (-b)) s)

/-- Every hundredth center, `/repo/skmine/periodic/extract_cycles.py:303-307`. -/
def flush (i : ℕ) (s : St) : St :=
  if i % 100 = 0 then
    { s with trip := Dict.update s.trip (s.test.filter (fun x => decide (x.1.2 < i))), test := s.test.filter (fun x => decide (i ≤ x.1.2)) }
  else s

/-- One center, `/repo/skmine/periodic/extract_cycles.py:255-307`. -/
def center (P : Par) (fuel : ℕ) (occs : List ℤ) (s : St) (i : ℕ) : Option St :=
  (scan P fuel (aft P occs i) (bef P occs i) ((aft P occs i).length + (bef P occs i).length + 1) 0 0 []).map
    (fun l => flush i (l.foldl (upd (aft P occs i) (bef P occs i) i) s))

/-- All centers, from 1 to the last position, `/repo/skmine/periodic/extract_cycles.py:248-309`. -/
def centers (P : Par) (fuel : ℕ) (occs : List ℤ) : Option St :=
  ((List.range' 1 (occs.length - 1)).foldlM (center P fuel occs) ⟨[], [], [], []⟩).map (fun s => { s with trip := Dict.update s.trip s.test })

/-- `min(d.keys())`. -/
def minKey : List (ℕ × ℕ) → Option (ℕ × ℕ)
  | [] => none
  | k :: ks =>
    match minKey ks with
    | none => some k
    | some m => if k.1 < m.1 ∨ (k.1 = m.1 ∧ k.2 ≤ m.2) then some k else some m

/-- Following a chain from its last two positions, `/repo/skmine/periodic/extract_cycles.py:316-320`: the positions appended, and the remaining `pairs_chain_fwd` and `triples_tmp`. -/
def follow : ℕ → Dict → Dict → ℕ → ℕ → Option (List ℕ × Dict × Dict)
  | n, fwd, trip, a, b =>
    match fwd.lookup (a, b) with
    | none => some ([], fwd, trip)
    | some v =>
      match n with
      | 0 => none
      | n + 1 => (follow n (Dict.del (a, b) fwd) (Dict.del (b, v.2.2) trip) b v.2.2).map (fun r => (v.2.2 :: r.1, r.2))

/-- The loop over the chains, `/repo/skmine/periodic/extract_cycles.py:313-328`: positions of every chain, and the remaining triples. -/
def chainLoop : ℕ → Dict → Dict → Dict → Option (List (List ℕ) × Dict)
  | n, fwd, bck, trip =>
    match minKey (fwd.map Prod.fst) with
    | none => some ([], trip)
    | some kf =>
      match n with
      | 0 => none
      | n + 1 =>
        match bck.lookup kf, follow fwd.length fwd trip kf.1 kf.2 with
        | some v, some (l, fwd', trip') => (chainLoop n fwd' bck trip').map (fun r => ((v.2.2 :: kf.1 :: kf.2 :: l) :: r.1, r.2))
        | _, _ => none

/-- A chain: its occurrences (`occs`) and its positions (`pos`). -/
abbrev Chain := List ℤ × List ℕ

/-- A triple: `deltaE`, `dp` and three positions. -/
abbrev Triple := ℤ × ℤ × List ℕ

/-- `extract_cycles_fold_sub`, `/repo/skmine/periodic/extract_cycles.py:229-333`. -/
def foldSub (P : Par) (fuel : ℕ) (occs : List ℤ) (offset : ℕ) : Option (List Chain × List Triple) :=
  (centers P fuel occs).bind (fun s =>
    (chainLoop s.fwd.length s.fwd s.bck s.trip).map (fun r =>
      ((r.1.map (fun pos => (pos.map (fun c => occs.getD c 0), pos))).filter (fun c => P.effChain c.1),
       (r.2.filter (fun x => P.effTrip x.2.1 x.2.2.1)).map (fun x => (x.2.1, x.2.2.1, [x.2.2.2 + offset, x.1.1 + offset, x.1.2 + offset])))))

/-- The loop over the blocks after the first, `/repo/skmine/periodic/extract_cycles.py:220-225`, for blocks `i`, `i + 1`, ... -/
def blocks (P : Par) (fuel B : ℕ) (occs : List ℤ) : List ℕ → Option (List Chain × List Triple)
  | [] => some ([], [])
  | i :: is =>
    match foldSub P fuel ((occs.drop (i * B)).take B) (i * B), blocks P fuel B occs is with
    | some x, some y => some (x.1 ++ y.1, x.2 ++ y.2)
    | _, _ => none

/-- `extract_cycles_fold`, `/repo/skmine/periodic/extract_cycles.py:197-226`, with 2000 for `lim` and 1500 for `B`. -/
def foldWith (lim B : ℕ) (P : Par) (fuel : ℕ) (occs : List ℤ) : Option (List Chain × List Triple) :=
  if occs.length < lim then foldSub P fuel occs 0
  else
    match foldSub P fuel (occs.take B) 0, blocks P fuel B occs (List.range' 1 (occs.length / B - 1)) with
    | some x, some y => some (x.1 ++ y.1, x.2 ++ y.2)
    | _, _ => none

/-- `extract_cycles_fold`. -/
def extractFold (P : Par) (fuel : ℕ) (occs : List ℤ) : Option (List Chain × List Triple) := foldWith 2000 1500 P fuel occs

end Verif.Fold
