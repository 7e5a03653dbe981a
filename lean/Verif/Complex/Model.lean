import Verif.Complex.FactModel
import Verif.Kinds.Model
import Verif.Nest.Model
import Verif.Mine.Model
import Verif.Clique.Model

/-!
# Combining candidates, and the miner of complex patterns (C78 and following)

Source: `/repo/skmine/periodic/run_mine.py`, `/repo/skmine/periodic/candidate.py`.

Costs are elements of an ordered field, computed by arbitrary functions (floats in the code). The iteration orders of sets are given by arbitrary functions. Exceptions are `none`.
-/

set_option autoImplicit false

namespace Verif.Complex

open Verif.PTree Verif.Concat Verif.PattKey Verif.DataSeq

/-! ### Candidates -/

/-- A candidate with its cost, `/repo/skmine/periodic/candidate.py:32-43`. -/
structure PC (K : Type) where
  cand : AnyCand
  cost : K

/-- `Candidate.getEvOccs`, `/repo/skmine/periodic/candidate.py:114-121`. -/
def evOccs : AnyCand → List (ℤ × ℤ)
  | .cycle a _ O _ => O.map (fun o => (o, a))
  | .pattern c => c.O.zip (Kinds.eventsMinor true c.tree)

/-- `Candidate.getNbOccs`, `/repo/skmine/periodic/candidate.py:162-166`. -/
def nbOccsA : AnyCand → ℕ
  | .cycle _ _ O _ => O.length
  | .pattern c => nbOccs c.tree

/-- `Candidate.getNbUOccs`, `/repo/skmine/periodic/candidate.py:168-172`. -/
def nbUOccs : AnyCand → ℕ
  | .cycle _ _ O _ => O.length
  | .pattern c => (evOccs (.pattern c)).toFinset.card

/-- `"%s" % event`, or a parenthesis. -/
def tokenStr : Kinds.Token ℤ → List Char
  | .open => ['(']
  | .close => [')']
  | .ev a => Text.showInt a

/-- `P.getEventsList(add_delimiter=False)`, `/repo/skmine/periodic/candidate.py:140,158`. -/
def eventStrs (c : Cand ℤ) : List (List Char) := (Kinds.eventsList false c.tree).map tokenStr

/-- `getEvent() == getEvent()`, `/repo/skmine/periodic/candidate.py:129-146`: an integer for a simple cycle; a string, or a list of strings, for a pattern. -/
def sameEvent : AnyCand → AnyCand → Bool
  | .cycle a _ _ _, .cycle b _ _ _ => a == b
  | .pattern c, .pattern d => decide (eventStrs c = eventStrs d)
  | _, _ => false

/-- `tuple(int(x) for x in getEventTuple())`, `/repo/skmine/periodic/run_mine.py:641-642`. -/
def intTuple : AnyCand → List ℤ
  | .cycle a _ _ _ => [a]
  | .pattern c => (Kinds.eventsList false c.tree).filterMap (fun x => match x with | .ev a => some a | _ => none)

/-- A row of the property matrix: `t0i`, `p0`, `r0`, `offset`, `cumEi`, `new`, `cid`. -/
structure Row where
  t0 : ℤ
  p : ℤ
  r : ℕ
  off : ℕ
  cumE : ℤ
  new : ℕ
  cid : ℕ
  deriving DecidableEq

/-- The order of rows, `propCmp`, `/repo/skmine/periodic/class_patterns.py:397-419`. -/
def rowKey (x : Row) : ℤ ×ₗ (ℤ ×ₗ ℕ) := toLex (x.t0, toLex (x.p, x.r))

/-- `l[:m]`. -/
def upTo {β : Type} (l : List β) (m : ℤ) : List β := if 0 ≤ m then l.take m.toNat else l.take (l.length - (-m).toNat)

/-- `Candidate.getProps`, `/repo/skmine/periodic/candidate.py:295-305`, with `PROPS_MIN_R = 0`. `getMajorO` and `getMajorE` (`/repo/skmine/periodic/candidate.py:199-209`) raise only for a tree that is not regular; then there are no
rows here. -/
def getProps (c : AnyCand) (m : ℤ) (new cid : ℕ) : List Row :=
  match Kinds.majorOccs c.toCand.tree c.toCand.O, Kinds.majorOccs c.toCand.tree (0 :: c.toCand.E) with
  | some O, some E => (upTo O m).zipIdx.map (fun x => ⟨x.1, c.toCand.p, c.toCand.majorR, x.2, ((E.tail.drop x.2).map (fun e => |e|)).sum, new, cid⟩)
  | _, _ => []

variable {K : Type} [Field K] [LinearOrder K]

/-- `Candidate.getCostRatio`, `/repo/skmine/periodic/candidate.py:242-246`. -/
def ratio (c : PC K) : K := c.cost / (nbUOccs c.cand : K)

/-- What is computed from the costs, all arbitrary: the cost of a pattern (`computeCost`, `/repo/skmine/periodic/candidate.py:82-87`), the quotient of the costs of a cycle and of an occurrence rounded down
(`/repo/skmine/periodic/candidate_pool.py:171`), the costs of single occurrences by event, and the costs used in the search for nested patterns. -/
structure World (K : Type) where
  patt : Cand ℤ → K
  floor : PC K → ℤ
  dcosts : List (ℤ × K)
  env : List (PC K) → Nest.Env

/-- Iteration orders of sets during one round. -/
structure Orders where
  /-- Minor keys, `/repo/skmine/periodic/run_mine.py:308-310`. -/
  keys : List (ℤ ⊕ List Char) → List (ℤ ⊕ List Char)
  /-- Vertices in the search of cliques. -/
  enum : List ℕ → Finset ℕ → List ℕ
  /-- A clique. -/
  clique : Finset ℕ → List ℕ

/-- A new candidate with its cost. -/
def World.mk' (W : World K) (c : Cand ℤ) : PC K := ⟨.pattern c, W.patt c⟩

/-- What the pool sees of a candidate; the bound on the rows is that of `/repo/skmine/periodic/candidate_pool.py:169-173`. -/
def ops (W : World K) : CandPool.CandOps (PC K) (ℤ ⊕ List Char) (Option (ℤ × List Char)) Row :=
  ⟨fun c => c.cand.minorKey, fun c => c.cand.majorKey, fun c cid n costOne => getProps c.cand (if costOne then min (W.floor c) ((nbOccsA c.cand : ℤ) - 2) else -2) n cid⟩

/-- A new key: `None`, `V<round>` or `H<round>`, `/repo/skmine/periodic/run_mine.py:888,909`. -/
abbrev NKey := Option (Bool × ℕ)

/-- The pool. -/
abbrev CPool (K : Type) := CandPool.Pool (PC K) (ℤ ⊕ List Char) (Option (ℤ × List Char)) NKey Row

/-- `filter_candidates_topKeach` on a list, `/repo/skmine/periodic/run_mine.py:759-789`, with `TOP_KEACH = 5`. -/
def topK (l : List (PC K)) : List (PC K) :=
  (Mine.topKeach (fun i => (l[i]?.map ratio).getD 0) (fun i => (l[i]?.map (fun c => evOccs c.cand)).getD []) 5 l.length).filterMap (fun i => l[i]?)

/-! ### Vertical combination -/

/-- `run_combine_vertical_cands`, `/repo/skmine/periodic/run_mine.py:321-341`. -/
def verticalCands (W : World K) (s : CPool K) (mk : ℤ ⊕ List Char) : Option (List (PC K)) :=
  ((CandPool.cidsForMinorK s mk).mapM (fun cid => s.candidates.lookup cid)).bind (fun cs =>
    match Nest.nestCmplx cs.length (W.env cs) (cs.map (fun c => c.cand.toCand)) with
    | .ok r => some (topK (r.1.map W.mk'))
    | .error _ => none)

/-- `run_combine_vertical`, `/repo/skmine/periodic/run_mine.py:293-318`. -/
def vertical (W : World K) (Q : Orders) (s : CPool K) (nkey : NKey) : Option (List (PC K)) :=
  (((Q.keys ((s.newMinor.filter (fun e => e.1 = nkey)).map Prod.snd)).filter (fun mk => decide (3 ≤ (CandPool.cidsForMinorK s mk).length))).mapM (verticalCands W s)).map
    (fun ls => topK ls.flatten)

/-! ### Horizontal combination: pairs -/

/-- A position in the property matrix with its row. -/
abbrev PR := ℕ × Row

/-- `/repo/skmine/periodic/run_mine.py:521-532`: rows that end before the first new row starts are skipped; a new row reached is taken out of the list of new rows; if it was the last, the other rows are dropped. -/
def advance (pids : List PR) (news : Option (List PR)) : Option (List PR × Option (List PR)) :=
  match news with
  | some (n0 :: ns) =>
    match pids.dropWhile (fun q => decide (q.1 ≠ n0.1) && decide (q.2.t0 + q.2.p < n0.2.t0)) with
    | [] => none
    | q :: rest =>
      if q.1 = n0.1 then (if ns = [] then some ([q], some []) else some (q :: rest, some ns))
      else some (q :: rest, some (n0 :: ns))
  | _ => some (pids, news)

/-- `getPidsSlice(patterns_props, pids, 500, prop_map["t0i"], next_it)`. -/
def slice (pids : List PR) (next : ℤ) : Option (List PR) := (CandPool.pidsSlice (pids.map (fun q => q.2.t0)) 500 next).map (fun k => pids.take k)

/-- `cmp_ids`, `/repo/skmine/periodic/run_mine.py:543-556`; an empty `numpy.array` cannot be used as indices (`IndexError`). -/
def cmpIds (num : ℕ) (i : PR) (pids : List PR) (news : Option (List PR)) : Option (List PR) :=
  if i.2.new = num then slice pids (i.2.t0 + i.2.p)
  else
    match news with
    | some [] => none
    | some (n :: ns) => some ((n :: ns).filter (fun q => decide (q.2.t0 ≤ i.2.t0 + i.2.p)))
    | none => (slice pids (i.2.t0 + i.2.p)).map (fun l => l.filter (fun q => decide (q.2.new = num)))

/-- The least number of repetitions left. -/
def rmin (i j : Row) : ℕ := min (i.r - i.off) (j.r - j.off)

/-- `|p_j - p_i| <= 2 cumE_j / (r (r - 1))`, `/repo/skmine/periodic/run_mine.py:564-571,591-593`, written without division (`r` is at least 2). -/
def closeP (i j : Row) : Bool := decide (|j.p - i.p| * ((rmin i j : ℤ) * ((rmin i j : ℤ) - 1)) ≤ 2 * j.cumE)

/-- `sel_ids`, `/repo/skmine/periodic/run_mine.py:559-571`. -/
def selIds (num : ℕ) (i : PR) (pids : List PR) (news : Option (List PR)) : Option (List PR) :=
  (cmpIds num i pids news).map (fun l => l.filter (fun j => decide (j.2.cid ≠ i.2.cid) && closeP i.2 j.2))

/-- The new candidate for a pair and its key, `/repo/skmine/periodic/run_mine.py:584-603`. -/
def makePair (W : World K) (ci cj : PC K) (i j : PR) : Option (List ℕ × PC K) :=
  match concat [(ci.cand.toCand, i.2.off), (cj.cand.toCand, j.2.off)] i.2.p (rmin i.2 j.2) with
  | none => none
  | some c =>
    if i.2.t0 = j.2.t0 ∧ closeP i.2 j.2 = true then
      match concat [(cj.cand.toCand, j.2.off), (ci.cand.toCand, i.2.off)] j.2.p (rmin i.2 j.2) with
      | none => none
      | some x =>
        if W.patt x < W.patt c ∨ (W.patt c = W.patt x ∧ eventStrs x < eventStrs c) then some ([j.1, i.1], W.mk' x) else some ([i.1, j.1], W.mk' c)
    else some ([i.1, j.1], W.mk' c)

/-- `sum_cost / sum_nboccs`, `/repo/skmine/periodic/run_mine.py:605-606`. -/
def meanCost (ci cj : PC K) : K := (ci.cost + cj.cost) / ((nbOccsA ci.cand + nbOccsA cj.cand : ℕ) : K)

/-- The tests of `/repo/skmine/periodic/run_mine.py:608-614`. -/
def worth (W : World K) (ci cj new : PC K) : Option Bool :=
  if ratio new < meanCost ci cj then
    let res := (evOccs ci.cand ++ evOccs cj.cand).toFinset \ (evOccs new.cand).toFinset
    (Select.sumCosts W.dcosts Prod.snd res).map (fun cr => decide ((new.cost + cr) / ((nbOccsA new.cand + res.card : ℕ) : K) < meanCost ci cj))
  else some false

/-- One turn of the loop over `sel_ids`, `/repo/skmine/periodic/run_mine.py:574-615`: the two candidates, and the new one if it is kept. -/
def tryPair (W : World K) (cs : List (ℕ × PC K)) (i j : PR) : Option ((PC K × PC K) × Option (List ℕ × PC K)) :=
  match cs.lookup i.2.cid, cs.lookup j.2.cid with
  | some ci, some cj =>
    if sameEvent ci.cand cj.cand = true ∧ i.2.t0 = j.2.t0 then some ((ci, cj), none)
    else if (evOccs ci.cand).any (fun o => decide (o ∈ evOccs cj.cand)) then some ((ci, cj), none)
    else (makePair W ci cj i j).bind (fun x => (worth W ci cj x.2).map (fun b => ((ci, cj), if b then some x else none)))
  | _, _ => none

/-- The variables of `run_combine_horizontal`: `pids`, `pids_new`, `keep_cands`, `cands`. -/
structure HState (K : Type) where
  pids : List PR
  news : Option (List PR)
  keep : List (List ℕ × PC K)
  last : Option (PC K × PC K)

/-- The loop over `sel_ids`, `/repo/skmine/periodic/run_mine.py:573-624`. -/
def pairLoop (W : World K) (cs : List (ℕ × PC K)) (i : PR) : List PR → HState K → Option (HState K)
  | [], s => some s
  | j :: js, s =>
    match tryPair W cs i j with
    | none => none
    | some (l, none) => pairLoop W cs i js { s with last := some l }
    | some (l, some (k, c)) =>
      let news := s.news.map (fun ns => ns.filter (fun q => decide (q.2.cid ≠ i.2.cid)))
      let pids := s.pids.filter (fun q => decide (q.2.cid ≠ i.2.cid))
      pairLoop W cs i js ⟨if news = some [] then [] else pids, news, CandPool.dset k c s.keep, some l⟩

/-- The main loop, `/repo/skmine/periodic/run_mine.py:520-624`; the first number bounds the turns. -/
def hLoop (W : World K) (cs : List (ℕ × PC K)) (num : ℕ) : ℕ → HState K → Option (HState K)
  | 0, s => if s.pids.length ≤ 1 then some s else none
  | n + 1, s =>
    if s.pids.length ≤ 1 then some s
    else
      match advance s.pids s.news with
      | none => none
      | some ([], _) => none
      | some (i :: pids, news) =>
        if pids = [] then hLoop W cs num n { s with pids := [], news := news }
        else
          match selIds num i pids news with
          | none => none
          | some js =>
            match pairLoop W cs i js { s with pids := pids, news := news } with
            | none => none
            | some s' => hLoop W cs num n s'

/-! ### Horizontal combination: cliques -/

/-- `filter_candidates_topKeach` on a dictionary, `/repo/skmine/periodic/run_mine.py:759-789`: positions of the keys kept. -/
def topKeys (keep : List (List ℕ × PC K)) : List (List ℕ) :=
  if keep.length ≤ 5 then keep.map Prod.fst
  else
    let r := fun i => (keep[i]?.map (fun e => ratio e.2)).getD 0
    let k := fun i => (keep[i]?.map Prod.fst).getD []
    (Mine.topLoop (fun i => (keep[i]?.map (fun e => evOccs e.2.cand)).getD []) 5 (fun _ => 0)
      ((List.range keep.length).insertionSort (fun a b => r a < r b ∨ (r a = r b ∧ k a ≤ k b)))).filterMap (fun i => keep[i]?.map Prod.fst)

/-- The other element of a pair. -/
def other (v : ℕ) : List ℕ → Option ℕ
  | [a, b] => if a = v then some b else if b = v then some a else none
  | _ => none

/-- `graph_candidates`, `/repo/skmine/periodic/run_mine.py:628-634`. -/
def neighbours (sel : List (List ℕ)) (v : ℕ) : Finset ℕ := (sel.filterMap (other v)).toFinset

/-- A row with its position and candidate. -/
structure Item (K : Type) where
  pid : ℕ
  row : Row
  c : PC K

/-- `makeCandOnOrder`, `/repo/skmine/periodic/run_mine.py:677-700`. -/
def makeOn (W : World K) : List (Item K) → Option (PC K)
  | [] => none
  | x :: l => (concat ((x :: l).map (fun y => (y.c.cand.toCand, y.row.off))) x.row.p (l.foldl (fun m y => min m (y.row.r - y.row.off)) (x.row.r - x.row.off))).map W.mk'

/-- The rows of a clique, in the order of the set. -/
def items (cs : List (ℕ × PC K)) (props : List Row) (l : List ℕ) : Option (List (Item K)) :=
  l.mapM (fun i => (props[i]?).bind (fun row => (cs.lookup row.cid).map (fun c => ⟨i, row, c⟩)))

/-- The first order, `/repo/skmine/periodic/run_mine.py:639-642`. -/
def orderBase (l : List (Item K)) : List (Item K) :=
  l.insertionSort (fun a b => a.row.t0 < b.row.t0 ∨ (a.row.t0 = b.row.t0 ∧ intTuple a.c.cand ≤ intTuple b.c.cand))

/-- The second order, `/repo/skmine/periodic/run_mine.py:645-650`, by how often a row comes first in a pair. -/
def orderX (sel : List (List ℕ)) (R : Finset ℕ) (l : List (Item K)) : List (Item K) :=
  let cnt := fun x : ℕ => (sel.filter (fun k => decide (k.head? = some x) && k.all (fun y => decide (y ∈ R)))).length
  l.insertionSort (fun a b => cnt b.pid ≤ cnt a.pid)

/-- The third order, `sortPids`, `/repo/skmine/periodic/run_mine.py:659`. -/
def orderY (l : List (Item K)) : List (Item K) := l.insertionSort (fun a b => rowKey a.row ≤ rowKey b.row)

/-- Another order replaces the current one if it is different and cheaper, `/repo/skmine/periodic/run_mine.py:651-656,660-664`. -/
def better (W : World K) (l : List (Item K)) (cur : List ℕ × PC K) : Option (List ℕ × PC K) :=
  if l.map (fun x => x.pid) = cur.1 then some cur
  else (makeOn W l).map (fun x => if x.cost < cur.2.cost then (l.map (fun x => x.pid), x) else cur)

/-- The candidate of a clique, `/repo/skmine/periodic/run_mine.py:639-664`. -/
def cliqueCand (W : World K) (Q : Orders) (cs : List (ℕ × PC K)) (props : List Row) (sel : List (List ℕ)) (R : Finset ℕ) : Option (List ℕ × PC K) :=
  (items cs props (Q.clique R)).bind (fun l =>
    (makeOn W (orderBase l)).bind (fun c =>
      let base := ((orderBase l).map (fun x => x.pid), c)
      (if ((orderBase l).map (fun x => x.row.t0)).Nodup then some base else better W (orderX sel R (orderBase l)) base).bind (better W (orderY l))))

/-- The loop over the cliques, `/repo/skmine/periodic/run_mine.py:638-670`: the new candidate is compared to the last pair looked at in the previous loop. -/
def cliqueLoop (W : World K) (Q : Orders) (cs : List (ℕ × PC K)) (props : List Row) (sel : List (List ℕ)) (last : Option (PC K × PC K)) : List (Finset ℕ) → List (List ℕ × PC K) → Option (List (List ℕ × PC K))
  | [], keep => some keep
  | R :: Rs, keep =>
    match cliqueCand W Q cs props sel R, last with
    | some x, some l => cliqueLoop W Q cs props sel last Rs (if ratio x.2 < meanCost l.1 l.2 then CandPool.dset x.1 x.2 keep else keep)
    | _, _ => none

/-- `substitute_factorized` for one candidate, `/repo/skmine/periodic/run_mine.py:792-810`: the first of the cheapest. -/
def substitute (W : World K) (c : PC K) : Option (PC K) :=
  match c.cand with
  | .cycle _ _ _ _ => some c
  | .pattern d => (factorizePattern (inner' d) d).map (fun ext => (ext.map W.mk').foldl (fun best e => if e.cost < best.cost then e else best) c)
where
  /-- Enough levels of recursion: the number of inner nodes. -/
  inner' (d : Cand ℤ) : ℕ := (Nest.cyclePs d.tree).length

/-- The end of `run_combine_horizontal`, `/repo/skmine/periodic/run_mine.py:626-674`. -/
def hFinish (W : World K) (Q : Orders) (cs : List (ℕ × PC K)) (props : List Row) (s : HState K) : Option (List (PC K)) :=
  let sel := topKeys s.keep
  let keep := sel.filterMap (fun k => (s.keep.lookup k).map (fun c => (k, c)))
  (Clique.bronKerbosch3Plus (neighbours sel) Q.enum (sel.flatten.toFinset.card + 1) [] sel.flatten.toFinset ∅ ∅).bind (fun collect =>
    (cliqueLoop W Q cs props sel s.last collect keep).bind (fun k => (k.map Prod.snd).mapM (substitute W)))

/-- `nbNewCandidates`, `/repo/skmine/periodic/candidate_pool.py:80-83`: without key, all new candidates are counted. -/
def nbNew (s : CPool K) (nkey : NKey) : ℕ :=
  match nkey with
  | none => s.newCids.length
  | some k => (CandPool.getNewCids s (some k)).length

/-- `run_combine_horizontal`, `/repo/skmine/periodic/run_mine.py:489-674`. Without any row, `sortPids(None)` raises. -/
def horizontal (W : World K) (Q : Orders) (s : CPool K) (nkey : NKey) : Option (List (PC K)) :=
  if nbNew s nkey = 0 then some []
  else
    match s.props, s.pids with
    | some props, some pids =>
      ((match pids with | .list l => l | .range n => List.range n).mapM (fun i : ℕ => (props[i]?).map (fun row : Row => (i, row)))).bind (fun prs : List PR =>
        let num := s.nkeys.idxOf nkey
        let new := prs.filter (fun q : PR => decide (q.2.new = num))
        if new = [] then some []
        else (hLoop W s.candidates num prs.length ⟨prs, if new.length < 500 then some new else none, [], none⟩).bind (hFinish W Q s.candidates props))
    | _, _ => none

/-! ### Rounds -/

/-- The variables of the main loop: the pool, the number of rounds and the two new keys. -/
structure RState (K : Type) where
  pool : CPool K
  i : ℕ
  nkeyV : NKey
  nkeyH : NKey

/-- One round, `/repo/skmine/periodic/run_mine.py:900-916`. -/
def round (W : World K) (Q : Orders) (s : RState K) : Option (RState K) :=
  match vertical W Q s.pool s.nkeyH, horizontal W Q s.pool s.nkeyV with
  | some V, some H =>
    match CandPool.addCands (ops W) rowKey (CandPool.resetNew s.pool) V (some (true, s.i + 1)) false with
    | (p, none) =>
      match CandPool.addCands (ops W) rowKey p H (some (false, s.i + 1)) false with
      | (p', none) => some ⟨p', s.i + 1, some (true, s.i + 1), some (false, s.i + 1)⟩
      | _ => none
    | _ => none
  | _, _ => none

/-- At most `n` rounds, `/repo/skmine/periodic/run_mine.py:888-916`: the loop ends when there is no new candidate. -/
def rounds (W : World K) (Q : ℕ → Orders) : ℕ → RState K → Option (RState K)
  | 0, s => some s
  | n + 1, s => if s.pool.newCids = [] then some s else (round W (Q s.i) s).bind (rounds W Q n)

/-! ### The miner -/

/-- A simple cycle as a candidate, `/repo/skmine/periodic/candidate.py:53-64`. -/
def ofCyc (alpha : ℕ) (c : Mine.Cyc K) : PC K := ⟨.cycle alpha c.p c.occs (Miner.computeE c.occs c.p), c.cost⟩

/-- The loop over the events, `/repo/skmine/periodic/run_mine.py:855-865`. -/
def initLoop {ε : Type} [LinearOrder ε] (W : World K) (A : ℕ → Mine.Costs K) (fuel : ℕ) (ds : Built ε) (s : CPool K) (alpha : ℕ) : Option (CPool K) :=
  (Mine.mineAlpha (A alpha) fuel alpha (getSequence ds alpha)).bind (fun cs =>
    match CandPool.addCands (ops W) rowKey s (cs.map (ofCyc alpha)) none true with
    | (s', none) => some s'
    | (_, some _) => none)

/-- The pool of simple cycles, `/repo/skmine/periodic/run_mine.py:848-865`. -/
def initPool {ε : Type} [LinearOrder ε] (W : World K) (A : ℕ → Mine.Costs K) (fuel : ℕ) (ds : Built ε) : Option (CPool K) :=
  (List.range ds.listEv.length).foldlM (initLoop W A fuel ds) CandPool.empty

/-- The candidates of the pool as read by the selection. -/
def candsOf (cs : List (ℕ × PC K)) : Select.Cands K (ℤ × ℤ) :=
  ⟨fun i => ((cs.lookup i).map (fun c => c.cost)).getD 0, fun i => ((cs.lookup i).map (fun c => (evOccs c.cand).toFinset)).getD ∅⟩

/-- `getPattT0E`, `/repo/skmine/periodic/candidate.py:66-71`; events, which are numbers of events of the data, are written as naturals again. -/
def toPatt (c : AnyCand) : Option Miner.Patt := c.toCand.O.head?.map (fun t0 => (mapT Int.toNat c.toCand.tree, t0, c.toCand.E))

/-- The selection, `/repo/skmine/periodic/run_mine.py:969-977`. -/
def choose (W : World K) (s : CPool K) : Option (List Miner.Patt) :=
  (Select.filterCover (candsOf s.candidates) W.dcosts Prod.snd 3 (s.candidates.map Prod.fst)).bind (fun sel => sel.mapM (fun i => (s.candidates.lookup i).bind (fun c => toPatt c.cand)))

/-- `mine_seqs(seqs, complex=True)`, `/repo/skmine/periodic/run_mine.py:813-987`, with at most `n` rounds: the final state, and the patterns. The reports are left out. -/
def mineComplex {ε : Type} [LinearOrder ε] (W : World K) (A : ℕ → Mine.Costs K) (Q : ℕ → Orders) (fuel n : ℕ) (ds : Built ε) : Option (RState K × List Miner.Patt) :=
  (initPool W A fuel ds).bind (fun s => (rounds W Q n ⟨s, 0, none, none⟩).bind (fun s => (choose W s.pool).map (fun ps => (s, ps))))

end Verif.Complex
