import Verif.Fold.Model
import Verif.Cycles.Model
import Verif.Select.Model
import Verif.CandPool.Model
import Verif.PattKey.Model
import Verif.Miner.Model
import Mathlib.Data.Prod.Lex

/-!
# The initial candidates and the simple miner (C67 to C71)

Source: `/repo/skmine/periodic/run_mine.py`, `/repo/skmine/periodic/class_patterns.py`.

Times are integers. Costs are elements of an ordered field given by arbitrary functions (floats in the code). Exceptions, and fuel running out in the fold search, are `none`.
-/

set_option autoImplicit false

namespace Verif.Mine

open Verif.DataSeq

/-- `computePeriodDiffs`, `/repo/skmine/periodic/class_patterns.py:28-45`: floor of the median. The median of an even number of values is the mean of the middle two (a float in the code, exact below 2^52). `int(nan)` raises
for an empty list. -/
def periodDiffs (ds : List ℤ) : Option ℤ :=
  let s := ds.insertionSort (· ≤ ·)
  if s.length % 2 = 1 then s[s.length / 2]?
  else
    match s[s.length / 2 - 1]?, s[s.length / 2]? with
    | some a, some b => some ((a + b) / 2)
    | _, _ => none

/-- `numpy.diff`. -/
def diff : List ℤ → List ℤ
  | a :: b :: l => (b - a) :: diff (b :: l)
  | _ => []

/-- `computePeriod`, `/repo/skmine/periodic/class_patterns.py:48-67`, unsorted. -/
def computePeriod (occs : List ℤ) : Option ℤ := periodDiffs (diff occs)

variable {K : Type}

/-- A cycle: its occurrences, period and cost (the event is the same for all cycles of a list). -/
structure Cyc (K : Type) where
  occs : List ℤ
  p : ℤ
  cost : K

/-- `(kk["occs"][0], len(kk["occs"]), kk["p"])`, `/repo/skmine/periodic/run_mine.py:274`, ordered as a tuple; `IndexError` for no occurrence. -/
def key (c : Cyc K) : Option (ℤ ×ₗ (ℕ ×ₗ ℤ)) := c.occs.head?.map (fun t => toLex (t, toLex (c.occs.length, c.p)))

/-- An element of `keys`, `/repo/skmine/periodic/run_mine.py:274`, with its cycle: key, position in its list, number of its list. -/
structure Entry (K : Type) where
  k : ℤ ×ₗ (ℕ ×ₗ ℤ)
  ki : ℕ
  ci : ℕ
  c : Cyc K

/-- The tuple that is sorted. -/
def Entry.tup (e : Entry K) : (ℤ ×ₗ (ℕ ×ₗ ℤ)) ×ₗ (ℕ ×ₗ ℕ) := toLex (e.k, toLex (e.ki, e.ci))

/-- `keys`, `/repo/skmine/periodic/run_mine.py:271-274`. -/
def entries (ls : List (List (Cyc K))) : Option (List (Entry K)) :=
  (ls.zipIdx.flatMap (fun l => l.1.zipIdx.map (fun c => (c.1, c.2, l.2)))).mapM (fun x => (key x.1).map (fun k => ⟨k, x.2.1, x.2.2, x.1⟩))

variable [LinearOrder K]

/-- The loop of `merge_cycle_lists`, `/repo/skmine/periodic/run_mine.py:281-290`: the last cycle kept and its key, then the remaining keys. -/
def mergeLoop : (ℤ ×ₗ (ℕ ×ₗ ℤ)) → Cyc K → List (Entry K) → List (Cyc K)
  | _, c, [] => [c]
  | k, c, e :: l =>
    if e.k ≠ k then c :: mergeLoop e.k e.c l
    else if e.c.cost < c.cost then mergeLoop e.k e.c l
    else mergeLoop e.k c l

/-- `merge_cycle_lists`, `/repo/skmine/periodic/run_mine.py:256-290`. The `source` of a cycle, never read, is left out. -/
def mergeLists (ls : List (List (Cyc K))) : Option (List (Cyc K)) :=
  (entries ls).map (fun es =>
    match es.insertionSort (fun a b => a.tup ≤ b.tup) with
    | [] => []
    | e :: l => mergeLoop e.k e.c l)

section TopK

variable {ω : Type} [DecidableEq ω]

/-- The loop of `filter_candidates_topKeach`, `/repo/skmine/periodic/run_mine.py:783-788`, with `counts_cover` as a function; `occs` is `getEvOccs`. `satisfiesMaxCountCover` and `updateCountCover` are
`/repo/skmine/periodic/candidate.py:238-247`. -/
def topLoop (occs : ℕ → List ω) (k : ℕ) : (ω → ℕ) → List ℕ → List ℕ
  | _, [] => []
  | cnt, i :: l =>
    if (occs i).any (fun x => decide (cnt x ≤ k)) then i :: topLoop occs k (fun x => cnt x + (occs i).count x) l
    else topLoop occs k cnt l

/-- `filter_candidates_topKeach`, `/repo/skmine/periodic/run_mine.py:759-789`, for `n` candidates; `ratio` is `getCostRatio`. -/
def topKeach (ratio : ℕ → K) (occs : ℕ → List ω) (k n : ℕ) : List ℕ :=
  if n ≤ k then List.range n
  else topLoop occs k (fun _ => 0) ((List.range n).insertionSort (fun a b => toLex (ratio a, a) ≤ toLex (ratio b, b)))

end TopK

/-- The costs, all arbitrary: of a cycle (`computeLengthCycle`, also the score of a whole segment in the table), of a residual, of a triple (`cost_triple`, a function of `deltaE` and `dp`), and the comparisons of the fold
search. -/
structure Costs (K : Type) where
  cyc : List ℤ → K
  res : K
  trip : ℤ → ℤ → K
  par : Fold.Par

section Alpha

variable [Field K]

/-- `dyn_cycles`, `/repo/skmine/periodic/extract_cycles.py:174-187`: occurrences with their period and cost. -/
def withPeriod (cost : List ℤ → K) (occs : List ℤ) : Option (Cyc K) := (computePeriod occs).map (fun p => ⟨occs, p, cost occs⟩)

/-- `drop_occs`, `/repo/skmine/periodic/run_mine.py:233-236`. -/
def dropOccs (dyn : List (List ℤ)) : List ℤ := dyn.flatMap (fun c => if 10 < c.length then (c.drop 5).take (c.length - 10) else [])

/-- `tmp_occs`, `/repo/skmine/periodic/run_mine.py:237-242`. -/
def tmpOccs (occs : List ℤ) (dyn : List (List ℤ)) : List ℤ :=
  if 0 < (dropOccs dyn).length then (occs.dedup.filter (fun o => decide (o ∉ dropOccs dyn))).insertionSort (· ≤ ·) else occs

/-- A triple as a cycle, `/repo/skmine/periodic/run_mine.py:245-246`. -/
def tripleCyc (trip : ℤ → ℤ → K) (tmp : List ℤ) (t : Fold.Triple) : Option (Cyc K) :=
  (t.2.2.mapM (fun k => tmp[k]?)).bind (fun O => (computePeriod O).map (fun p => ⟨O, p, trip t.1 t.2.1⟩))

/-- The cycles before the final selection, `/repo/skmine/periodic/run_mine.py:231-248`. -/
def mergedAlpha (W : Costs K) (fuel : ℕ) (occs : List ℤ) : Option (List (Cyc K)) :=
  (Cycles.computeCycles W.cyc W.res occs).bind (fun d =>
    (Fold.extractFold W.par fuel (tmpOccs occs d.1)).bind (fun r =>
      match d.1.mapM (withPeriod W.cyc), (r.1.map Prod.fst).mapM (withPeriod W.cyc), r.2.mapM (tripleCyc W.trip (tmpOccs occs d.1)) with
      | some dyn, some chains, some triples => mergeLists [dyn, chains, triples]
      | _, _, _ => none))

/-- The selection of the candidates of one event, `/repo/skmine/periodic/run_mine.py:250-253`, with `TOP_KEACH = 5`; `getEvOccs` of a cycle is its occurrences with the event. -/
def selectAlpha (alpha : ℕ) (cycles : List (Cyc K)) : List (Cyc K) :=
  (topKeach (fun i => (cycles[i]?.map (fun c => c.cost / (c.occs.length : K))).getD 0)
    (fun i => (cycles[i]?.map (fun c => c.occs.map (fun t => (t, alpha)))).getD []) 5 cycles.length).filterMap (fun i => cycles[i]?)

/-- `mine_cycles_alpha`, `/repo/skmine/periodic/run_mine.py:196-253`. -/
def mineAlpha (W : Costs K) (fuel alpha : ℕ) (occs : List ℤ) : Option (List (Cyc K)) := (mergedAlpha W fuel occs).map (selectAlpha alpha)

/-! ### The simple miner -/

/-- What the pool sees of a simple cycle with its event, `/repo/skmine/periodic/candidate.py:174-185`; the property rows are arbitrary. -/
def cycOps {R : Type} (rows : (ℕ × Cyc K) → ℕ → ℕ → Bool → List R) : CandPool.CandOps (ℕ × Cyc K) ℕ (Option ℤ × List Char) R :=
  ⟨Prod.fst, fun c => (c.2.occs.head?, PattKey.rpKey c.2.occs.length c.2.p), rows⟩

/-- The pool of the simple candidates. -/
abbrev SPool (K R : Type) := CandPool.Pool (ℕ × Cyc K) ℕ (Option ℤ × List Char) (Option String) R

/-- The loop over the events, `/repo/skmine/periodic/run_mine.py:853-867`; `W alpha` are the costs for the event. -/
def poolLoop {ε R κ : Type} [LinearOrder ε] [LinearOrder κ] (rows : (ℕ × Cyc K) → ℕ → ℕ → Bool → List R) (rk : R → κ) (W : ℕ → Costs K) (fuel : ℕ) (ds : Built ε) (s : SPool K R) (alpha : ℕ) :
    Option (SPool K R) :=
  (mineAlpha (W alpha) fuel alpha (getSequence ds alpha)).bind (fun cs =>
    match CandPool.addCands (cycOps rows) rk s (cs.map (fun c => (alpha, c))) none true with
    | (s', none) => some s'
    | (_, some _) => none)

/-- The candidates of the pool as read by the selection. -/
def candsOf (cs : List (ℕ × (ℕ × Cyc K))) : Select.Cands K (ℤ × ℕ) :=
  ⟨fun i => ((cs.lookup i).map (fun c => c.2.cost)).getD 0, fun i => ((cs.lookup i).map (fun c => (c.2.occs.map (fun t => (t, c.1))).toFinset)).getD ∅⟩

/-- `mine_seqs(seqs, complex=False)`, `/repo/skmine/periodic/run_mine.py:813-1000`: the patterns selected. `one alpha` is `cost_one(data_details, alpha)`. The reports are left out. -/
def mineSimple {ε R κ : Type} [LinearOrder ε] [LinearOrder κ] (rows : (ℕ × Cyc K) → ℕ → ℕ → Bool → List R) (rk : R → κ) (W : ℕ → Costs K) (one : ℕ → K) (fuel : ℕ) (ds : Built ε) : Option (List Miner.Patt) :=
  ((List.range ds.listEv.length).foldlM (poolLoop rows rk W fuel ds) CandPool.empty).bind (fun s =>
    (Select.filterCover (candsOf s.candidates) (ds.evNbOccs.map (fun e => (e.1, one e.1))) Prod.snd 3 (s.candidates.map Prod.fst)).bind (fun sel =>
      sel.mapM (fun i => (s.candidates.lookup i).bind (fun c => Miner.simplePatt c.1 c.2.occs c.2.p))))

end Alpha

end Verif.Mine
