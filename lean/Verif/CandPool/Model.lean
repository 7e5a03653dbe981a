import Verif.Periodic.MergePids
import Mathlib.Order.WithBot

/-!
# Candidate pool (C52, C56) and slices of sorted candidates (C57)

Source: `/repo/skmine/periodic/candidate_pool.py` and `/repo/skmine/periodic/run_mine.py:463-486`.

A candidate is a value of an arbitrary type with a minor key, a major key, and property rows; the rows (`Candidate.getProps`, with the offset bound computed
from the cost) are given by an arbitrary function of the candidate, its id and the number of the new key. The nested dictionary `map_minorKs` is
flattened into pairs `((minor, major), id)`; `new_cids` and `new_minorKs` into pairs `(new key, value)`. `sorted_pids` is either a list or a
`range` object: the latter has neither `insert`, `pop` nor `extend`. Exceptions leave the mutations made before them.
-/

set_option autoImplicit false

namespace Verif.CandPool

open Verif.Periodic

/-- What the pool asks of a candidate: `getMinorKey`, `getMajorKey`, and `getProps` (with the bound of lines 169-173 when `costOne` is given). -/
structure CandOps (C M K R : Type*) where
  minor : C → M
  major : C → K
  /-- candidate, id, number of the new key, `costOne is not None` -/
  rows : C → ℕ → ℕ → Bool → List R

/-- `sorted_pids`: a list or a `range` object. -/
inductive Pids
  | list (l : List ℕ)
  | range (n : ℕ)

/-- The fields of the pool, `/repo/skmine/periodic/candidate_pool.py:36-48`. -/
structure Pool (C M K N R : Type*) where
  candidates : List (ℕ × C)
  nextCid : ℕ
  keys : List ((M × K) × ℕ)
  nkeys : List N
  newMinor : List (N × M)
  newCids : List (N × ℕ)
  props : Option (List R)
  pids : Option Pids

variable {C M K N R κ : Type*} [DecidableEq M] [DecidableEq K] [DecidableEq N] [LinearOrder κ]

/-- `CandidatePool()`, `/repo/skmine/periodic/candidate_pool.py:36-46`. -/
def empty : Pool C M K N R := ⟨[], 0, [], [], [], [], none, none⟩

/-- `d[k] = v`. -/
def dset {β γ : Type*} [DecidableEq β] (k : β) (v : γ) : List (β × γ) → List (β × γ)
  | [] => [(k, v)]
  | (k', v') :: l => if k' = k then (k', v) :: l else (k', v') :: dset k v l

/-- `resetNew`, `/repo/skmine/periodic/candidate_pool.py:50-55`. -/
def resetNew (s : Pool C M K N R) : Pool C M K N R := { s with newCids := [], newMinor := [] }

/-- `getCidsForMinorK`, `/repo/skmine/periodic/candidate_pool.py:62-63`. -/
def cidsForMinorK (s : Pool C M K N R) (m : M) : List ℕ := (s.keys.filter (fun e => e.1.1 = m)).map Prod.snd

/-- `getNewCids`, `/repo/skmine/periodic/candidate_pool.py:74-75`. -/
def getNewCids (s : Pool C M K N R) (n : N) : List ℕ := (s.newCids.filter (fun e => e.1 = n)).map Prod.snd

/-- Recording of the new key, `/repo/skmine/periodic/candidate_pool.py:127-129` and `163-165`. -/
def recordKey (s : Pool C M K N R) (n : N) : Pool C M K N R :=
  if n ∈ s.nkeys then s else { s with nkeys := s.nkeys ++ [n] }

/-- `addCand(p, nkey, with_props=False)` up to line 135, without the increment of `next_cid`,
`/repo/skmine/periodic/candidate_pool.py:111-135`. `none`: the candidate is a duplicate. -/
def register (o : CandOps C M K R) (s : Pool C M K N R) (c : C) (n : N) : Option (Pool C M K N R) :=
  if (o.minor c, o.major c) ∈ s.keys.map Prod.fst then none
  else
    let s := { s with candidates := dset s.nextCid c s.candidates, keys := s.keys ++ [((o.minor c, o.major c), s.nextCid)] }
    let s := recordKey s n
    some { s with
      newMinor := if (n, o.minor c) ∈ s.newMinor then s.newMinor else s.newMinor ++ [(n, o.minor c)]
      newCids := s.newCids ++ [(n, s.nextCid)] }

/-- `addCand(p, nkey, with_props=False)`, `/repo/skmine/periodic/candidate_pool.py:88-152`: the new state and whether a candidate was added. -/
def addCandQuiet (o : CandOps C M K R) (s : Pool C M K N R) (c : C) (n : N) : Pool C M K N R × Bool :=
  match register o s c n with
  | none => (s, false)
  | some s => ({ s with nextCid := s.nextCid + 1 }, true)

/-- Comparison of row positions: only positions inside the matrix are ever compared (an invalid one would be an `IndexError`). -/
def pidKey (key : R → κ) (rows : List R) (i : ℕ) : WithBot κ := (rows[i]?.map key).elim ⊥ (fun k => (k : WithBot κ))

/-- `mergeSortedPids(props, sorted_pids, npids)` where `npids` is the nonempty `range(a, b)`, as called at
`/repo/skmine/periodic/candidate_pool.py:148-149`: a `range` as first list has no `insert` and no `extend`; a list whose rows do not all come before
the first new row needs `pop` on the `range`. -/
def mergeRange (key : ℕ → WithBot κ) (pids : Option Pids) (a b : ℕ) : Except String Pids :=
  match pids with
  | some (.list A) => if A.all (fun i => key i ≤ key a) then .ok (.list (A ++ List.range' a (b - a))) else .error "AttributeError"
  | some (.range _) => .error "AttributeError"
  | none => .error "TypeError"

/-- `addCand(p, nkey)` with the default `with_props=True`, `/repo/skmine/periodic/candidate_pool.py:88-152`: new state, and the exception if any. On an
exception `next_cid` is not incremented (`np.vstack` raises when there is no row). A first candidate without rows is not modelled further. -/
def addCand (o : CandOps C M K R) (key : R → κ) (s : Pool C M K N R) (c : C) (n : N) : Pool C M K N R × Option String :=
  match register o s c n with
  | none => (s, none)
  | some s =>
    let rows := o.rows c s.nextCid (s.nkeys.idxOf n) false
    match s.props with
    | none => ({ s with props := some rows, pids := some (.range rows.length), nextCid := s.nextCid + 1 }, none)
    | some old =>
      let all := old ++ rows
      if rows.length = 0 then (s, some "ValueError")
      else match mergeRange (pidKey key all) s.pids old.length all.length with
        | .error e => ({ s with props := some all }, some e)
        | .ok p => ({ s with props := some all, pids := some p, nextCid := s.nextCid + 1 }, none)

/-- The end of `addCands`, `/repo/skmine/periodic/candidate_pool.py:178-190`. -/
def finish (key : R → κ) (s : Pool C M K N R) (rows : List R) : Pool C M K N R × Option String :=
  if rows.length = 0 then (s, none)
  else match s.props with
    | none => ({ s with props := some rows, pids := some (.list (sortPids (pidKey key rows) (List.range rows.length))) }, none)
    | some old =>
      let all := old ++ rows
      match s.pids with
      | some (.list A) =>
        ({ s with props := some all, pids := some (.list (mergeSortedPids (pidKey key all) A
            (sortPids (pidKey key all) (List.range' old.length rows.length)))) }, none)
      | some (.range _) => ({ s with props := some all }, some "AttributeError")
      | none => ({ s with props := some all }, some "TypeError")

/-- The loop of `addCands`, `/repo/skmine/periodic/candidate_pool.py:166-176`: with `costOne`, `c.getCost()` is evaluated before `c` is compared to `None`. -/
def addLoop (o : CandOps C M K R) (key : R → κ) (n : N) (costOne : Bool) : Pool C M K N R → List R → List C → Pool C M K N R × Option String
  | s, rows, [] => finish key s rows
  | s, rows, c :: cs =>
    match addCandQuiet o s c n with
    | (s, false) => if costOne then (s, some "AttributeError") else addLoop o key n costOne s rows cs
    | (s', true) => addLoop o key n costOne s' (rows ++ o.rows c s.nextCid (s'.nkeys.idxOf n) costOne) cs

/-- `addCands`, `/repo/skmine/periodic/candidate_pool.py:154-190`. -/
def addCands (o : CandOps C M K R) (key : R → κ) (s : Pool C M K N R) (cs : List C) (n : N) (costOne : Bool) : Pool C M K N R × Option String :=
  addLoop o key n costOne (recordKey s n) [] cs

/-- The calls made by the miner (`/repo/skmine/periodic/run_mine.py:865,914-916`), and quiet additions. -/
inductive Op (C N : Type*)
  | cands (cs : List C) (n : N) (costOne : Bool)
  | quiet (c : C) (n : N)
  | reset

/-- One call; exceptions are swallowed by the caller. -/
def step (o : CandOps C M K R) (key : R → κ) (s : Pool C M K N R) : Op C N → Pool C M K N R
  | .cands cs n b => (addCands o key s cs n b).1
  | .quiet c n => (addCandQuiet o s c n).1
  | .reset => resetNew s

/-- The pool after a history. -/
def run (o : CandOps C M K R) (key : R → κ) (h : List (Op C N)) : Pool C M K N R := h.foldl (step o key) empty

/-! ### `getPidsSlice` -/

/-- `numpy.where(values > max_v)[0][0]`: the first index whose value exceeds the bound. -/
def firstAbove (vals : List κ) (maxV : κ) : Option ℕ := vals.findIdx? (fun v => maxV < v)

/-- `pids[::slice_size]`. -/
def every (s : ℕ) (l : List κ) : List κ := (List.range ((l.length + s - 1) / s)).filterMap (fun j => l[j * s]?)

/-- `getPidsSlice`, `/repo/skmine/periodic/run_mine.py:463-486`, on the values `patterns_props[pids, col]`: how many ids are kept.
`none` stands for an exception (`IndexError`). -/
def pidsSlice (vals : List κ) (s : ℕ) (maxV : κ) : Option ℕ :=
  match vals.getLast?, vals.head? with
  | some last, some first =>
    if last ≤ maxV then some vals.length
    else if maxV < first then some 0
    else
      match firstAbove (every s vals ++ [last]) maxV with
      | none => none
      | some ii =>
        match firstAbove ((vals.take (ii * s + 1)).drop ((ii - 1) * s)) maxV with
        | none => none
        | some j => some ((ii - 1) * s + j)
  | _, _ => none

end Verif.CandPool
