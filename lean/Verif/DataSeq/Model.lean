import Mathlib.Data.List.Sort
import Mathlib.Data.Rat.Defs
import Mathlib.Data.Int.Notation
import Mathlib.Algebra.Order.Ring.Int
import Mathlib.Data.Prod.Lex

/-!
# Data sequences (C51, C55)

Source: `/repo/skmine/periodic/data_sequence.py` and `/repo/skmine/periodic/class_patterns.py:288-325`.

Timestamps are integers; events belong to a linear order (`sorted` on the event names). Dictionaries are association
lists in insertion order. Frequencies are exact rationals (the code uses floats), and the log of the block delimiter is not modelled.
-/

set_option autoImplicit false

namespace Verif.DataSeq

variable {α : Type*} [LinearOrder α]

/-- `seq_tmp[ev].append(t)` after creating the entry when missing, `/repo/skmine/periodic/data_sequence.py:55-57`. -/
def addTime : List (α × List ℤ) → ℤ → α → List (α × List ℤ)
  | [], t, e => [(e, [t])]
  | (e', ts) :: rest, t, e => if e' = e then (e', ts ++ [t]) :: rest else (e', ts) :: addTime rest t e

/-- Grouping of a list of `(t, ev)` by event, `/repo/skmine/periodic/data_sequence.py:52-57`. -/
def group (seq : List (ℤ × α)) : List (α × List ℤ) := seq.foldl (fun tmp x => addTime tmp x.1 x.2) []

/-- The fields of a data sequence, `/repo/skmine/periodic/data_sequence.py:44-82`. -/
structure Built (α : Type*) where
  listEv : List α
  mapEvNum : List (α × ℕ)
  seqd : List (ℕ × List ℤ)
  seql : List (ℤ × ℕ)
  evNbOccs : List (ℕ × ℕ)
  evStarts : List (ℕ × ℤ)
  evEnds : List (ℕ × ℤ)
  tStart : ℤ
  tEnd : ℤ
  deltaT : ℤ

/-- `np.min`: raises on an empty list. -/
def npMin : List ℤ → Except String ℤ
  | [] => .error "zero-size array"
  | t :: ts => .ok (ts.foldl min t)

/-- `np.max`: raises on an empty list. -/
def npMax : List ℤ → Except String ℤ
  | [] => .error "zero-size array"
  | t :: ts => .ok (ts.foldl max t)

/-- Python's order on pairs `(t, ev)`. -/
def pairLe (a b : ℤ × ℕ) : Prop := a.1 < b.1 ∨ (a.1 = b.1 ∧ a.2 ≤ b.2)

instance : DecidableRel pairLe := fun a b => by unfold pairLe; infer_instance

/-- The translation of events to numbers, `/repo/skmine/periodic/data_sequence.py:60-66`, given the grouped dictionary: the sorted events, the
numbering, the dictionary and the sorted list. A missing event in `map_ev_num` would be a `KeyError`. -/
def translate (tmp : List (α × List ℤ)) : Except String (List α × List (α × ℕ) × List (ℕ × List ℤ) × List (ℤ × ℕ)) :=
  let listEv := (tmp.map Prod.fst).insertionSort (· ≤ ·)
  let mapEvNum := listEv.zipIdx
  match tmp.mapM (fun q => (mapEvNum.lookup q.1).map (fun k => (k, q.2))) with
  | none => .error "KeyError"
  | some seqd =>
    let seql := (seqd.flatMap (fun e => e.2.map (fun t => (t, e.1)))).insertionSort pairLe
    .ok (listEv, mapEvNum, seqd, seql)

/-- `DataSequence.__init__` from the grouped dictionary, `/repo/skmine/periodic/data_sequence.py:59-82`. -/
def ofDict (tmp : List (α × List ℤ)) : Except String (Built α) :=
  match translate tmp with
  | .error e => .error e
  | .ok (listEv, mapEvNum, seqd, seql) =>
    match seqd.mapM (fun e => (npMin e.2).map (fun m => (e.1, m))), seqd.mapM (fun e => (npMax e.2).map (fun m => (e.1, m))) with
    | .ok starts, .ok ends =>
      let nb := seqd.map (fun e => (e.1, e.2.length))
      if 0 < (nb.map Prod.snd).sum then
        match npMax (ends.map Prod.snd), npMin (starts.map Prod.snd) with
        | .ok te, .ok ts => .ok ⟨listEv, mapEvNum, seqd, seql, nb, starts, ends, ts, te, te - ts⟩
        | .error e, _ => .error e
        | _, .error e => .error e
      else .ok ⟨listEv, mapEvNum, seqd, seql, nb, starts, ends, 0, 0, 0⟩
    | .error e, _ => .error e
    | _, .error e => .error e

/-- `DataSequence.__init__` on a list, `/repo/skmine/periodic/data_sequence.py:44-82`. -/
def ofList (seq : List (ℤ × α)) : Except String (Built α) := ofDict (group seq)

/-- `DataSequence.getNumToEv`, `/repo/skmine/periodic/data_sequence.py:111-112`, as a lookup. -/
def numToEv (d : Built α) (k : ℕ) : Option α := (d.listEv.zipIdx.map Prod.swap).lookup k

/-- `DataSequence.getSequence(ev)`, `/repo/skmine/periodic/data_sequence.py:114-118`. -/
def getSequence (d : Built α) (k : ℕ) : List ℤ := (d.seqd.lookup k).getD []

/-- `orgFreqs`, `/repo/skmine/periodic/class_patterns.py:260-325` with `OPT_EVFR` set. -/
def orgFreqs (nb : List (ℕ × ℕ)) : List (ℕ × ℚ) :=
  let total : ℚ := ((nb.map Prod.snd).sum : ℕ)
  nb.map (fun e => (e.1, (e.2 : ℚ) / total))

/-- `adjFreqs`, `/repo/skmine/periodic/class_patterns.py:260-325` with `OPT_EVFR` set: the two block delimiters, then the events. -/
def adjFreqs (nb : List (ℕ × ℕ)) : List (Option ℕ × ℚ) :=
  let total : ℚ := ((nb.map Prod.snd).sum : ℕ)
  (none, 1 / 3) :: (none, 1 / 3) :: nb.map (fun e => (some e.1, (e.2 : ℚ) / (3 * total)))

end Verif.DataSeq
