import Verif.DataSeq.Model

/-!
# The description of a data sequence (C164)

Source: `/repo/skmine/periodic/data_sequence.py:84-106`, with the counts of `/repo/skmine/periodic/class_patterns.py:308-323`.

The text is represented by the figures printed in it, line by line: the layout and the rounding of the frequencies to three digits are not modelled.
-/

set_option autoImplicit false

namespace Verif.DataSeq

variable {α : Type*} [LinearOrder α]

/-- The figures of the line of one event, `/repo/skmine/periodic/data_sequence.py:102-104`. -/
structure InfoLine (α : Type*) where
  name : α
  number : ℕ
  occs : ℕ
  freq : ℚ
  span : ℤ
  deriving DecidableEq

/-- The text of `getInfoStr`: the message for an empty sequence (line 96), or the figures of the first line (lines 98-101) and the lines of the
events. -/
inductive Info (α : Type*) where
  | empty
  | data (events occs : ℕ) (deltaT tStart tEnd : ℤ) (lines : List (InfoLine α))
  deriving DecidableEq

/-- The line of event number `k`, `/repo/skmine/periodic/data_sequence.py:102-104`; a missing number is a `KeyError` or an `IndexError`. -/
def infoLine (d : Built α) (k : ℕ) : Option (InfoLine α) :=
  match d.listEv[k]?, d.evNbOccs.lookup k, (orgFreqs d.evNbOccs).lookup k, d.evEnds.lookup k, d.evStarts.lookup k with
  | some e, some n, some f, some b, some a => some ⟨e, k, n, f, b - a⟩
  | _, _, _, _, _ => none

/-- The numbers of the events in the order of the lines, `/repo/skmine/periodic/data_sequence.py:105`: `sorted` is stable. A number without count
is a `KeyError`, which `infoLine` reports. -/
def infoOrder (d : Built α) : List ℕ :=
  (List.range d.listEv.length).insertionSort (fun x y => (d.evNbOccs.lookup x).getD 0 ≤ (d.evNbOccs.lookup y).getD 0)

/-- `DataSequence.getInfoStr`, `/repo/skmine/periodic/data_sequence.py:84-106`. `nbOccs[-1]` is the sum of the counts, and `len(nbOccs) - 1` the number
of the other keys. -/
def infoStr (d : Built α) : Except String (Info α) :=
  let total := (d.evNbOccs.map Prod.snd).sum
  if total = 0 then .ok .empty
  else match (infoOrder d).mapM (infoLine d) with
    | none => .error "KeyError"
    | some lines => .ok (.data d.evNbOccs.length total d.deltaT d.tStart d.tEnd lines)

end Verif.DataSeq
