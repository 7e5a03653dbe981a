import Verif.PTree.Model
import Verif.DataSeq.Model
import Verif.TimeScale.Model

/-!
# The periodic miner: fit, reconstruction and residuals (C36, C60)

Source: `/repo/skmine/periodic/cycles.py:97-427` and `/repo/skmine/periodic/pattern_collection.py:94-144`.

A series is a list of (time, event) with integer times. The patterns chosen by the miner are a parameter: a list of (tree, first time, corrections). Data frames are lists of (label, row). The order of rows
with equal sort keys and the iteration order of sets are unspecified, hence parameters. A `KeyError` or `IndexError` is `none`. Not modelled: the conversion of times to datetimes, and the conversion of integer times to floats
by the masking of line 414.
-/

set_option autoImplicit false

namespace Verif.Miner

open Verif.PTree Verif.DataSeq Verif.TimeScale

variable {ε : Type} [LinearOrder ε]

/-- Removal of the later copies of a row, given those already seen (`drop_duplicates`). -/
def keepFirst {β : Type} [DecidableEq β] : List β → List β → List β
  | _, [] => []
  | seen, a :: l => if a ∈ seen then keepFirst seen l else a :: keepFirst (a :: seen) l

/-- The removal of duplicated rows, `/repo/skmine/periodic/cycles.py:123-131`: when some time occurs twice, the rows are grouped by time and the copies are dropped in each group. -/
def dedupRows (rows : List (ℤ × ε)) : List (ℤ × ε) :=
  if (rows.map Prod.fst).Nodup then rows
  else ((keepFirst [] (rows.map Prod.fst)).insertionSort (· ≤ ·)).flatMap (fun t => keepFirst [] (rows.filter (fun x => x.1 = t)))

/-- What `fit` stores besides the patterns: the data sequence, the number of zeros and the divisor. -/
structure Fitted (ε : Type) where
  data : Built ε
  nZeros : ℕ
  divNbSec : ℕ

/-- `PeriodicPatternMiner.fit` up to the mining, `/repo/skmine/periodic/cycles.py:121-156`, with or without automatic time scale. The dictionary of groups is built by first appearance (pandas sorts its keys; the data sequence
does not depend on their order but for the order of its dictionary). Without time scale `n_zeros_` is not set by the code, and never read by the functions below. -/
def fitData (auto : Bool) (rows : List (ℤ × ε)) : Except String (Fitted ε) :=
  let s := dedupRows rows
  if auto then
    let a := autoscale (s.map Prod.fst)
    (ofList (a.1.zip (s.map Prod.snd))).map (fun d => ⟨d, a.2.1, a.2.2.1⟩)
  else (ofList s).map (fun d => ⟨d, 0, 1⟩)

/-- A pattern with its first time and corrections. -/
abbrev Patt := PTree.Tree ℕ × ℤ × List ℤ

/-- `PatternCollection.getOccLists`, `/repo/skmine/periodic/pattern_collection.py:130-144`. -/
def occLists (ps : List Patt) : Option (List (List (ℤ × ℕ))) := ps.mapM (fun q => getCovSeq q.1 q.2.1 q.2.2)

/-- `PatternCollection.getUncoveredOccs`, `/repo/skmine/periodic/pattern_collection.py:94-108`. -/
def uncovered (seql : List (ℤ × ℕ)) (ps : List Patt) : Option (Finset (ℤ × ℕ)) :=
  (occLists ps).map (fun ls => ls.foldl (fun s l => s \ l.toFinset) seql.toFinset)

/-- One row: the restored time and the name of the event. -/
def decode (m : Fitted ε) (x : ℤ × ℕ) : Option (ℤ × ε) := (numToEv m.data x.2).map (fun e => (restore m.nZeros m.divNbSec x.1, e))

/-- The rows of one pattern, `/repo/skmine/periodic/cycles.py:335-347`. -/
def patternRows (m : Fitted ε) (q : Patt) : Option (List (ℤ × ε)) :=
  let oStar := occsStar q.1 [] 0
  (getOccs q.1 oStar q.2.1 q.2.2).bind (fun occs => (occs.zip (oStar.map (fun o => o.2.1))).mapM (decode m))

/-- A data frame: labelled rows. -/
abbrev Frame (ε : Type) := List (ℕ × ℤ × ε)

/-- `drop_duplicates` on the rows of a frame, keeping the labels. -/
def dropDup : List (ℤ × ε) → Frame ε → Frame ε
  | _, [] => []
  | seen, a :: l => if a.2 ∈ seen then dropDup seen l else a :: dropDup (a.2 :: seen) l

/-- `reconstruct(ids)`, `/repo/skmine/periodic/cycles.py:294-365`, sorted by `srt` with duplicates removed. An empty list of rows gives a frame without columns: `KeyError` at lines 352-354. -/
def reconstruct (srt : Frame ε → Frame ε) (m : Fitted ε) (ps : List Patt) (ids : List ℕ) : Option (Frame ε) :=
  (ids.mapM (fun i => (ps[i]?).bind (patternRows m))).bind (fun rs =>
    if rs.flatten = [] then none else some (dropDup [] (srt (rs.flatten.zipIdx.map Prod.swap))))

/-- The cells of a row kept by `reconstruct_all[~reconstruct_all.isin(reconstruct_)].dropna()`, `/repo/skmine/periodic/cycles.py:414`: the row with the same label, if any, must differ in both columns. -/
def keptBy (other : Frame ε) (a : ℕ × ℤ × ε) : Bool :=
  match other.lookup a.1 with
  | none => true
  | some (t, e) => decide (a.2.1 ≠ t) && decide (a.2.2 ≠ e)

/-- `get_residuals`, `/repo/skmine/periodic/cycles.py:367-427`, before the last sort: `ids` is `range(len(patterns))` without argument. An empty list of residuals gives `KeyError` at lines 408-410. -/
def getResiduals (enum : Finset (ℤ × ℕ) → List (ℤ × ℕ)) (srt : Frame ε → Frame ε) (m : Fitted ε) (ps : List Patt) (ids : List ℕ) : Option (List (ℤ × ε)) :=
  (uncovered m.data.seql ps).bind (fun u => ((enum u).mapM (decode m)).bind (fun rows =>
    if rows = [] then none
    else
      (reconstruct srt m ps ids).bind (fun rec => (reconstruct srt m ps (List.range ps.length)).map (fun all =>
        rows ++ (all.filter (keptBy rec)).map Prod.snd))))

/-- `get_residuals()` without argument. -/
def residuals (enum : Finset (ℤ × ℕ) → List (ℤ × ℕ)) (srt : Frame ε → Frame ε) (m : Fitted ε) (ps : List Patt) : Option (List (ℤ × ε)) :=
  getResiduals enum srt m ps (List.range ps.length)

/-- `reconstruct()` without argument: the rows. -/
def reconstructed (srt : Frame ε → Frame ε) (m : Fitted ε) (ps : List Patt) : Option (List (ℤ × ε)) :=
  (reconstruct srt m ps (List.range ps.length)).map (fun f => f.map Prod.snd)

/-! ### Simple cycles -/

/-- `computeE`, `/repo/skmine/periodic/class_patterns.py:70-90`, unsorted. -/
def computeE : List ℤ → ℤ → List ℤ
  | a :: b :: l, p => (b - a - p) :: computeE (b :: l) p
  | _, _ => []

/-- `Candidate.preparePatternSimple` and `getPattT0E`, `/repo/skmine/periodic/candidate.py:66-80`, of a cycle with its event, occurrences and period. -/
def simplePatt (ev : ℕ) (O : List ℤ) (p : ℤ) : Option Patt :=
  O.head?.map (fun t0 => (.node O.length p (.cons 0 (.leaf ev) .nil), t0, computeE O p))

end Verif.Miner
