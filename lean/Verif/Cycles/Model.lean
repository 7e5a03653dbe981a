import Mathlib.Data.List.Sort
import Mathlib.Data.List.Dedup
import Mathlib.Algebra.Order.Group.Defs
import Mathlib.Data.Int.Notation
import Mathlib.Algebra.Order.Ring.Int

/-!
# Extraction of cycles by dynamic programming (C39, C58)

Source: `/repo/skmine/periodic/extract_cycles.py`.

Costs live in an arbitrary linearly ordered commutative group: the code uses floats, so rounding of sums is not modelled. `cyc ia iz` is the cost of the cycle
made of the occurrences at positions `ia..iz` (`computeLengthCycle`) and `res` the cost of one residual (`computeLengthResidual`); both are arbitrary.
The dictionaries `scores` and `spoints`, which always have the same keys, are one table `(ia, iz) ↦ (score, split point)`; reading an absent score is a
`KeyError`, modelled by `none`.
-/

set_option autoImplicit false

namespace Verif.Cycles

variable {C : Type*} [AddCommGroup C] [LinearOrder C]

/-- A split point: `None`, `-1` or a position. -/
inductive Split
  | whole
  | residual
  | at (im : ℕ)
  deriving DecidableEq

/-- `scores` and `spoints`. -/
abbrev Table (C : Type*) := ℕ → ℕ → Option (C × Split)

/-- `scores[(ia, iz)] = v; spoints[(ia, iz)] = s`. -/
def Table.set (t : Table C) (ia iz : ℕ) (v : C × Split) : Table C := fun a z => if a = ia ∧ z = iz then some v else t a z

/-- Segments of three occurrences, `/repo/skmine/periodic/extract_cycles.py:48-58`. -/
def triple (cyc : ℕ → ℕ → C) (res : C) (t : Table C) (ia : ℕ) : Table C :=
  let iz := ia + 2
  let best := cyc ia iz
  if best < 3 • res then t.set ia iz (best, .whole) else t.set ia iz (3 • res, .residual)

/-- One iteration of the search of a split point, `/repo/skmine/periodic/extract_cycles.py:69-81`. -/
def splitStep (res : C) (t : Table C) (ia iz : ℕ) (best : C × Split) (im : ℕ) : Option (C × Split) :=
  let left := if im - ia + 1 ≤ 2 then some ((im - ia + 1) • res) else (t ia im).map Prod.fst
  let right := if iz - im ≤ 2 then some ((iz - im) • res) else (t (im + 1) iz).map Prod.fst
  match left, right with
  | some l, some r => if l + r < best.1 then some (l + r, .at im) else some best
  | _, _ => none

/-- One cell, `/repo/skmine/periodic/extract_cycles.py:62-84`. -/
def cell (cyc : ℕ → ℕ → C) (res : C) (t : Table C) (ia iz : ℕ) : Option (Table C) :=
  ((List.range' ia (iz - ia)).foldlM (splitStep res t ia iz) (cyc ia iz, .whole)).map (fun b => t.set ia iz b)

/-- `compute_table_dyn`, `/repo/skmine/periodic/extract_cycles.py:41-85`. -/
def computeTable (cyc : ℕ → ℕ → C) (res : C) (n : ℕ) : Option (Table C) :=
  (List.range' 3 (n - 3)).foldlM (fun t k => (List.range (n - k)).foldlM (fun t ia => cell cyc res t ia (ia + k)) t)
    ((List.range (n - 2)).foldl (triple cyc res) (fun _ _ => none))

/-- `recover_splits_rec`, `/repo/skmine/periodic/extract_cycles.py:10-37`. Recursion depth is bounded by a fuel, `none` when it runs out. -/
def recover (t : Table C) (singletons : Bool) : ℕ → ℕ → ℕ → Option (List (ℕ × ℕ))
  | 0, _, _ => none
  | f + 1, ia, iz =>
    match t ia iz with
    | some (_, .whole) => some [(ia, iz)]
    | some (_, .at im) =>
      match recover t singletons f ia im, recover t singletons f (im + 1) iz with
      | some l, some r => some (l ++ r)
      | _, _ => none
    | _ => some (if singletons then (List.range' ia (iz + 1 - ia)).map (fun i => (i, i)) else [])

/-! ### Blocks and cycles -/

/-- The loop of `combine_splits`, `/repo/skmine/periodic/extract_cycles.py:109-130`: `pre` is `splits[:prev_i]`, `rest` is `splits[prev_i:]`. -/
def combineLoop : List (ℕ × ℕ) → List (ℕ × ℕ) → List (ℕ × ℕ) → List (ℕ × ℕ)
  | pre, _, [] => pre
  | pre, [], a :: adj => pre ++ a :: adj
  | pre, s :: rest, a :: adj =>
    if s.2 < a.1 then combineLoop (pre ++ [s]) rest (a :: adj)
    else if a.1 ≤ s.1 then pre ++ a :: adj
    else if a.2 ≤ s.2 then combineLoop pre (s :: rest) adj
    else pre ++ (s.1, a.2) :: adj
termination_by _ rest adj => rest.length + adj.length

/-- `combine_splits`, `/repo/skmine/periodic/extract_cycles.py:88-131`. -/
def combineSplits (splits adj : List (ℕ × ℕ)) : List (ℕ × ℕ) :=
  if 0 < adj.length then (if splits.length = 0 then adj else combineLoop [] splits adj) else splits

/-- The occurrences at positions `ia..iz`. -/
def segment (occs : List ℤ) (s : ℕ × ℕ) : List ℤ := (occs.drop s.1).take (s.2 + 1 - s.1)

/-- The table and the splits of one list of occurrences, `/repo/skmine/periodic/extract_cycles.py:159-161` and `170-171`. -/
def blockSplits (cyc : List ℤ → C) (res : C) (occs : List ℤ) : Option (List (ℕ × ℕ)) :=
  (computeTable (fun ia iz => cyc (segment occs (ia, iz))) res occs.length).bind
    (fun t => recover t false (occs.length + 1) 0 (occs.length - 1))

/-- The loop over overlapping blocks, `/repo/skmine/periodic/extract_cycles.py:152-168`, with block size 100 and step 80. -/
def blockLoop (cyc : List ℤ → C) (res : C) (occs : List ℤ) : ℕ → ℕ → List (ℕ × ℕ) → Option (List (ℕ × ℕ))
  | 0, _, _ => none
  | f + 1, pstart, splits =>
    if 2 * pstart + 100 < 2 * occs.length then
      match blockSplits cyc res ((occs.drop pstart).take 100) with
      | none => none
      | some b => blockLoop cyc res occs f (pstart + 80) (combineSplits splits (b.map (fun s => (s.1 + pstart, s.2 + pstart))))
    else some splits

/-- The splits used by `compute_cycles_dyn`, `/repo/skmine/periodic/extract_cycles.py:149-172`. -/
def dynSplits (cyc : List ℤ → C) (res : C) (occs : List ℤ) : Option (List (ℕ × ℕ)) :=
  if 200 < occs.length then blockLoop cyc res occs (occs.length + 1) 0 [] else blockSplits cyc res occs

/-- `compute_cycles_dyn`, `/repo/skmine/periodic/extract_cycles.py:134-194`: the occurrences of the cycles and of the residual (period and cost of the cycles are
not represented). -/
def computeCycles (cyc : List ℤ → C) (res : C) (occs : List ℤ) : Option (List (List ℤ) × List ℤ) :=
  (dynSplits cyc res occs).map (fun splits =>
    let cycles := ((splits.filter (fun s => s.1 + 1 < s.2)).map (segment occs)).insertionSort (fun a b => a.headD 0 ≤ b.headD 0)
    (cycles, (occs.dedup.filter (fun o => o ∉ cycles.flatten)).insertionSort (· ≤ ·)))

end Verif.Cycles
