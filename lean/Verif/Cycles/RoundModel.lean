import Verif.Cycles.Model
import Verif.MinSupp.FloatModel

/-!
# Extraction of cycles by dynamic programming in floating point (C138)

Source: `/repo/skmine/periodic/extract_cycles.py:41-85`. `Model` takes sums of costs as exact; here they are those of the arithmetic of the code, given by `add` (`score_left + score_right`) and `times k` (`score_res * k`).
-/

set_option autoImplicit false

namespace Verif.Cycles

section

variable {C : Type*} [LinearOrder C]

/-- Segments of three occurrences, `/repo/skmine/periodic/extract_cycles.py:48-58`. -/
def tripleWith (times : ℕ → C) (cyc : ℕ → ℕ → C) (t : Table C) (ia : ℕ) : Table C :=
  let iz := ia + 2
  let best := cyc ia iz
  if best < times 3 then t.set ia iz (best, .whole) else t.set ia iz (times 3, .residual)

/-- One iteration of the search of a split point, `/repo/skmine/periodic/extract_cycles.py:69-81`. -/
def splitStepWith (add : C → C → C) (times : ℕ → C) (t : Table C) (ia iz : ℕ) (best : C × Split) (im : ℕ) : Option (C × Split) :=
  let left := if im - ia + 1 ≤ 2 then some (times (im - ia + 1)) else (t ia im).map Prod.fst
  let right := if iz - im ≤ 2 then some (times (iz - im)) else (t (im + 1) iz).map Prod.fst
  match left, right with
  | some l, some r => if add l r < best.1 then some (add l r, .at im) else some best
  | _, _ => none

/-- One cell, `/repo/skmine/periodic/extract_cycles.py:62-84`. -/
def cellWith (add : C → C → C) (times : ℕ → C) (cyc : ℕ → ℕ → C) (t : Table C) (ia iz : ℕ) : Option (Table C) :=
  ((List.range' ia (iz - ia)).foldlM (splitStepWith add times t ia iz) (cyc ia iz, .whole)).map (fun b => t.set ia iz b)

/-- `compute_table_dyn`, `/repo/skmine/periodic/extract_cycles.py:41-85`. -/
def tableWith (add : C → C → C) (times : ℕ → C) (cyc : ℕ → ℕ → C) (n : ℕ) : Option (Table C) :=
  (List.range' 3 (n - 3)).foldlM (fun t k => (List.range (n - k)).foldlM (fun t ia => cellWith add times cyc t ia (ia + k)) t)
    ((List.range (n - 2)).foldl (tripleWith times cyc) (fun _ _ => none))

end

/-- `compute_table_dyn` with costs that are doubles: sums and products are rounded to the nearest double. -/
def tableDbl (cyc : ℕ → ℕ → ℚ) (res : ℚ) (n : ℕ) : Option (Table ℚ) :=
  tableWith (fun a b => MinSupp.dbl (a + b)) (fun k => MinSupp.dbl (k * res)) cyc n

end Verif.Cycles
