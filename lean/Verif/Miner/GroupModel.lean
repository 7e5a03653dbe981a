import Verif.Miner.Model

/-!
# The groups that `fit` passes to the miner (C144)

Source: `/repo/skmine/periodic/cycles.py:121-156`.
-/

set_option autoImplicit false

namespace Verif.Miner

open Verif.DataSeq Verif.TimeScale

variable {ε : Type} [LinearOrder ε]

/-- `dict(serie.groupby(serie.values).groups)`, `/repo/skmine/periodic/cycles.py:154-156`: the times of each event in the order of the rows, the events in increasing order (pandas sorts the keys of groups). -/
def sortedGroups (rows : List (ℤ × ε)) : List (ε × List ℤ) := (group rows).insertionSort (fun a b => a.1 ≤ b.1)

/-- `PeriodicPatternMiner.fit` up to the mining, `/repo/skmine/periodic/cycles.py:121-156`, as `fitData`, with the dictionary in the order of pandas. -/
def fitGroups (auto : Bool) (rows : List (ℤ × ε)) : Except String (Fitted ε) :=
  let s := dedupRows rows
  if auto then
    let a := autoscale (s.map Prod.fst)
    (ofDict (sortedGroups (a.1.zip (s.map Prod.snd)))).map (fun d => ⟨d, a.2.1, a.2.2.1⟩)
  else (ofDict (sortedGroups s)).map (fun d => ⟨d, 0, 1⟩)

end Verif.Miner
