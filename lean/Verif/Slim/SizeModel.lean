import Verif.Slim.Model
import Mathlib.Analysis.SpecialFunctions.Log.Base

/-!
# Exact sizes of SLIM: model (C98, C99)

Source: `/repo/skmine/itemsets/slim.py:42-61, 277-372, 614-732`. Floating point numbers (32 bit logarithms) are exact reals. `usages.sum()` is positive wherever these functions are called on data with an item.
-/

set_option autoImplicit false

namespace Verif.Slim

variable {α κ : Type*} [LinearOrder α] [LinearOrder κ]

/-- `_log2`, `/repo/skmine/itemsets/slim.py:42-61`: 0 for 0. -/
noncomputable def log2z (x : ℝ) : ℝ := if x = 0 then 0 else Real.logb 2 x

/-- `-_log2(usages / usages.sum())`, `/repo/skmine/itemsets/slim.py:665, 724`. -/
noncomputable def codesOf (usages : List ℕ) : List ℝ := usages.map (fun u : ℕ => -log2z ((u : ℝ) / (usages.sum : ℕ)))

/-- `_starting_codes[item]`, `/repo/skmine/itemsets/slim.py:665-666`, for the vertical representation `sct`. -/
noncomputable def startCode (sct : Sct α) (a : α) : ℝ := -log2z (((lookup sct a).card : ℝ) / ((sct.map (fun e => e.2.card)).sum : ℕ))

/-- The two sizes set by `prefit`, `/repo/skmine/itemsets/slim.py:665-701`: (data size, model size). -/
noncomputable def initSizes (sct : Sct α) : ℝ × ℝ :=
  let usages := sct.map (fun e => e.2.card)
  let codes := codesOf usages
  ((List.zipWith (fun (c : ℝ) (u : ℕ) => c * (u : ℝ)) codes usages).sum, 2 * codes.sum)

/-- `_compute_sizes`, `/repo/skmine/itemsets/slim.py:722-732`, on the used itemsets: (data size, model size). `st` is `_starting_codes`. -/
noncomputable def sizesOf (st : α → ℝ) (tab : Table α) : ℝ × ℝ :=
  let usages := tab.map (fun e => e.2.card)
  let codes := codesOf usages
  let all := tab.flatMap (fun e => sortSet e.1)
  let standCodesSum := (all.dedup.map (fun i => st i * (all.count i : ℕ))).sum
  ((List.zipWith (fun (c : ℝ) (u : ℕ) => c * (u : ℝ)) codes usages).sum, standCodesSum + codes.sum)

/-- The parameters of the model with the exact sizes. `_starting_codes` is set by `prefit` from the data `D` and does not change later. -/
noncomputable def exactP (key : Finset α → κ) (pruning : Bool) (D : List (List α)) : Params α κ ℝ where
  key := key
  total := fun tab => (sizesOf (startCode (toVertical ∅ D)) tab).1 + (sizesOf (startCode (toVertical ∅ D)) tab).2
  initTotal := fun sct => (initSizes sct).1 + (initSizes sct).2
  pruning := pruning

/-- The estimated gain of `generate_candidates`, `/repo/skmine/itemsets/slim.py:309-367`, for two used itemsets `x`, `y` of the table `tab` that are used together. `st` is `_starting_codes`. The branches for `old_usage == 0` are never taken. -/
noncomputable def gainOf (st : α → ℝ) (tab : Table α) (x y : Finset α × Finset ℕ) : ℝ :=
  let oldX := x.2.card
  let oldY := y.2.card
  let newXY := (y.2 ∩ x.2).card
  let newX := oldX - newXY
  let newY := oldY - newXY
  let oldSum := (tab.map (fun e => e.2.card)).sum
  let newSum := oldSum - newXY
  let oldNum : ℤ := tab.countP (fun e => decide (0 < e.2.card))
  let newNum : ℤ := oldNum + 1 - (if newX = 0 then 1 else 0) - (if newY = 0 then 1 else 0)
  let gainDb := -1 * (-(newXY : ℝ) * log2z newXY - newX * log2z newX + oldX * log2z oldX - newY * log2z newY + oldY * log2z oldY
    + newSum * log2z newSum - oldSum * log2z oldSum)
  let codeY := ((sortSet y.1).map st).sum
  let codeX := ((sortSet x.1).map st).sum
  let g0 := -log2z newXY
  let g1 := if newX ≠ oldX then (if newX ≠ 0 then g0 - log2z newX + log2z oldX else g0 - codeX + log2z oldX) else g0
  let g2 := if newY ≠ oldY then (if newY ≠ 0 then g1 - log2z newY + log2z oldY else g1 + codeY - log2z oldY) else g1
  let gainCt := g2 + newNum * log2z newSum - oldNum * log2z oldSum
  gainDb - gainCt - min codeX codeY

end Verif.Slim
