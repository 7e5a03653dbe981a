import Verif.Border.Model
import Verif.MinSupp.FloatModel

/-!
# MBD-LLBorder with thresholds computed in floating point (C132)

Source: `/repo/skmine/emerging/mbdldorber.py:156-191`, `/repo/skmine/itemsets/lcm.py:121-122`.
-/

set_option autoImplicit false

namespace Verif.Border

open Verif.MinSupp (dbl)

variable {α : Type*} [LinearOrder α]

/-- `MBDLLBorder.fit`, `/repo/skmine/emerging/mbdldorber.py:156-191`, see `fit`. `minSupp` and `growth` are doubles (or `growth` an integer below `2 ^ 53`); the raised support `min_growth_rate * min_supp` (line 184) is rounded, and both products with the number of
transactions in `LCM.fit`. The constructor accepts no negative `minSupp` and no `growth` below 1, so no product is negative. -/
def fitFloat (ord : Finset α → List α) (minSupp growth : ℚ) (D1 D2 : List (List α)) : Except Err (List (List (Finset α) × Finset α)) :=
  if 1 < dbl (growth * minSupp) then .error .valueError
  else
    let rb1 := (LCM.lcmMax (dbl (minSupp * D1.length)) (-1) true ord D1).map (fun r => r.itemset.toFinset)
    let rb2 := (LCM.lcmMax (dbl (dbl (growth * minSupp) * D2.length)) (-1) true ord D2).map (fun r => r.itemset.toFinset)
    mbdllborder ord rb1 rb2

end Verif.Border
