import Mathlib.Analysis.SpecialFunctions.Log.Base
import Mathlib.Data.List.Count

/-!
# The adaptive code of a sequence: specification
-/

set_option autoImplicit false

namespace Verif.Graph

/-- The length of the code of a sequence over the symbols `A`, read from left to right: a symbol met `c` times among the `n` symbols already read has probability `(c + eps) / (n + eps * |A|)`. -/
noncomputable def plugIn {α : Type} [DecidableEq α] (A : List α) (eps : ℝ) : List α → List α → ℝ
  | _, [] => 0
  | seen, a :: t => -Real.logb 2 ((seen.count a + eps) / (seen.length + A.length * eps)) + plugIn A eps (seen ++ [a]) t

end Verif.Graph
