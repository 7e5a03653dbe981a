import Mathlib.Analysis.SpecialFunctions.Log.Base

/-!
# The prequential code of GraphMDL: model

Source: `/repo/skmine/graph/graphmdl/utils.py:13-47`. Floats are real numbers.
-/

set_option autoImplicit false

namespace Verif.Graph

/-- `log2`, `utils.py:13-24`: minus the logarithm of `value / total`. -/
noncomputable def log2 (value total : ℝ) : Except String ℝ :=
  if total = 0 then .error "ZeroDivisionError" else if value / total ≤ 0 then .error "ValueError" else .ok (-Real.logb 2 (value / total))

/-- The inner loop of `prequential_code`, `utils.py:40-43`, with the number of turns left; returns `code` and `total_epsilon`. -/
noncomputable def preqRun : ℕ → ℝ → ℝ → ℝ → Except String (ℝ × ℝ)
  | 0, code, _, total => .ok (code, total)
  | n + 1, code, eps, total => (log2 eps total).bind (fun l => preqRun n (code + l) (eps + 1) (total + 1))

/-- The outer loop, `utils.py:39-45`: `eps` starts again for every value. -/
noncomputable def preqSeq (eps : ℝ) : List ℕ → ℝ → ℝ → Except String ℝ
  | [], code, _ => .ok code
  | v :: t, code, total => (preqRun v code eps total).bind (fun x => preqSeq eps t x.1 x.2)

/-- `prequential_code`, `utils.py:27-47`. The values are natural numbers, as everywhere in the package. -/
noncomputable def prequential (seq : List ℕ) (eps : ℝ) : Except String ℝ := preqSeq eps seq 0 (seq.length * eps)

end Verif.Graph
