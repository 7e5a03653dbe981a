import Verif.MinSupp.Model
import Mathlib.Tactic.NormNum

/-!
# C06: validation of the minimum support
-/

set_option autoImplicit false

namespace Verif.MinSupp

/-- C06. An integer minimum support is accepted iff absolute supports are allowed and it is at least 1; otherwise
`ValueError` is raised. -/
theorem checkMinSupp_int (z : ℤ) (a : Bool) :
    checkMinSupp (.int z) a = if a = true ∧ 1 ≤ z then .ok () else .error .valueError := by
  unfold checkMinSupp
  cases a
  · simp
  · by_cases h : z < 1
    · simp [h]
    · simp [h, not_lt.1 h]

/-- C06. A finite float is accepted iff it lies between 0 and 1 inclusive, whatever the setting; otherwise `ValueError`
is raised. -/
theorem checkMinSupp_float (q : ℚ) (a : Bool) :
    checkMinSupp (.float (.fin q)) a = if 0 ≤ q ∧ q ≤ 1 then .ok () else .error .valueError := by
  unfold checkMinSupp
  by_cases h0 : q < 0
  · simp [PyFloat.ltQ, PyFloat.gtQ, h0, not_le.2 h0]
  · by_cases h1 : 1 < q
    · simp [PyFloat.ltQ, PyFloat.gtQ, h1, not_le.2 h1]
    · simp [PyFloat.ltQ, PyFloat.gtQ, h0, h1, not_lt.1 h0, not_lt.1 h1]

/-- C06. Infinite floats are rejected. -/
theorem checkMinSupp_inf (a : Bool) :
    checkMinSupp (.float .posInf) a = .error .valueError ∧ checkMinSupp (.float .negInf) a = .error .valueError :=
  ⟨rfl, rfl⟩

/-- C06. Any other type is rejected with `TypeError`. -/
theorem checkMinSupp_other (a : Bool) : checkMinSupp .other a = .error .typeError := rfl

/-- C06, violation: `nan` does not lie between 0 and 1 but is accepted, and LCM then runs with the threshold `nan`. -/
theorem checkMinSupp_nan_accepted (a : Bool) (rnd : ℚ → ℚ) (n : ℕ) :
    checkMinSupp (.float .nan) a = .ok () ∧ threshold rnd (.float .nan) n = .ok (.float .nan) := ⟨rfl, rfl⟩

/-- C06. The absolute threshold of LCM: an accepted integer unchanged, an accepted finite float multiplied by the number
of transactions (up to the rounding of the product), and rejected values never give a threshold. -/
theorem threshold_spec (rnd : ℚ → ℚ) (n : ℕ) :
    (∀ z : ℤ, 1 ≤ z → threshold rnd (.int z) n = .ok (.int z)) ∧
    (∀ q : ℚ, 0 ≤ q → q ≤ 1 → threshold rnd (.float (.fin q)) n = .ok (.float (.fin (rnd (q * n))))) ∧
    (∀ v e, checkMinSupp v = .error e → threshold rnd v n = .error e) := by
  refine ⟨?_, ?_, ?_⟩
  · intro z hz
    unfold threshold
    rw [checkMinSupp_int, if_pos ⟨rfl, hz⟩]
    rfl
  · intro q h0 h1
    unfold threshold
    rw [checkMinSupp_float, if_pos ⟨h0, h1⟩]
    rfl
  · intro v e h
    unfold threshold
    rw [h]
    rfl

/-- A growth rate is accepted, and returned unchanged, iff it is greater than 1. -/
theorem checkGrowthRate_spec (q : ℚ) (z : ℤ) :
    (checkGrowthRate (.float (.fin q)) = if 1 < q then .ok (.float (.fin q)) else .error .valueError) ∧
    (checkGrowthRate (.int z) = if 1 < z then .ok (.int z) else .error .valueError) := by
  constructor
  · by_cases h : 1 < q <;> simp [checkGrowthRate, PyFloat.gtQ, h]
  · by_cases h : 1 < z
    · simp [checkGrowthRate, h]
    · simp [checkGrowthRate, h]

example : checkMinSupp (.int 3) true = .ok () ∧ checkMinSupp (.int 3) false = .error .valueError ∧
    checkMinSupp (.float (.fin (1 / 5))) false = .ok () ∧ checkMinSupp (.float (.fin (6 / 5))) true = .error .valueError := by
  refine ⟨?_, ?_, ?_, ?_⟩
  · rw [checkMinSupp_int, if_pos (by decide)]
  · rw [checkMinSupp_int, if_neg (by decide)]
  · rw [checkMinSupp_float, if_pos (by norm_num)]
  · rw [checkMinSupp_float, if_neg (by norm_num)]

end Verif.MinSupp
