import Verif.Draw.FloatModel
import Verif.MinSupp.FloatProps

/-!
# Dates and durations computed in floating point (C129)
-/

set_option autoImplicit false
set_option linter.unusedSectionVars false

namespace Verif.Draw

open Verif.MinSupp Verif.Display

/-! ### Rounding -/

theorem log_of (x : ℚ) (e : ℤ) (h1 : (2 : ℚ) ^ e ≤ x) (h2 : x < 2 ^ (e + 1)) : Int.log 2 x = e := by
  have hx : 0 < x := lt_of_lt_of_le (zpow_pos (by norm_num) e) h1
  have a : e ≤ Int.log 2 x := by
    rw [← Int.zpow_le_iff_le_log (by norm_num) hx]
    push_cast
    exact h1
  have b : Int.log 2 x < e + 1 := by
    rw [← Int.lt_zpow_iff_log_lt (by norm_num) hx]
    push_cast
    exact h2
  omega

/-- The error is at most half of the spacing. -/
theorem dbl_error_ulp (x : ℚ) (hx : 0 < x) : |dbl x - x| ≤ ulp x / 2 := by
  have hu := ulp_pos x
  unfold dbl
  rw [if_pos hx]
  have h := halfEven_error (x / ulp x)
  have e : (halfEven (x / ulp x) : ℚ) * ulp x - x = ((halfEven (x / ulp x) : ℚ) - x / ulp x) * ulp x := by
    field_simp
  rw [e, abs_mul, abs_of_pos hu]
  have := mul_le_mul_of_nonneg_right h hu.le
  linarith

/-- The error below a power of two. -/
theorem dbl_error_lt (x : ℚ) (hx : 0 ≤ x) (e : ℕ) (h : x < 2 ^ (e + 1)) : |dbl x - x| ≤ 2 ^ e / 2 ^ 53 := by
  rcases eq_or_lt_of_le hx with rfl | hx
  · simp only [dbl, lt_self_iff_false, if_false, sub_self, abs_zero]
    positivity
  · refine (dbl_error_ulp x hx).trans ?_
    have hl : Int.log 2 x ≤ e := by
      have : Int.log 2 x < (e + 1 : ℕ) := by
        rw [← Int.lt_zpow_iff_log_lt (by norm_num) hx, zpow_natCast]
        exact_mod_cast h
      push_cast at this
      omega
    unfold ulp
    have h2 : (2 : ℚ) ^ (Int.log 2 x - 52) ≤ 2 ^ ((e : ℤ) - 52) := zpow_le_zpow_right₀ (by norm_num) (by omega)
    rw [zpow_sub₀ (by norm_num) (e : ℤ), zpow_natCast] at h2
    have e53 : (2 : ℚ) ^ e / 2 ^ 53 = 2 ^ e / 2 ^ (52 : ℤ) / 2 := by
      norm_num
      ring
    rw [e53]
    linarith

theorem dbl_half (x : ℚ) : dbl (x / 2) = dbl x / 2 := by
  by_cases hx : 0 < x
  · have hl : Int.log 2 (x / 2) = Int.log 2 x - 1 := by
      apply log_of
      · have := Int.zpow_log_le_self (b := 2) (by norm_num) hx
        push_cast at this
        rw [zpow_sub₀ (by norm_num), zpow_one]
        linarith
      · have := Int.lt_zpow_succ_log_self (b := 2) (by norm_num) x
        push_cast at this
        rw [zpow_add₀ (by norm_num), zpow_one] at this
        rw [sub_add_cancel]
        linarith
    have hu : ulp (x / 2) = ulp x / 2 := by
      unfold ulp
      rw [hl, show Int.log 2 x - 1 - 52 = (Int.log 2 x - 52) - 1 by ring, zpow_sub₀ (by norm_num) (Int.log 2 x - 52) 1, zpow_one]
    have hu0 := (ulp_pos x).ne'
    unfold dbl
    rw [if_pos hx, if_pos (by linarith), hu, show x / 2 / (ulp x / 2) = x / ulp x by field_simp]
    ring
  · unfold dbl
    rw [if_neg hx, if_neg (by linarith), zero_div]

/-! ### Durations -/

/-- `micro` is the rounding of the exact quotient. -/
theorem micro_eq (x : ℤ) : micro x = halfEven ((x : ℚ) / 1000) := by
  have hf : ⌊(x : ℚ) / 1000⌋ = x / 1000 := by
    rw [Int.floor_eq_iff]
    have h1 : ((x / 1000 * 1000 : ℤ) : ℚ) ≤ x := by exact_mod_cast Int.ediv_mul_le x (by norm_num)
    have h2 : (x : ℚ) < ((x / 1000 * 1000 + 1000 : ℤ) : ℚ) := by
      have : x < x / 1000 * 1000 + 1000 := by omega
      exact_mod_cast this
    push_cast at h1 h2
    constructor <;> linarith
  have hm : (x : ℚ) / 1000 - ((x / 1000 : ℤ) : ℚ) = ((x % 1000 : ℤ) : ℚ) / 1000 := by
    have : x = x / 1000 * 1000 + x % 1000 := by omega
    have h : (x : ℚ) = ((x / 1000 : ℤ) : ℚ) * 1000 + ((x % 1000 : ℤ) : ℚ) := by exact_mod_cast this
    linarith
  unfold micro halfEven
  rw [hf, hm]
  have c1 : ((x % 1000 : ℤ) : ℚ) / 1000 < 1 / 2 ↔ x % 1000 < 500 := by
    rw [div_lt_iff₀ (by norm_num)]
    norm_num
    exact_mod_cast Iff.rfl
  have c2 : 1 / 2 < ((x % 1000 : ℤ) : ℚ) / 1000 ↔ 500 < x % 1000 := by
    rw [lt_div_iff₀ (by norm_num)]
    norm_num
    exact_mod_cast Iff.rfl
  simp only [c1, c2]

/-- C129 (durations of whole microseconds): exact below `2 ^ 53` microseconds (285 years). -/
theorem duration_exact (u : ℕ) (hu : u < 2 ^ 53) : floatDelta (1000 * u) = u := by
  unfold floatDelta
  push_cast
  rw [mul_div_cancel_left₀ _ (by norm_num), dbl_nat u hu]
  exact halfEven_near _ _ (by simp)

/-- C129 (durations with nanoseconds): below `2 ^ 44` microseconds (203 days) the float quotient is rounded as the exact one. -/
theorem duration_micro (x : ℕ) (hx : x < 2 ^ 44 * 1000) : floatDelta x = micro x := by
  rw [micro_eq]
  unfold floatDelta
  push_cast
  by_cases h5 : x % 1000 = 500
  · have e : (x : ℚ) / 1000 = ((2 * (x / 1000) + 1 : ℕ) : ℚ) / 2 := by
      have : x = x / 1000 * 1000 + 500 := by omega
      have h : (x : ℚ) = ((x / 1000 : ℕ) : ℚ) * 1000 + 500 := by exact_mod_cast this
      push_cast
      linarith
    rw [e, dbl_half, dbl_nat _ (by omega)]
  · have h0 : (x : ℚ) / 1000 < 2 ^ (43 + 1) := by
      rw [div_lt_iff₀ (by norm_num)]
      exact_mod_cast hx
    have he := dbl_error_lt ((x : ℚ) / 1000) (by positivity) 43 h0
    have key : ∀ k : ℤ, |(x : ℤ) - 1000 * k| ≤ 499 → halfEven (dbl ((x : ℚ) / 1000)) = k ∧ halfEven ((x : ℚ) / 1000) = k := by
      intro k hk
      have hk' : |(x : ℚ) - 1000 * k| ≤ 499 := by exact_mod_cast hk
      have hk2 : |(x : ℚ) / 1000 - k| ≤ 499 / 1000 := by
        rw [show (x : ℚ) / 1000 - k = ((x : ℚ) - 1000 * k) / 1000 by ring, abs_div, abs_of_pos (by norm_num : (0 : ℚ) < 1000)]
        linarith
      constructor
      · apply halfEven_near
        calc |dbl ((x : ℚ) / 1000) - k| = |(dbl ((x : ℚ) / 1000) - (x : ℚ) / 1000) + ((x : ℚ) / 1000 - k)| := by ring_nf
          _ ≤ _ := abs_add_le _ _
          _ ≤ 2 ^ 43 / 2 ^ 53 + 499 / 1000 := add_le_add he hk2
          _ < 1 / 2 := by norm_num
      · apply halfEven_near
        linarith
    rcases lt_or_gt_of_ne h5 with h | h
    · obtain ⟨a, b⟩ := key ((x / 1000 : ℕ) : ℤ) (by rw [abs_le]; omega)
      rw [a, b]
    · obtain ⟨a, b⟩ := key ((x / 1000 : ℕ) + 1 : ℤ) (by rw [abs_le]; omega)
      rw [a, b]

/-- C129, negative: a duration of 203 days, 14 hours and some nanoseconds is printed one microsecond too short. -/
theorem duration_off : floatDelta (2 ^ 44 * 1000 + 501) = 2 ^ 44 ∧ micro (2 ^ 44 * 1000 + 501) = 2 ^ 44 + 1 := by
  constructor
  · have hlog : Int.log 2 (((2 ^ 44 * 1000 + 501 : ℕ) : ℚ) / 1000) = 44 := log_of _ _ (by norm_num) (by norm_num)
    have hu : ulp (((2 ^ 44 * 1000 + 501 : ℕ) : ℚ) / 1000) = 1 / 2 ^ 8 := by
      unfold ulp
      rw [hlog]
      norm_num
    have hh : halfEven (((2 ^ 44 * 1000 + 501 : ℕ) : ℚ) / 1000 / ulp (((2 ^ 44 * 1000 + 501 : ℕ) : ℚ) / 1000)) = 2 ^ 52 + 128 := by
      apply halfEven_near
      rw [hu, abs_lt]
      norm_num
    have hd : dbl (((2 ^ 44 * 1000 + 501 : ℕ) : ℚ) / 1000) = 2 ^ 44 + 1 / 2 := by
      unfold dbl
      rw [if_pos (by norm_num), hh, hu]
      norm_num
    unfold floatDelta
    rw [hd]
    have hf : ⌊(2 ^ 44 + 1 / 2 : ℚ)⌋ = 2 ^ 44 := by
      rw [Int.floor_eq_iff]
      norm_num
    unfold halfEven
    rw [hf]
    norm_num
  · decide

/-! ### Starts -/

/-- C129 (starts that are whole microseconds): exact before `2 ^ 33` seconds, the year 2242. -/
theorem start_exact (u : ℕ) (hu : u < 2 ^ 33 * 10 ^ 6) : floatStart (1000 * u) = u := by
  have hq : ((1000 * u : ℕ) : ℚ) / 10 ^ 9 = (u : ℚ) / 10 ^ 6 := by
    push_cast
    field_simp
    ring
  set y := (u : ℚ) / 10 ^ 6 with hy
  have hu' : (u : ℚ) = y * 10 ^ 6 := by rw [hy]; field_simp
  have hlt : y < 2 ^ (32 + 1) := by
    rw [hy, div_lt_iff₀ (by norm_num)]
    exact_mod_cast hu
  have he := dbl_error_lt y (by positivity) 32 hlt
  set d := dbl y with hd
  have f1 := Int.floor_le d
  have f2 := Int.lt_floor_add_one d
  set i := ⌊d⌋ with hi
  have he2 := dbl_error_lt ((d - i) * 10 ^ 6) (by nlinarith) 19 (by norm_num; linarith)
  unfold floatStart
  simp only [hq, ← hd, ← hi]
  have hh : halfEven (dbl ((d - i) * 10 ^ 6)) = u - i * 10 ^ 6 := by
    apply halfEven_near
    push_cast
    rw [hu']
    calc |dbl ((d - i) * 10 ^ 6) - (y * 10 ^ 6 - i * 10 ^ 6)| = |(dbl ((d - i) * 10 ^ 6) - (d - i) * 10 ^ 6) + (d - y) * 10 ^ 6| := by ring_nf
      _ ≤ |dbl ((d - i) * 10 ^ 6) - (d - i) * 10 ^ 6| + |(d - y) * 10 ^ 6| := abs_add_le _ _
      _ ≤ 2 ^ 19 / 2 ^ 53 + 2 ^ 32 / 2 ^ 53 * 10 ^ 6 := by
        refine add_le_add he2 ?_
        rw [abs_mul, abs_of_pos (by norm_num : (0 : ℚ) < 10 ^ 6)]
        exact mul_le_mul_of_nonneg_right he (by norm_num)
      _ < 1 / 2 := by norm_num
  rw [hh]
  ring

/-- C129, negative: on 16 March 2242 at 12:56:32, one microsecond later, the start is drawn two microseconds later. -/
theorem start_off : floatStart (1000 * (2 ^ 33 * 10 ^ 6 + 1)) = 2 ^ 33 * 10 ^ 6 + 2 := by
  have hq : ((1000 * (2 ^ 33 * 10 ^ 6 + 1) : ℕ) : ℚ) / 10 ^ 9 = 2 ^ 33 + 1 / 10 ^ 6 := by norm_num
  have hlog : Int.log 2 (2 ^ 33 + 1 / 10 ^ 6 : ℚ) = 33 := log_of _ _ (by norm_num) (by norm_num)
  have hu : ulp (2 ^ 33 + 1 / 10 ^ 6) = 1 / 2 ^ 19 := by
    unfold ulp
    rw [hlog]
    norm_num
  have hh : halfEven ((2 ^ 33 + 1 / 10 ^ 6) / ulp (2 ^ 33 + 1 / 10 ^ 6)) = 2 ^ 52 + 1 := by
    apply halfEven_near
    rw [hu, abs_lt]
    norm_num
  have hd : dbl (2 ^ 33 + 1 / 10 ^ 6) = 2 ^ 33 + 1 / 2 ^ 19 := by
    unfold dbl
    rw [if_pos (by norm_num), hh, hu]
    norm_num
  have hf : ⌊(2 ^ 33 + 1 / 2 ^ 19 : ℚ)⌋ = 2 ^ 33 := by
    rw [Int.floor_eq_iff]
    norm_num
  have h2 : halfEven (dbl ((2 ^ 33 + 1 / 2 ^ 19 - ((2 ^ 33 : ℤ) : ℚ)) * 10 ^ 6)) = 2 := by
    have he := abs_le.1 (dbl_error_lt ((2 ^ 33 + 1 / 2 ^ 19 - ((2 ^ 33 : ℤ) : ℚ)) * 10 ^ 6) (by norm_num) 0 (by norm_num))
    apply halfEven_near
    rw [abs_lt]
    norm_num at he ⊢
    constructor <;> linarith [he.1, he.2]
  unfold floatStart
  simp only [hq, hd, hf]
  rw [h2]

/-! ### Examples -/

/-- One day and one microsecond; 16 November 2026, with microseconds. -/
example : floatDelta 86400000001000 = 86400000001 ∧ floatStart 1794834000123457000 = 1794834000123457 :=
  ⟨duration_exact 86400000001 (by norm_num), start_exact 1794834000123457 (by norm_num)⟩

/-- One second and 1500 nanoseconds are printed as one second and two microseconds. -/
example : floatDelta 1000001500 = 1000002 := by
  rw [duration_micro _ (by norm_num)]
  decide

end Verif.Draw
