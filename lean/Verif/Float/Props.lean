import Verif.Float.Model
import Verif.MinSupp.FloatProps

/-!
# Doubles, and the nearest double

Specification of doubles, and the properties of rounding used by C131.
-/

set_option autoImplicit false

namespace Verif.Float

open Verif.MinSupp

/-- A double: an integer of at most 53 bits times a power of two. -/
def IsDouble (x : ℚ) : Prop := ∃ K e : ℤ, |K| ≤ 2 ^ 53 ∧ x = K * 2 ^ e

theorem IsDouble.neg {x : ℚ} (h : IsDouble x) : IsDouble (-x) := by
  obtain ⟨K, e, h1, rfl⟩ := h
  exact ⟨-K, e, by rwa [abs_neg], by push_cast; ring⟩

theorem IsDouble.scale {x : ℚ} (h : IsDouble x) (i : ℤ) : IsDouble (x * 2 ^ i) := by
  obtain ⟨K, e, h1, rfl⟩ := h
  exact ⟨K, e + i, h1, by rw [zpow_add₀ (by norm_num)]; ring⟩

theorem IsDouble.double {x : ℚ} (h : IsDouble x) : IsDouble (2 * x) := by
  have := h.scale 1
  rwa [zpow_one, mul_comm] at this

theorem IsDouble.half {x : ℚ} (h : IsDouble x) : IsDouble (x / 2) := by
  have := h.scale (-1)
  rwa [zpow_neg_one] at this

theorem isDouble_int (k : ℤ) (h : |k| ≤ 2 ^ 53) : IsDouble k := ⟨k, 0, h, by simp⟩

theorem dbl_nearest (x : ℚ) (hx : 0 < x) (d : ℚ) (hd : IsDouble d) : |dbl x - x| ≤ |d - x| := by
  obtain ⟨K, e, hK, rfl⟩ := hd
  have hu := ulp_pos x
  have hdb : dbl x = halfEven (x / ulp x) * ulp x := by
    unfold dbl
    rw [if_pos hx]
  have hj : ∀ j : ℤ, |(j : ℚ) * ulp x - x| = |(j : ℚ) - x / ulp x| * ulp x := by
    intro j
    rw [← abs_of_pos hu, ← abs_mul, abs_of_pos hu, sub_mul, div_mul_cancel₀ _ hu.ne']
  have hgrid : ∀ j : ℤ, |dbl x - x| ≤ |(j : ℚ) * ulp x - x| := by
    intro j
    rw [hdb, hj, hj]
    exact mul_le_mul_of_nonneg_right ((halfEven_spec (x / ulp x)).1 j) hu.le
  by_cases h : Int.log 2 x - 52 ≤ e
  · obtain ⟨n, hn⟩ := Int.le.dest h
    have := hgrid (K * 2 ^ n)
    have e1 : (((K * 2 ^ n : ℤ)) : ℚ) * ulp x = K * 2 ^ e := by
      rw [← hn, ulp]
      push_cast
      rw [mul_assoc, zpow_add₀ (by norm_num), zpow_natCast, mul_comm ((2 : ℚ) ^ n)]
    rwa [e1] at this
  · have hp : ((2 : ℚ) ^ e) * 2 ^ 53 ≤ 2 ^ (Int.log 2 x) := by
      have : (2 : ℚ) ^ e ≤ 2 ^ (Int.log 2 x - 53) := zpow_le_zpow_right₀ (by norm_num) (by omega)
      rw [zpow_sub₀ (by norm_num), le_div_iff₀ (by positivity)] at this
      exact_mod_cast this
    have hpow := Int.zpow_log_le_self (b := 2) (r := x) (by norm_num) hx
    have hpow' : (2 : ℚ) ^ (Int.log 2 x) ≤ x := by exact_mod_cast hpow
    have hK' : (K : ℚ) ≤ 2 ^ 53 := by exact_mod_cast (abs_le.1 hK).2
    have hd : (K : ℚ) * 2 ^ e ≤ 2 ^ (Int.log 2 x) := by
      refine le_trans ?_ hp
      rw [mul_comm]
      exact mul_le_mul_of_nonneg_left hK' (zpow_pos (by norm_num) _).le
    have := hgrid (2 ^ 52)
    have e1 : (((2 ^ 52 : ℤ)) : ℚ) * ulp x = 2 ^ (Int.log 2 x) := by
      rw [ulp, zpow_sub₀ (by norm_num)]
      push_cast
      field_simp
    rw [e1] at this
    refine this.trans ?_
    rw [abs_of_nonpos (by linarith), abs_of_nonpos (by linarith)]
    linarith

theorem dbl_isDouble (x : ℚ) : IsDouble (dbl x) := by
  by_cases hx : 0 < x
  · obtain ⟨K, e, h1, h2, h3, -⟩ := dbl_spec x hx
    exact ⟨K, e, abs_le.2 ⟨by linarith, h3⟩, h1⟩
  · unfold dbl
    rw [if_neg hx]
    exact ⟨0, 0, by norm_num, by norm_num⟩

/-- The rounded number is a double, and no double is nearer. -/
theorem fl_spec (x : ℚ) : IsDouble (fl x) ∧ ∀ d, IsDouble d → |fl x - x| ≤ |d - x| := by
  unfold fl
  rcases lt_trichotomy x 0 with h | h | h
  · rw [if_pos h]
    refine ⟨(dbl_isDouble _).neg, fun d hd => ?_⟩
    have := dbl_nearest (-x) (by linarith) (-d) hd.neg
    rw [← abs_neg, ← abs_neg (d - x)]
    convert this using 2 <;> ring
  · subst h
    rw [if_neg (lt_irrefl _)]
    refine ⟨dbl_isDouble _, fun d _ => ?_⟩
    have : dbl 0 = 0 := by simp [dbl]
    rw [this]
    simp
  · rw [if_neg (not_lt.2 h.le)]
    exact ⟨dbl_isDouble _, fun d hd => dbl_nearest x h d hd⟩

/-- Doubles are not changed. -/
theorem fl_double (x : ℚ) (h : IsDouble x) : fl x = x := by
  have := (fl_spec x).2 x h
  rw [sub_self, abs_zero] at this
  have := abs_nonpos_iff.1 this
  linarith

/-- Rounding keeps the order of numbers. -/
theorem fl_mono {x y : ℚ} (h : x ≤ y) : fl x ≤ fl y := by
  by_contra hc
  push Not at hc
  have h1 := (fl_spec x).2 _ (fl_spec y).1
  have h2 := (fl_spec y).2 _ (fl_spec x).1
  rcases eq_or_lt_of_le h with rfl | h
  · exact lt_irrefl _ hc
  · rw [← sq_le_sq] at h1 h2
    nlinarith [mul_pos (sub_pos.2 hc) (sub_pos.2 h)]

end Verif.Float
