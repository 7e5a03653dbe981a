import Verif.MinSupp.FloatModel
import Verif.MinSupp.Props
import Verif.LCM.MetaProps
import Mathlib.Tactic.Linarith
import Mathlib.Tactic.NormNum
import Mathlib.Tactic.Ring
import Mathlib.Tactic.FieldSimp
import Mathlib.Tactic.Positivity

/-!
# Relative thresholds in floating point (C128)
-/

set_option autoImplicit false
set_option linter.unusedSectionVars false

namespace Verif.MinSupp

/-! ### Rounding -/

theorem halfEven_error (y : ℚ) : |(halfEven y : ℚ) - y| ≤ 1 / 2 := by
  have h1 := Int.floor_le y
  have h2 := Int.lt_floor_add_one y
  unfold halfEven
  rw [abs_le]
  split_ifs <;> push_cast <;> constructor <;> linarith

/-- A number closer than one half to an integer is rounded to it. -/
theorem halfEven_near (y : ℚ) (k : ℤ) (h : |y - k| < 1 / 2) : halfEven y = k := by
  have he := halfEven_error y
  have : |((halfEven y - k : ℤ) : ℚ)| < 1 := by
    push_cast
    calc |(halfEven y : ℚ) - k| = |((halfEven y : ℚ) - y) + (y - k)| := by ring_nf
      _ ≤ |(halfEven y : ℚ) - y| + |y - k| := abs_add_le _ _
      _ < 1 := by linarith
  have h2 : |halfEven y - k| < 1 := by exact_mod_cast this
  have h3 := Int.abs_lt_one_iff.1 h2
  omega

theorem ulp_pos (x : ℚ) : 0 < ulp x := zpow_pos (by norm_num) _

theorem ulp_le (x : ℚ) (hx : 0 < x) : ulp x * 2 ^ 52 ≤ x := by
  have h := Int.zpow_log_le_self (b := 2) (r := x) (by norm_num) hx
  unfold ulp
  rw [zpow_sub₀ (by norm_num), div_mul_eq_mul_div, div_le_iff₀ (by positivity)]
  norm_num at h ⊢
  linarith

/-- The relative error of rounding is at most `2 ^ -53`. -/
theorem dbl_error (x : ℚ) (hx : 0 < x) : |dbl x - x| ≤ x / 2 ^ 53 := by
  unfold dbl
  rw [if_pos hx]
  have hu := ulp_pos x
  have h := halfEven_error (x / ulp x)
  have e : (halfEven (x / ulp x) : ℚ) * ulp x - x = ((halfEven (x / ulp x) : ℚ) - x / ulp x) * ulp x := by
    field_simp
  rw [e, abs_mul, abs_of_pos hu]
  have := ulp_le x hx
  calc _ ≤ 1 / 2 * ulp x := mul_le_mul_of_nonneg_right h hu.le
    _ ≤ x / 2 ^ 53 := by
      rw [le_div_iff₀ (by positivity)]
      norm_num at this ⊢
      linarith

/-- A number close to a natural number below `2 ^ 53`, and not below it, is rounded to it. -/
theorem dbl_near (k : ℕ) (hk : 0 < k) (hb : k < 2 ^ 53) (x : ℚ) (h1 : (k : ℚ) ≤ x) (h2 : x ≤ k + k / 2 ^ 54) : dbl x = k := by
  have hk' : (0 : ℚ) < k := by exact_mod_cast hk
  have hx : 0 < x := hk'.trans_le h1
  set e := Nat.log 2 k with he
  have hlk : 2 ^ e ≤ k := Nat.pow_log_le_self 2 hk.ne'
  have hku : k < 2 ^ (e + 1) := Nat.lt_pow_succ_log_self (by norm_num) k
  have hlk' : (2 : ℚ) ^ e ≤ k := by exact_mod_cast hlk
  have hku' : (k : ℚ) + 1 ≤ 2 ^ (e + 1) := by exact_mod_cast hku
  have hb' : (k : ℚ) < 2 ^ 53 := by exact_mod_cast hb
  have he52 : e ≤ 52 := by
    by_contra hn
    have : 2 ^ 53 ≤ 2 ^ e := Nat.pow_le_pow_right (by norm_num) (by omega)
    omega
  have hlog : Int.log 2 x = e := by
    apply le_antisymm
    · have : Int.log 2 x < (e + 1 : ℕ) := by
        rw [← Int.lt_zpow_iff_log_lt (by norm_num) hx, zpow_natCast]
        norm_num at h2 ⊢
        have : (k : ℚ) / 18014398509481984 < 1 := by
          rw [div_lt_one (by norm_num)]
          have : (k : ℚ) < 9007199254740992 := by exact_mod_cast hb
          linarith
        linarith
      push_cast at this
      omega
    · rw [← Int.zpow_le_iff_le_log (by norm_num) hx, zpow_natCast]
      push_cast
      linarith
  have hulp : ulp x = 1 / 2 ^ (52 - e) := by
    unfold ulp
    rw [hlog]
    have : (e : ℤ) - 52 = -((52 - e : ℕ) : ℤ) := by omega
    rw [this, zpow_neg, zpow_natCast, one_div]
  have hq : x / ulp x = x * 2 ^ (52 - e) := by
    rw [hulp, div_div_eq_mul_div, div_one]
  have hpow : (2 : ℚ) ^ (e + 1) * 2 ^ (52 - e) = 2 ^ 53 := by
    rw [← pow_add]
    congr 1
    omega
  have hP : (0 : ℚ) < 2 ^ (52 - e) := by positivity
  have hr : halfEven (x / ulp x) = (k * 2 ^ (52 - e) : ℕ) := by
    apply halfEven_near
    rw [hq]
    push_cast
    rw [abs_lt]
    have hkP : (k : ℚ) * 2 ^ (52 - e) < 2 ^ 53 := by
      rw [← hpow]
      exact mul_lt_mul_of_pos_right (by linarith) hP
    constructor
    · have := mul_le_mul_of_nonneg_right h1 hP.le
      linarith
    · have := mul_le_mul_of_nonneg_right h2 hP.le
      have e2 : ((k : ℚ) + k / 2 ^ 54) * 2 ^ (52 - e) = k * 2 ^ (52 - e) + (k * 2 ^ (52 - e)) / 2 ^ 54 := by ring
      have : (k : ℚ) * 2 ^ (52 - e) / 2 ^ 54 < 1 / 2 := by
        rw [div_lt_iff₀ (by positivity)]
        norm_num at hkP ⊢
        linarith
      linarith
  unfold dbl
  rw [if_pos hx, hr, hulp]
  push_cast
  rw [mul_one_div, mul_div_assoc, div_self hP.ne', mul_one]

/-- Natural numbers below `2 ^ 53` are doubles. -/
theorem dbl_nat (k : ℕ) (hb : k < 2 ^ 53) : dbl k = k := by
  rcases Nat.eq_zero_or_pos k with rfl | hk
  · simp [dbl]
  · refine dbl_near k hk hb k le_rfl ?_
    have : (0 : ℚ) ≤ (k : ℚ) / 2 ^ 54 := by positivity
    linarith

theorem halfEven_le (y : ℚ) (k : ℤ) (h : y ≤ k) : halfEven y ≤ k := by
  have he := (abs_le.1 (halfEven_error y)).2
  have : (halfEven y : ℚ) < k + 1 := by linarith
  have : halfEven y < k + 1 := by exact_mod_cast this
  omega

/-- `halfEven` is the nearest integer, and the even one if there are two. -/
theorem halfEven_spec (y : ℚ) : (∀ j : ℤ, |(halfEven y : ℚ) - y| ≤ |(j : ℚ) - y|) ∧ ∀ j : ℤ, j ≠ halfEven y → |(j : ℚ) - y| = |(halfEven y : ℚ) - y| → halfEven y % 2 = 0 := by
  have hn : ∀ j : ℤ, j ≠ halfEven y → |(halfEven y : ℚ) - y| + |(j : ℚ) - y| ≥ 1 := by
    intro j hj
    have h1 : (1 : ℚ) ≤ |((halfEven y - j : ℤ) : ℚ)| := by
      have : 1 ≤ |halfEven y - j| := Int.one_le_abs (by omega)
      exact_mod_cast this
    push_cast at h1
    calc (1 : ℚ) ≤ |(halfEven y : ℚ) - j| := h1
      _ = |((halfEven y : ℚ) - y) - ((j : ℚ) - y)| := by ring_nf
      _ ≤ _ := abs_sub _ _
  have he := halfEven_error y
  refine ⟨fun j => ?_, fun j hj h => ?_⟩
  · by_cases hj : j = halfEven y
    · rw [hj]
    · have := hn j hj
      linarith
  · have h1 := hn j hj
    rw [h] at h1
    have h2 : |(halfEven y : ℚ) - y| = 1 / 2 := by linarith
    have f1 := Int.floor_le y
    have f2 := Int.lt_floor_add_one y
    by_cases c1 : y - ⌊y⌋ < 1 / 2
    · have e : halfEven y = ⌊y⌋ := by unfold halfEven; rw [if_pos c1]
      rw [e, abs_sub_comm, abs_of_nonneg (by linarith)] at h2
      linarith
    · by_cases c2 : 1 / 2 < y - ⌊y⌋
      · have e : halfEven y = ⌊y⌋ + 1 := by unfold halfEven; rw [if_neg c1, if_pos c2]
        rw [e] at h2
        push_cast at h2
        rw [abs_of_nonneg (by linarith)] at h2
        linarith
      · unfold halfEven
        rw [if_neg c1, if_neg c2]
        split_ifs with c3
        · exact c3
        · omega

/-- C128: `dbl` is the rounding of IEEE 754: a multiple of a power of two with 53 significant bits, no other such multiple is nearer, and if another one is as near the significand is even. -/
theorem dbl_spec (x : ℚ) (hx : 0 < x) : ∃ (K e : ℤ), dbl x = K * 2 ^ e ∧ 2 ^ 52 ≤ K ∧ K ≤ 2 ^ 53 ∧ (∀ j : ℤ, |dbl x - x| ≤ |j * 2 ^ e - x|) ∧ ∀ j : ℤ, j ≠ K → |j * 2 ^ e - x| = |dbl x - x| → K % 2 = 0 := by
  have hu := ulp_pos x
  have hd : dbl x = halfEven (x / ulp x) * ulp x := by
    unfold dbl
    rw [if_pos hx]
  have hj : ∀ j : ℤ, |(j : ℚ) * ulp x - x| = |(j : ℚ) - x / ulp x| * ulp x := by
    intro j
    rw [← abs_of_pos hu, ← abs_mul, abs_of_pos hu, sub_mul, div_mul_cancel₀ _ hu.ne']
  obtain ⟨s1, s2⟩ := halfEven_spec (x / ulp x)
  have e53 : ((2 ^ 53 : ℤ) : ℚ) = (2 : ℚ) ^ (53 : ℤ) := by norm_num
  have h2 : x / ulp x ≤ ((2 ^ 53 : ℤ) : ℚ) := by
    rw [div_le_iff₀ hu]
    refine (Int.lt_zpow_succ_log_self (b := 2) (by norm_num) x).le.trans (le_of_eq ?_)
    rw [e53, ulp, ← zpow_add₀ (by norm_num)]
    push_cast
    congr 1
    ring
  have h1 : ((2 ^ 52 : ℤ) : ℚ) ≤ x / ulp x := by
    rw [le_div_iff₀ hu, mul_comm]
    have := ulp_le x hx
    push_cast
    exact this
  refine ⟨halfEven (x / ulp x), Int.log 2 x - 52, hd, ?_, halfEven_le _ _ h2, fun j => ?_, fun j hne h => ?_⟩
  · have he := (abs_le.1 (halfEven_error (x / ulp x))).1
    have : ((2 ^ 52 : ℤ) : ℚ) < halfEven (x / ulp x) + 1 := by linarith
    have : (2 ^ 52 : ℤ) < halfEven (x / ulp x) + 1 := by exact_mod_cast this
    omega
  · change _ ≤ |(j : ℚ) * ulp x - x|
    rw [hd, hj, hj]
    exact mul_le_mul_of_nonneg_right (s1 j) hu.le
  · change |(j : ℚ) * ulp x - x| = _ at h
    rw [hd, hj, hj] at h
    exact s2 j hne (mul_right_cancel₀ hu.ne' h)

/-! ### The threshold -/

theorem dbl_le_one (x : ℚ) (h : x ≤ 1) : dbl x ≤ 1 := by
  by_cases hx : 0 < x
  · rcases eq_or_lt_of_le h with rfl | h
    · have := dbl_nat 1 (by norm_num)
      push_cast at this
      rw [this]
    · have hl : Int.log 2 x ≤ -1 := by
        have : Int.log 2 x < 0 := by
          rw [← Int.lt_zpow_iff_log_lt (by norm_num) hx]
          simpa using h
        omega
      have hu := ulp_pos x
      have h1 := Int.lt_zpow_succ_log_self (b := 2) (by norm_num) x
      have h2 : x / ulp x ≤ ((2 ^ 53 : ℤ) : ℚ) := by
        rw [div_le_iff₀ hu]
        refine h1.le.trans (le_of_eq ?_)
        have e53 : ((2 ^ 53 : ℤ) : ℚ) = (2 : ℚ) ^ (53 : ℤ) := by norm_num
        rw [e53, ulp, ← zpow_add₀ (by norm_num)]
        push_cast
        congr 1
        ring
      have h3 := halfEven_le _ _ h2
      have h4 : ((halfEven (x / ulp x) : ℤ) : ℚ) ≤ ((2 ^ 53 : ℤ) : ℚ) := by exact_mod_cast h3
      unfold dbl
      rw [if_pos hx]
      refine (mul_le_mul_of_nonneg_right h4 hu.le).trans ?_
      have e53 : ((2 ^ 53 : ℤ) : ℚ) = (2 : ℚ) ^ (53 : ℤ) := by norm_num
      rw [e53, ulp, ← zpow_add₀ (by norm_num)]
      refine (zpow_le_zpow_right₀ (by norm_num) (show _ ≤ (0 : ℤ) by omega)).trans (by norm_num)
  · unfold dbl
    rw [if_neg hx]
    norm_num

theorem dbl_nonneg (x : ℚ) : 0 ≤ dbl x := by
  by_cases hx : 0 < x
  · have h := (abs_le.1 (dbl_error x hx)).1
    have : x / 2 ^ 53 ≤ x := div_le_self hx.le (by norm_num)
    linarith
  · unfold dbl
    rw [if_neg hx]

/-- `relThreshold` is the threshold that `LCM.fit` computes (C06) for the value `s / n` on `n` transactions. -/
theorem threshold_rel (s n : ℕ) (hsn : s ≤ n) : threshold dbl (.float (.fin (dbl (s / n)))) n = .ok (.float (.fin (relThreshold s n))) :=
  (threshold_spec dbl n).2.1 _ (dbl_nonneg _) (dbl_le_one _ (div_le_one_of_le₀ (by exact_mod_cast hsn) (by positivity)))

/-- The computed threshold is off by less than one. -/
theorem relThreshold_near (s n : ℕ) (hs : 0 < s) (hn : 0 < n) (hb : s < 2 ^ 51) : (s : ℚ) - 1 < relThreshold s n ∧ relThreshold s n < s + 1 := by
  have hs' : (0 : ℚ) < s := by exact_mod_cast hs
  have hn' : (0 : ℚ) < n := by exact_mod_cast hn
  have hx : (0 : ℚ) < s / n := by positivity
  obtain ⟨a1, a2⟩ := abs_le.1 (dbl_error _ hx)
  have e : (s : ℚ) / n * n = s := by field_simp
  have b1 : (s : ℚ) - s / 2 ^ 53 ≤ dbl (s / n) * n := by
    have := mul_le_mul_of_nonneg_right (show (s : ℚ) / n - s / n / 2 ^ 53 ≤ dbl (s / n) by linarith) hn'.le
    have e2 : ((s : ℚ) / n - s / n / 2 ^ 53) * n = (s / n * n) - (s / n * n) / 2 ^ 53 := by ring
    rw [e2, e] at this
    exact this
  have b2 : dbl (s / n) * n ≤ (s : ℚ) + s / 2 ^ 53 := by
    have := mul_le_mul_of_nonneg_right (show dbl (s / n) ≤ (s : ℚ) / n + s / n / 2 ^ 53 by linarith) hn'.le
    have e2 : ((s : ℚ) / n + s / n / 2 ^ 53) * n = (s / n * n) + (s / n * n) / 2 ^ 53 := by ring
    rw [e2, e] at this
    exact this
  have hy : 0 < dbl (s / n) * (n : ℚ) := by
    refine lt_of_lt_of_le ?_ b1
    norm_num
    linarith
  obtain ⟨c1, c2⟩ := abs_le.1 (dbl_error _ hy)
  unfold relThreshold
  have hb' : (s : ℚ) < 2251799813685248 := by exact_mod_cast hb
  norm_num at b1 b2 c1 c2 ⊢
  constructor <;> linarith

/-- If the quotient is a double, the threshold is exact. -/
theorem relThreshold_exact (s n : ℕ) (hn : 0 < n) (hb : s < 2 ^ 53) (h : dbl (s / n) = s / n) : relThreshold s n = s := by
  have hn' : (n : ℚ) ≠ 0 := by exact_mod_cast hn.ne'
  unfold relThreshold
  rw [h, div_mul_cancel₀ _ hn', dbl_nat s hb]

theorem dbl_fifth : dbl (1 / 5) = 3602879701896397 / 2 ^ 54 := by
  have hlog : Int.log 2 (1 / 5 : ℚ) = -3 := by
    apply le_antisymm
    · have : Int.log 2 (1 / 5 : ℚ) < -2 := by
        rw [← Int.lt_zpow_iff_log_lt (by norm_num) (by norm_num)]
        norm_num
      omega
    · rw [← Int.zpow_le_iff_le_log (by norm_num) (by norm_num)]
      norm_num
  have hu : ulp (1 / 5) = 1 / 2 ^ 55 := by
    unfold ulp
    rw [hlog]
    norm_num
  have hh : halfEven (1 / 5 / ulp (1 / 5)) = 7205759403792794 := by
    apply halfEven_near
    rw [hu, abs_lt]
    norm_num
  unfold dbl
  rw [if_pos (by norm_num), hh, hu]
  norm_num

/-- The default `min_supp=0.2` on `5 * k` transactions: the threshold is exactly `k`. -/
theorem default_exact (k : ℕ) (hk : 0 < k) (hb : k < 2 ^ 53) : dbl (dbl (1 / 5) * (5 * k : ℕ)) = k := by
  refine dbl_near k hk hb _ ?_ ?_ <;> rw [dbl_fifth] <;> push_cast <;> norm_num <;>
  · have : (0 : ℚ) < k := by exact_mod_cast hk
    linarith

theorem dbl_seven : dbl (7 / 100) = 5044031582654956 / 2 ^ 56 := by
  have hlog : Int.log 2 (7 / 100 : ℚ) = -4 := by
    apply le_antisymm
    · have : Int.log 2 (7 / 100 : ℚ) < -3 := by
        rw [← Int.lt_zpow_iff_log_lt (by norm_num) (by norm_num)]
        norm_num
      omega
    · rw [← Int.zpow_le_iff_le_log (by norm_num) (by norm_num)]
      norm_num
  have hu : ulp (7 / 100) = 1 / 2 ^ 56 := by
    unfold ulp
    rw [hlog]
    norm_num
  have hh : halfEven (7 / 100 / ulp (7 / 100)) = 5044031582654956 := by
    apply halfEven_near
    rw [hu, abs_lt]
    norm_num
  unfold dbl
  rw [if_pos (by norm_num), hh, hu]
  norm_num

/-- `0.07 * 100` is `7.000000000000001`. -/
theorem relThreshold_seven : relThreshold 7 100 = 7 + 1 / 2 ^ 50 := by
  unfold relThreshold
  push_cast
  rw [dbl_seven]
  have hlog : Int.log 2 (5044031582654956 / 2 ^ 56 * 100 : ℚ) = 2 := by
    apply le_antisymm
    · have : Int.log 2 (5044031582654956 / 2 ^ 56 * 100 : ℚ) < 3 := by
        rw [← Int.lt_zpow_iff_log_lt (by norm_num) (by norm_num)]
        norm_num
      omega
    · rw [← Int.zpow_le_iff_le_log (by norm_num) (by norm_num)]
      norm_num
  have hu : ulp (5044031582654956 / 2 ^ 56 * 100) = 1 / 2 ^ 50 := by
    unfold ulp
    rw [hlog]
    norm_num
  have hh : halfEven (5044031582654956 / 2 ^ 56 * 100 / ulp (5044031582654956 / 2 ^ 56 * 100)) = 7881299347898369 := by
    apply halfEven_near
    rw [hu, abs_lt]
    norm_num
  unfold dbl
  rw [if_pos (by norm_num), hh, hu]
  norm_num

/-! ### LCM with a relative threshold -/

open LCM

variable {α : Type*} [LinearOrder α]

/-- C128. For `min_supp = s / n` and `n` transactions, computed in double precision, LCM returns all closed itemsets of support above `s` and none of support below `s`. -/
theorem relative_near (s : ℕ) (D : List (List α)) (hs : 0 < s) (hsn : s ≤ D.length) (hb : s < 2 ^ 51) (o : Opts) (ho : OrderOk o.setOrder) (hmax : o.maxLength = -1) :
    (∀ X, Frequent D (s + 1) X → Closed D X → ∃ r ∈ lcm (relThreshold s D.length) o D, r.itemset.toFinset = X) ∧ ∀ r ∈ lcm (relThreshold s D.length) o D, s ≤ r.support := by
  obtain ⟨h1, h2⟩ := relThreshold_near s D.length hs (by omega) hb
  constructor
  · intro X hX hc
    exact (lcm_exact _ o ho hmax D X).2 ⟨⟨hX.1, hX.2.1, h2.le.trans hX.2.2⟩, hc⟩
  · intro r hr
    have h := lcm_rows _ o ho D r hr
    have h3 := h.2.1.2.2
    rw [← h.2.2.2.2.1] at h3
    have : (s : ℚ) < r.support + 1 := by linarith
    have : s < r.support + 1 := by exact_mod_cast this
    omega

/-- C128, where the claim holds: the quotient of `s` and the number of transactions is a double, for instance when the number of transactions is a power of two. LCM then returns what it returns for the absolute threshold `s`. -/
theorem relative_exact_partial (s : ℕ) (D : List (List α)) (hn : D ≠ []) (hb : s < 2 ^ 53) (h : dbl (s / D.length) = s / D.length) (o : Opts) : lcm (relThreshold s D.length) o D = lcm s o D := by
  rw [relThreshold_exact s D.length (List.length_pos_iff.2 hn) hb h]

/-- C128, where the claim holds: the default `min_supp=0.2` on a number of transactions that is a multiple of five. -/
theorem relative_default_partial (k : ℕ) (hk : 0 < k) (hb : k < 2 ^ 53) (D : List (List α)) (hD : D.length = 5 * k) (o : Opts) : lcm (dbl (dbl (1 / 5) * D.length)) o D = lcm k o D := by
  rw [hD, default_exact k hk hb]

/-- A hundred transactions, seven of them with item 1. -/
def exHundred : List (List ℕ) := List.replicate 7 [1, 2] ++ List.replicate 93 [2]

/-- C128, negative: `LCM(min_supp=0.07)` on a hundred transactions does not return an itemset that occurs in seven of them, and `LCM(min_supp=7)` does. -/
theorem relative_misses (o : Opts) (ho : OrderOk o.setOrder) (hmax : o.maxLength = -1) :
    exHundred.length = 100 ∧ (∃ r ∈ lcm 7 o exHundred, r.itemset.toFinset = {1, 2} ∧ r.support = 7) ∧ ¬ ∃ r ∈ lcm (relThreshold 7 exHundred.length) o exHundred, r.itemset.toFinset = {1, 2} := by
  have hl : exHundred.length = 100 := by decide
  have hc : (tidsOf exHundred {1, 2}).card = 7 := by decide +kernel
  have hi : itemsOf exHundred = {1, 2} := by decide +kernel
  refine ⟨hl, ?_, ?_⟩
  · have hcl : Closed exHundred {1, 2} := by
      intro Y hY h
      rw [hi] at hY
      exact absurd hY h.2
    obtain ⟨r, hr, he⟩ := (lcm_exact 7 o ho hmax exHundred {1, 2}).2 ⟨⟨by decide, by rw [hi], by rw [hc]; norm_num⟩, hcl⟩
    refine ⟨r, hr, he, ?_⟩
    rw [(lcm_rows 7 o ho exHundred r hr).2.2.2.2.1, he, hc]
  · rintro ⟨r, hr, he⟩
    have h := (lcm_rows _ o ho exHundred r hr).2.1.2.2
    rw [he, hc, hl, relThreshold_seven] at h
    norm_num at h

/-! ### Examples -/

/-- Three eighths is a double. -/
example : dbl ((3 : ℕ) / (8 : ℕ)) = (3 : ℕ) / (8 : ℕ) := by
  have hlog : Int.log 2 (3 / 8 : ℚ) = -2 := by
    apply le_antisymm
    · have : Int.log 2 (3 / 8 : ℚ) < -1 := by
        rw [← Int.lt_zpow_iff_log_lt (by norm_num) (by norm_num)]
        norm_num
      omega
    · rw [← Int.zpow_le_iff_le_log (by norm_num) (by norm_num)]
      norm_num
  have hu : ulp (3 / 8) = 1 / 2 ^ 54 := by
    unfold ulp
    rw [hlog]
    norm_num
  have hh : halfEven (3 / 8 / ulp (3 / 8)) = 6755399441055744 := by
    apply halfEven_near
    rw [hu, abs_lt]
    norm_num
  push_cast
  unfold dbl
  rw [if_pos (by norm_num), hh, hu]
  norm_num

/-- `LCM(min_supp=0.2)` on five transactions: every closed itemset that occurs. -/
example (o : Opts) : lcm (dbl (dbl (1 / 5) * ([[1], [1, 2], [], [2], [3]] : List (List ℕ)).length)) o [[1], [1, 2], [], [2], [3]] = lcm (1 : ℕ) o [[1], [1, 2], [], [2], [3]] :=
  relative_default_partial 1 (by decide) (by decide) _ rfl o

end Verif.MinSupp
