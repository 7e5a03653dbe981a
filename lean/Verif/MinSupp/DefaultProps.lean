import Verif.Float.Props

/-!
# Thresholds computed in floating point, compared with supports (C128, C132)
-/

set_option autoImplicit false
set_option linter.unusedSectionVars false

namespace Verif.MinSupp

/-- A threshold near the fraction `P / q`: supports are compared with it as with the fraction, unless the fraction is an integer and the threshold is above. -/
theorem compare_near (T : ℚ) (P q : ℕ) (hq : 0 < q) (hP : P < 2 ^ 50) (hT : |T - P / q| ≤ P / q / 2 ^ 50) (hdiv : q ∣ P → T ≤ P / q) (c : ℕ) : T ≤ c ↔ P ≤ q * c := by
  have hq' : (0 : ℚ) < q := by exact_mod_cast hq
  have hP' : (P : ℚ) < 2 ^ 50 := by exact_mod_cast hP
  have hlt : (P : ℚ) / q / 2 ^ 50 < 1 / q := by
    rw [div_div, mul_comm, ← div_div]
    gcongr
    rw [div_lt_one (by positivity)]
    exact hP'
  obtain ⟨t1, t2⟩ := abs_le.1 hT
  constructor
  · intro h
    by_contra hc
    have : q * c + 1 ≤ P := by omega
    have : (q : ℚ) * c + 1 ≤ P := by exact_mod_cast this
    have : (c : ℚ) + 1 / q ≤ P / q := by
      rw [le_div_iff₀ hq', add_mul, one_div, inv_mul_cancel₀ hq'.ne']
      linarith
    linarith
  · intro h
    rcases Nat.eq_or_lt_of_le h with h | h
    · have := hdiv ⟨c, h⟩
      have e : (P : ℚ) / q = c := by rw [h]; push_cast; field_simp
      linarith
    · have : (P : ℚ) + 1 ≤ q * c := by exact_mod_cast h
      have : (P : ℚ) / q + 1 / q ≤ c := by
        rw [← add_div, div_le_iff₀ hq']
        linarith
      linarith

theorem dbl_zero : dbl 0 = 0 := by simp [dbl]

/-- The product of a rounded number and a number of transactions. -/
theorem product_near (x y : ℚ) (n : ℕ) (hx : 0 ≤ x) (hy : 0 ≤ y) (r : ℚ) (hr : r ≤ 2) (hxy : |y - x| ≤ x * (r / 2 ^ 53)) : |dbl (y * n) - x * n| ≤ x * n * ((r + 2) / 2 ^ 53) := by
  have hn : (0 : ℚ) ≤ n := by positivity
  obtain ⟨a1, a2⟩ := abs_le.1 hxy
  have hxn : 0 ≤ x * n := by positivity
  have hz : |dbl (y * n) - y * n| ≤ y * n / 2 ^ 53 := by
    rcases eq_or_lt_of_le (show 0 ≤ y * n by positivity) with h | h
    · rw [← h, dbl_zero]; simp
    · exact dbl_error _ h
  have h1 : |y * n - x * n| ≤ x * n * (r / 2 ^ 53) := by
    rw [← sub_mul, abs_mul, abs_of_nonneg hn]
    calc |y - x| * n ≤ x * (r / 2 ^ 53) * n := mul_le_mul_of_nonneg_right hxy hn
      _ = x * n * (r / 2 ^ 53) := by ring
  have h2 : y * n ≤ 2 * (x * n) := by
    have : y ≤ 2 * x := by
      have : x * (r / 2 ^ 53) ≤ x := by
        refine mul_le_of_le_one_right hx ?_
        rw [div_le_one (by positivity)]
        exact hr.trans (by norm_num)
      linarith
    nlinarith
  calc |dbl (y * n) - x * n| = |(dbl (y * n) - y * n) + (y * n - x * n)| := by ring_nf
    _ ≤ y * n / 2 ^ 53 + x * n * (r / 2 ^ 53) := (abs_add_le _ _).trans (add_le_add hz h1)
    _ ≤ 2 * (x * n) / 2 ^ 53 + x * n * (r / 2 ^ 53) := by gcongr
    _ = x * n * ((r + 2) / 2 ^ 53) := by ring

theorem dbl_near_self (x : ℚ) (hx : 0 ≤ x) : |dbl x - x| ≤ x * (1 / 2 ^ 53) := by
  rcases eq_or_lt_of_le hx with h | h
  · rw [← h, dbl_zero]; simp
  · have := dbl_error x h
    rwa [mul_one_div]

/-- The threshold for `min_supp = p / q` as a decimal literal or quotient, and `n` transactions. -/
theorem product_frac (p q n : ℕ) : |dbl (dbl (p / q) * n) - ((p * n : ℕ) : ℚ) / q| ≤ ((p * n : ℕ) : ℚ) / q / 2 ^ 50 := by
  have h := product_near (p / q) (dbl (p / q)) n (by positivity) (dbl_nonneg _) 1 (by norm_num) (dbl_near_self _ (by positivity))
  have e : (p : ℚ) / q * n = ((p * n : ℕ) : ℚ) / q := by push_cast; ring
  rw [e] at h
  refine h.trans ?_
  rw [div_eq_mul_inv _ ((2 : ℚ) ^ 50)]
  refine mul_le_mul_of_nonneg_left (by norm_num) (by positivity)

open LCM

variable {α : Type*} [LinearOrder α]

/-- C128, where the claim holds: the default `min_supp=0.2` on any number of transactions up to `2 ^ 50`. LCM returns exactly the closed itemsets that occur in a fifth of the transactions or more. -/
theorem relative_default (D : List (List α)) (hD : D.length < 2 ^ 50) (o : Opts) (ho : OrderOk o.setOrder) (hmax : o.maxLength = -1) (X : Finset α) :
    (∃ r ∈ lcm (dbl (dbl (1 / 5) * D.length)) o D, r.itemset.toFinset = X) ↔ (X.Nonempty ∧ X ⊆ itemsOf D ∧ D.length ≤ 5 * (tidsOf D X).card) ∧ Closed D X := by
  rw [lcm_exact _ o ho hmax D X]
  have hc : ∀ c : ℕ, dbl (dbl (1 / 5) * D.length) ≤ c ↔ D.length ≤ 5 * c := by
    intro c
    have h := product_frac 1 5 D.length
    simp only [one_mul, Nat.cast_one, Nat.cast_ofNat] at h
    refine compare_near _ D.length 5 (by norm_num) hD (by exact_mod_cast h) (fun hdiv => ?_) c
    obtain ⟨k, hk⟩ := hdiv
    rw [hk]
    rcases Nat.eq_zero_or_pos k with rfl | hk0
    · simp [dbl_zero]
    · rw [default_exact k hk0 (by omega)]
      push_cast
      linarith
  unfold Frequent
  rw [hc]

/-- Seven transactions: `0.2 * 7` is not an integer, and itemsets that occur twice are returned. -/
example (o : Opts) (ho : OrderOk o.setOrder) (hmax : o.maxLength = -1) : ∃ r ∈ lcm (dbl (dbl (1 / 5) * ([[1], [1], [2], [3], [4], [5], [6]] : List (List ℕ)).length)) o [[1], [1], [2], [3], [4], [5], [6]], r.itemset.toFinset = {1} := by
  refine (relative_default _ (by decide) o ho hmax {1}).2 ⟨by decide +kernel, ?_⟩
  intro Y hY hlt
  have : (tidsOf ([[1], [1], [2], [3], [4], [5], [6]] : List (List ℕ)) Y).card = 0 := by
    rw [show itemsOf ([[1], [1], [2], [3], [4], [5], [6]] : List (List ℕ)) = {1, 2, 3, 4, 5, 6} from by decide +kernel] at hY
    have hmem : Y ∈ (({1, 2, 3, 4, 5, 6} : Finset ℕ).powerset.filter (fun Y => {1} ⊂ Y)) := by
      rw [Finset.mem_filter, Finset.mem_powerset]
      exact ⟨hY, hlt⟩
    revert hmem
    generalize hS : (({1, 2, 3, 4, 5, 6} : Finset ℕ).powerset.filter (fun Y => {1} ⊂ Y)) = S
    have : ∀ Y ∈ S, (tidsOf ([[1], [1], [2], [3], [4], [5], [6]] : List (List ℕ)) Y).card = 0 := by
      rw [← hS]
      decide +kernel
    exact this Y
  rw [this]
  decide +kernel

end Verif.MinSupp
