import Verif.Graph.NumModel
import Mathlib.Algebra.BigOperators.Intervals
import Mathlib.Algebra.Order.BigOperators.Group.Finset
import Mathlib.Tactic.Ring
import Mathlib.Tactic.FieldSimp
import Mathlib.Tactic.Linarith
import Mathlib.Tactic.NormNum
import Mathlib.Tactic.Positivity

/-!
# Numeric helpers of GraphMDL: properties C44 and C45

Source: `/repo/skmine/graph/graphmdl/utils.py:119-166`.
-/

set_option autoImplicit false

namespace Verif.Graph

/-! ## C44 -/

/-- C44: for `k ≤ n` the function returns the binomial coefficient, provided rounding does not touch the integers up to a bound above `n * C(n, k)` (for floats the bound is `2 ^ 53`). -/
theorem binomial_correct (rnd : ℚ → ℚ) (B : ℕ) (hrnd : ∀ m : ℕ, m ≤ B → rnd m = m) (n k : ℕ) (hk : k ≤ n) (hB : n * n.choose k ≤ B) :
    binomial rnd n k = .ok (n.choose k : ℚ) := by
  fun_induction binomial rnd n k with
  | case1 n k h => omega
  | case2 n h => simp
  | case3 n k h1 h2 h3 ih =>
    rw [ih (by omega) (by rwa [Nat.choose_symm hk]), Nat.choose_symm hk]
  | case4 n k h1 h2 h3 ih =>
    obtain ⟨m, rfl⟩ : ∃ m, n = m + 1 := ⟨n - 1, by omega⟩
    obtain ⟨j, rfl⟩ : ∃ j, k = j + 1 := ⟨k - 1, by omega⟩
    have key : (m + 1) * m.choose j = (m + 1).choose (j + 1) * (j + 1) := Nat.add_one_mul_choose_eq m j
    have hle : m.choose j ≤ (m + 1).choose (j + 1) := by
      rw [Nat.choose_succ_succ]; exact Nat.le_add_right _ _
    have hB' : m * m.choose j ≤ B := le_trans (Nat.mul_le_mul (Nat.le_succ m) hle) hB
    simp only [Nat.add_sub_cancel] at ih ⊢
    rw [ih (by omega) hB']
    have e1 : rnd (((m + 1 : ℕ) : ℚ) * (m.choose j : ℚ)) = (((m + 1) * m.choose j : ℕ) : ℚ) := by
      rw [← hrnd ((m + 1) * m.choose j) (le_trans (Nat.mul_le_mul (le_refl _) hle) hB)]
      push_cast; rfl
    show Except.ok (rnd (rnd (((m + 1 : ℕ) : ℚ) * (m.choose j : ℚ)) / ((j + 1 : ℕ) : ℚ))) = _
    rw [e1, key]
    have e2 : (((m + 1).choose (j + 1) * (j + 1) : ℕ) : ℚ) / ((j + 1 : ℕ) : ℚ) = ((m + 1).choose (j + 1) : ℕ) := by
      have : ((j + 1 : ℕ) : ℚ) ≠ 0 := by exact_mod_cast Nat.succ_ne_zero j
      rw [Nat.cast_mul, mul_div_assoc, div_self this, mul_one]
    rw [e2, hrnd _ (le_trans (Nat.le_mul_of_pos_left _ (Nat.succ_pos m)) hB)]

/-- C44 with exact arithmetic: no bound at all. -/
theorem binomial_exact (n k : ℕ) (hk : k ≤ n) : binomial id n k = .ok (n.choose k : ℚ) :=
  binomial_correct id _ (fun _ _ => rfl) n k hk (le_refl _)

/-- C44: `k > n` raises `ValueError`. -/
theorem binomial_error (rnd : ℚ → ℚ) (n k : ℕ) (hk : k > n) : binomial rnd n k = .error "ValueError" := by
  rw [binomial, if_pos hk]

/-- C44 with rounding: floats give the exact coefficient `C(9, 4) = 126`. -/
example (rnd : ℚ → ℚ) (hrnd : ∀ m : ℕ, m ≤ 2 ^ 53 → rnd m = m) : binomial rnd 9 4 = .ok 126 := by
  have := binomial_correct rnd (2 ^ 53) hrnd 9 4 (by norm_num) (by decide)
  simpa [show Nat.choose 9 4 = 126 from by decide] using this

example : binomial id 5 7 = .error "ValueError" := binomial_error id 5 7 (by norm_num)

/-! ## C45 -/

/-- The length of the code of a positive integer. -/
theorem universalInt_pos (x : ℕ) (hx : 1 ≤ x) : universalInt x = .ok (Nat.log 2 x + 2 * Nat.log 2 (Nat.log 2 x + 1) + 1) := by
  rw [universalInt, if_neg (by omega)]; simp

/-- C45: the lengths do not decrease. -/
theorem universalInt_monotone (x y : ℕ) (hx : 1 ≤ x) (hxy : x ≤ y) :
    ∃ a b, universalInt x = .ok a ∧ universalInt y = .ok b ∧ a ≤ b := by
  refine ⟨_, _, universalInt_pos x hx, universalInt_pos y (le_trans hx hxy), ?_⟩
  have h1 : Nat.log 2 x ≤ Nat.log 2 y := Nat.log_mono_right hxy
  have h2 : Nat.log 2 (Nat.log 2 x + 1) ≤ Nat.log 2 (Nat.log 2 y + 1) := Nat.log_mono_right (by omega)
  omega

/-- Summing a function of the integer logarithm. -/
theorem sum_log (f : ℕ → ℚ) (n : ℕ) : ∑ x ∈ Finset.Ico 1 (2 ^ n), f (Nat.log 2 x) = ∑ a ∈ Finset.range n, 2 ^ a * f a := by
  induction n with
  | zero => simp
  | succ n ih =>
    rw [Finset.sum_range_succ, ← ih, ← Finset.sum_Ico_consecutive (fun x => f (Nat.log 2 x)) (Nat.one_le_two_pow (n := n)) (Nat.pow_le_pow_right (by norm_num) (Nat.le_succ n))]
    congr 1
    have : ∀ x ∈ Finset.Ico (2 ^ n) (2 ^ (n + 1)), f (Nat.log 2 x) = f n := by
      intro x hx
      rw [Finset.mem_Ico] at hx
      rw [Nat.log_eq_of_pow_le_of_lt_pow hx.1 hx.2]
    rw [Finset.sum_congr rfl this, Finset.sum_const, Nat.card_Ico, pow_succ, mul_two, Nat.add_sub_cancel, nsmul_eq_mul]
    push_cast; rfl

/-- Twice applied: the total weight of the integers with at most `2 ^ k - 1` bits. -/
theorem kraft_blocks (k : ℕ) : ∑ x ∈ Finset.Ico 1 (2 ^ (2 ^ k - 1)), (1 / 2 : ℚ) ^ (Nat.log 2 x + 2 * Nat.log 2 (Nat.log 2 x + 1) + 1) = 1 - (1 / 2) ^ k := by
  rw [sum_log (fun a => (1 / 2 : ℚ) ^ (a + 2 * Nat.log 2 (a + 1) + 1))]
  have h1 : ∀ a ∈ Finset.range (2 ^ k - 1), (2 : ℚ) ^ a * (1 / 2) ^ (a + 2 * Nat.log 2 (a + 1) + 1) = (1 / 2) ^ (2 * Nat.log 2 (a + 1) + 1) := by
    intro a _
    rw [add_assoc, pow_add, ← mul_assoc, ← mul_pow]
    norm_num
  rw [Finset.sum_congr rfl h1]
  have h2 : ∑ a ∈ Finset.range (2 ^ k - 1), (1 / 2 : ℚ) ^ (2 * Nat.log 2 (a + 1) + 1) = ∑ b ∈ Finset.Ico 1 (2 ^ k), (1 / 2 : ℚ) ^ (2 * Nat.log 2 b + 1) := by
    rw [Finset.sum_Ico_eq_sum_range]
    exact Finset.sum_congr rfl (fun a _ => by rw [Nat.add_comm a 1])
  rw [h2, sum_log (fun m => (1 / 2 : ℚ) ^ (2 * m + 1))]
  induction k with
  | zero => simp
  | succ k ih =>
    rw [Finset.sum_range_succ, ih (fun a _ => by rw [add_assoc, pow_add, ← mul_assoc, ← mul_pow]; norm_num) (by
      rw [Finset.sum_Ico_eq_sum_range]
      exact Finset.sum_congr rfl (fun a _ => by rw [Nat.add_comm a 1]))]
    have : (2 : ℚ) ^ k * (1 / 2) ^ (2 * k + 1) = (1 / 2) ^ (k + 1) := by
      rw [show 2 * k + 1 = k + (k + 1) by ring, pow_add, ← mul_assoc, ← mul_pow]; norm_num
    rw [this, pow_succ]; ring

/-- C45, Kraft's inequality: the weights `2 ^ (- length)` of any number of positive integers add up to less than 1. `len x` is whatever the function returns. -/
theorem universalInt_kraft (len : ℕ → ℕ) (hlen : ∀ x : ℕ, 1 ≤ x → universalInt x = .ok (len x)) (N : ℕ) :
    ∑ x ∈ Finset.Icc 1 N, (1 / 2 : ℚ) ^ len x < 1 := by
  have e : ∀ x ∈ Finset.Icc 1 N, (1 / 2 : ℚ) ^ len x = (1 / 2 : ℚ) ^ (Nat.log 2 x + 2 * Nat.log 2 (Nat.log 2 x + 1) + 1) := by
    intro x hx
    rw [Finset.mem_Icc] at hx
    have := hlen x hx.1
    rw [universalInt_pos x hx.1] at this
    rw [Except.ok.inj this]
  rw [Finset.sum_congr rfl e]
  have hN : N < 2 ^ (2 ^ N - 1) := by
    rcases Nat.eq_zero_or_pos N with rfl | h
    · norm_num
    · have h1 : N < 2 ^ N := Nat.lt_two_pow_self
      have h2 : (2 : ℕ) ^ N ≤ 2 ^ (2 ^ N - 1) := Nat.pow_le_pow_right (by norm_num) (by omega)
      omega
  have hsub : Finset.Icc 1 N ⊆ Finset.Ico 1 (2 ^ (2 ^ N - 1)) := by
    intro x hx
    rw [Finset.mem_Icc] at hx
    exact Finset.mem_Ico.mpr ⟨hx.1, by omega⟩
  refine lt_of_le_of_lt (Finset.sum_le_sum_of_subset_of_nonneg hsub (fun _ _ _ => by positivity)) ?_
  rw [kraft_blocks]
  have : (0 : ℚ) < (1 / 2) ^ N := by positivity
  linarith

/-- The weights get arbitrarily close to 1: the code wastes nothing. -/
theorem universalInt_tight (k : ℕ) : ∃ N, 1 - (1 / 2 : ℚ) ^ k ≤ ∑ x ∈ Finset.Icc 1 N, (1 / 2 : ℚ) ^ (Nat.log 2 x + 2 * Nat.log 2 (Nat.log 2 x + 1) + 1) := by
  refine ⟨2 ^ (2 ^ k - 1), ?_⟩
  rw [← kraft_blocks]
  apply Finset.sum_le_sum_of_subset_of_nonneg
  · intro x hx
    rw [Finset.mem_Ico] at hx
    exact Finset.mem_Icc.mpr ⟨hx.1, hx.2.le⟩
  · intros; positivity

/-- C45: Kraft's inequality for the variant with zero. -/
theorem universalInt0_kraft (len : ℕ → ℕ) (hlen : ∀ x : ℕ, universalInt0 x = .ok (len x)) (N : ℕ) :
    ∑ x ∈ Finset.range N, (1 / 2 : ℚ) ^ len x < 1 := by
  have h := universalInt_kraft (fun x => len (x - 1)) (by
    intro x hx
    have := hlen (x - 1)
    rw [universalInt0, if_neg (by omega)] at this
    rw [← this]; congr 1; omega) N
  have e : Finset.Icc 1 N = Finset.Ico 1 (N + 1) := by ext x; simp
  rw [e, Finset.sum_Ico_eq_sum_range] at h
  simpa using h

/-- C45: lengths of the variant with zero do not decrease. -/
theorem universalInt0_monotone (x y : ℕ) (hxy : x ≤ y) : ∃ a b, universalInt0 x = .ok a ∧ universalInt0 y = .ok b ∧ a ≤ b := by
  rw [universalInt0, if_neg (by omega), universalInt0, if_neg (by omega)]
  exact universalInt_monotone (x + 1) (y + 1) (by omega) (by omega)

/-- Integers outside the domain raise. -/
theorem universalInt_error (x : ℤ) : (x < 1 → universalInt x = .error "ValueError") ∧ (x < 0 → universalInt0 x = .error "ValueError") := by
  constructor
  · intro h; rw [universalInt, if_pos h]
  · intro h; rw [universalInt0, if_pos h]

/-! ## A prefix code with these lengths -/

/-- The `k` low bits of `n`, most significant first. -/
def bits (n : ℕ) : ℕ → List Bool
  | 0 => []
  | k + 1 => n.testBit k :: bits n k

/-- A codeword for a positive integer `x` with `a + 1` bits, where `a + 1` has `m + 1` bits: `m` zeros, the bits of `a + 1`, the bits of `x` after the first. -/
def word (x : ℕ) : List Bool :=
  List.replicate (Nat.log 2 (Nat.log 2 x + 1)) false ++ (bits (Nat.log 2 x + 1) (Nat.log 2 (Nat.log 2 x + 1) + 1) ++ bits x (Nat.log 2 x))

theorem bits_length (n k : ℕ) : (bits n k).length = k := by
  induction k with
  | zero => rfl
  | succ k ih => simp [bits, ih]

theorem bits_inj (k : ℕ) : ∀ x y : ℕ, x < 2 ^ k → y < 2 ^ k → bits x k = bits y k → x = y := by
  intro x y hx hy h
  apply Nat.eq_of_testBit_eq
  have hb : ∀ k, bits x k = bits y k → ∀ i, i < k → x.testBit i = y.testBit i := by
    intro k
    induction k with
    | zero => intro _ i hi; omega
    | succ k ih =>
      intro h i hi
      rw [bits, bits, List.cons.injEq] at h
      rcases Nat.lt_succ_iff_lt_or_eq.mp hi with h1 | rfl
      · exact ih h.2 i h1
      · exact h.1
  intro i
  rcases Nat.lt_or_ge i k with h1 | h1
  · exact hb k h i h1
  · rw [Nat.testBit_lt_two_pow (lt_of_lt_of_le hx (Nat.pow_le_pow_right (by norm_num) h1)), Nat.testBit_lt_two_pow (lt_of_lt_of_le hy (Nat.pow_le_pow_right (by norm_num) h1))]

theorem bits_log (x : ℕ) (hx : 1 ≤ x) : bits x (Nat.log 2 x + 1) = true :: bits x (Nat.log 2 x) := by
  rw [bits]
  congr 1
  have h1 : 2 ^ Nat.log 2 x ≤ x := Nat.pow_log_le_self 2 (by omega)
  have h2 : x < 2 ^ (Nat.log 2 x + 1) := Nat.lt_pow_succ_log_self (by norm_num) x
  obtain ⟨r, hr⟩ := Nat.exists_eq_add_of_le h1
  have h3 : r < 2 ^ Nat.log 2 x := by rw [pow_succ] at h2; omega
  have h4 : x.testBit (Nat.log 2 x) = (2 ^ Nat.log 2 x + r).testBit (Nat.log 2 x) := congrArg (fun t => t.testBit (Nat.log 2 x)) hr
  rw [h4, Nat.testBit_two_pow_add_eq, Nat.testBit_lt_two_pow h3]; rfl

theorem replicate_sep {m n : ℕ} {r s : List Bool} (h : List.replicate m false ++ true :: r = List.replicate n false ++ true :: s) : m = n ∧ r = s := by
  induction m generalizing n with
  | zero =>
    cases n with
    | zero => simpa using h
    | succ n => simp [List.replicate_succ] at h
  | succ m ih =>
    cases n with
    | zero => simp [List.replicate_succ] at h
    | succ n =>
      simp only [List.replicate_succ, List.cons_append, List.cons.injEq, true_and] at h
      have := ih h
      exact ⟨by rw [this.1], this.2⟩

/-- No codeword can be extended into another one. -/
theorem word_prefix_free (x y : ℕ) (hx : 1 ≤ x) (hy : 1 ≤ y) (h : word x <+: word y) : x = y := by
  obtain ⟨r, h⟩ := h
  unfold word at h
  rw [bits_log _ (by omega), bits_log _ (by omega)] at h
  simp only [List.append_assoc, List.cons_append] at h
  obtain ⟨hm, h⟩ := replicate_sep h
  have h1 := List.append_inj h (by rw [bits_length, bits_length, hm])
  have ha : Nat.log 2 x + 1 = Nat.log 2 y + 1 := by
    apply bits_inj (Nat.log 2 (Nat.log 2 x + 1) + 1)
    · exact Nat.lt_pow_succ_log_self (by norm_num) _
    · rw [hm]; exact Nat.lt_pow_succ_log_self (by norm_num) _
    · rw [bits_log _ (by omega), hm, bits_log (Nat.log 2 y + 1) (by omega), ← hm, h1.1, hm]
  have h2 := List.append_inj_left (t₁ := r) (t₂ := []) (by simpa using h1.2) (by rw [bits_length, bits_length]; omega)
  apply bits_inj (Nat.log 2 x + 1) x y (Nat.lt_pow_succ_log_self (by norm_num) _) (by rw [ha]; exact Nat.lt_pow_succ_log_self (by norm_num) _)
  rw [bits_log x hx, ha, bits_log y hy, h2]

/-- C45: the lengths are those of a prefix code of the positive integers. -/
theorem universalInt_prefix_code : ∃ code : ℕ → List Bool, (∀ x : ℕ, 1 ≤ x → universalInt x = .ok (code x).length) ∧
    ∀ x y, 1 ≤ x → 1 ≤ y → code x <+: code y → x = y := by
  refine ⟨word, ?_, word_prefix_free⟩
  intro x hx
  rw [universalInt_pos x hx]
  congr 1
  simp only [word, List.length_append, List.length_replicate, bits_length]
  omega

/-- C45: the same for the naturals. -/
theorem universalInt0_prefix_code : ∃ code : ℕ → List Bool, (∀ x : ℕ, universalInt0 x = .ok (code x).length) ∧
    ∀ x y, code x <+: code y → x = y := by
  obtain ⟨code, h1, h2⟩ := universalInt_prefix_code
  refine ⟨fun x => code (x + 1), ?_, ?_⟩
  · intro x
    rw [universalInt0, if_neg (by omega)]
    exact_mod_cast h1 (x + 1) (by omega)
  · intro x y h
    have := h2 (x + 1) (y + 1) (by omega) (by omega) h
    omega

/-! ## Concrete cases -/

example : word 1 = [true] ∧ word 5 = [false, true, true, false, true] := by decide +kernel

/-- The hypothesis of the Kraft theorems is met. -/
example : ∑ x ∈ Finset.Icc 1 100, (1 / 2 : ℚ) ^ (word x).length < 1 := by
  refine universalInt_kraft (fun x => (word x).length) ?_ 100
  intro x hx
  rw [universalInt_pos x hx]
  congr 1
  simp only [word, List.length_append, List.length_replicate, bits_length]
  omega

example : ∃ a b, universalInt 5 = .ok a ∧ universalInt 8 = .ok b ∧ a ≤ b := universalInt_monotone 5 8 (by norm_num) (by norm_num)

example : universalInt 5 = .ok 5 ∧ universalInt 8 = .ok 8 ∧ universalInt0 0 = .ok 1 ∧ universalInt 0 = .error "ValueError" := by
  refine ⟨?_, ?_, ?_, ?_⟩ <;> rfl

end Verif.Graph
