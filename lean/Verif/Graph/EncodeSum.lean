import Mathlib.Algebra.BigOperators.Ring.Finset
import Mathlib.Algebra.BigOperators.Group.Finset.Sigma
import Mathlib.Algebra.Order.BigOperators.Ring.Finset
import Mathlib.Algebra.BigOperators.Field
import Mathlib.Analysis.SpecialFunctions.Exp
import Mathlib.Analysis.Complex.ExponentialBounds
import Mathlib.Data.Nat.Choose.Sum
import Mathlib.Order.Interval.Finset.Nat

/-!
# Description of patterns: sums over all patterns
-/

set_option autoImplicit false
set_option linter.unusedSectionVars false

namespace Verif.Graph

variable {σ : Type} [DecidableEq σ]

/-- The weight of a set of `k` places out of `N` for a label with frequency `a`; an absent label is not written. -/
noncomputable def placeWeight (q : ℕ → ℝ) (a : ℝ) (N k : ℕ) : ℝ := if k = 0 then 1 else a * q k / N.choose k

theorem placeWeight_nonneg (q : ℕ → ℝ) (hq : ∀ k, 0 ≤ q k) (a : ℝ) (ha : 0 ≤ a) (N k : ℕ) : 0 ≤ placeWeight q a N k := by
  unfold placeWeight
  split
  · norm_num
  · exact div_nonneg (mul_nonneg ha (hq k)) (by positivity)

theorem sum_places {β : Type} (q : ℕ → ℝ) (a : ℝ) (X : Finset β) : ∑ S ∈ X.powerset, placeWeight q a X.card S.card = 1 + a * ∑ k ∈ Finset.Icc 1 X.card, q k := by
  rw [Finset.sum_powerset_apply_card (fun k => placeWeight q a X.card k), Finset.sum_range_succ']
  simp only [placeWeight, Nat.choose_zero_right, if_true, one_smul, Nat.add_eq_zero_iff, one_ne_zero, and_false, if_false]
  rw [add_comm, Finset.mul_sum]
  congr 1
  rw [Finset.range_eq_Ico, Finset.sum_Ico_add' (fun k => X.card.choose k • (a * q k / (X.card.choose k))) 0 X.card 1, zero_add]
  have : Finset.Ico 1 (X.card + 1) = Finset.Icc 1 X.card := by ext; simp only [Finset.mem_Ico, Finset.mem_Icc]; omega
  rw [this]
  refine Finset.sum_congr rfl (fun k hk => ?_)
  have h0 : (X.card.choose k : ℝ) ≠ 0 := by exact_mod_cast (Nat.choose_pos (Finset.mem_Icc.mp hk).2).ne'
  rw [nsmul_eq_mul]
  field_simp

theorem prod_places {β : Type} (q : ℕ → ℝ) (hq0 : ∀ k, 0 ≤ q k) (hq : ∀ N, ∑ k ∈ Finset.Icc 1 N, q k ≤ 1 / 2) (A : Finset σ) (a : σ → ℝ) (ha : ∀ l ∈ A, 0 ≤ a l) (X : Finset β) :
    ∑ s ∈ A.pi (fun _ => X.powerset), ∏ l ∈ A.attach, placeWeight q (a l.1) X.card (s l.1 l.2).card ≤ Real.exp ((∑ l ∈ A, a l) / 2) := by
  have h := Finset.prod_sum A (fun _ => X.powerset) (fun l S => placeWeight q (a l) X.card S.card)
  rw [← h, Finset.sum_div, Real.exp_sum]
  refine Finset.prod_le_prod (fun l hl => Finset.sum_nonneg (fun S _ => placeWeight_nonneg q hq0 _ (ha l hl) _ _)) (fun l hl => ?_)
  rw [sum_places]
  have h1 : a l * ∑ k ∈ Finset.Icc 1 X.card, q k ≤ a l * (1 / 2) := mul_le_mul_of_nonneg_left (hq _) (ha l hl)
  have h2 := Real.add_one_le_exp (a l / 2)
  linarith

theorem exp_half_lt : Real.exp (1 / 2) < 2 := by
  have h1 : Real.exp (1 / 2) * Real.exp (1 / 2) = Real.exp 1 := by rw [← Real.exp_add]; norm_num
  have h2 := Real.exp_one_lt_d9
  have h3 := Real.exp_pos (1 / 2)
  nlinarith

/-- What is written for a pattern: the number of vertices, a set of ports, the places of every vertex label, the places of every edge label. -/
abbrev Written (A B : Finset σ) : Type := (_ : ℕ) × (Finset ℕ × ((l : σ) → l ∈ A → Finset ℕ) × ((l : σ) → l ∈ B → Finset (ℕ × ℕ)))

/-- The weight of what is written. -/
noncomputable def writtenWeight (q : ℕ → ℝ) (h : ℕ → ℕ → ℝ) (A B : Finset σ) (a b : σ → ℝ) (w : Written A B) : ℝ :=
  q w.1 * h w.1 w.2.1.card * ((∏ l ∈ A.attach, placeWeight q (a l.1) w.1 (w.2.2.1 l.1 l.2).card) * ∏ l ∈ B.attach, placeWeight q (b l.1) (w.1 ^ 2) (w.2.2.2 l.1 l.2).card)

/-- All that can be written with at most `M` vertices. -/
def allWritten (A B : Finset σ) (M : ℕ) : Finset (Written A B) :=
  (Finset.Icc 1 M).sigma (fun n => (Finset.Icc 1 n).powerset ×ˢ (A.pi (fun _ => (Finset.Icc 1 n).powerset) ×ˢ B.pi (fun _ => (Finset.Icc 1 n ×ˢ Finset.Icc 1 n).powerset)))

theorem writtenWeight_nonneg (q : ℕ → ℝ) (hq0 : ∀ k, 0 ≤ q k) (h : ℕ → ℕ → ℝ) (hh0 : ∀ n k, 0 ≤ h n k) (A B : Finset σ) (a b : σ → ℝ) (ha : ∀ l ∈ A, 0 ≤ a l) (hb : ∀ l ∈ B, 0 ≤ b l) (w : Written A B) :
    0 ≤ writtenWeight q h A B a b w :=
  mul_nonneg (mul_nonneg (hq0 _) (hh0 _ _)) (mul_nonneg (Finset.prod_nonneg (fun l _ => placeWeight_nonneg q hq0 _ (ha l.1 l.2) _ _)) (Finset.prod_nonneg (fun l _ => placeWeight_nonneg q hq0 _ (hb l.1 l.2) _ _)))

theorem sum_written (q : ℕ → ℝ) (hq0 : ∀ k, 0 ≤ q k) (hq : ∀ N, ∑ k ∈ Finset.Icc 1 N, q k ≤ 1 / 2) (h : ℕ → ℕ → ℝ) (hh0 : ∀ n k, 0 ≤ h n k) (hh : ∀ n, ∑ P ∈ (Finset.Icc 1 n).powerset, h n P.card ≤ 1)
    (A B : Finset σ) (a b : σ → ℝ) (ha : ∀ l ∈ A, 0 ≤ a l) (hb : ∀ l ∈ B, 0 ≤ b l) (hab : ∑ l ∈ A, a l + ∑ l ∈ B, b l ≤ 1) (M : ℕ) :
    ∑ w ∈ allWritten A B M, writtenWeight q h A B a b w ≤ 1 := by
  unfold allWritten
  rw [Finset.sum_sigma]
  have key : ∀ n ∈ Finset.Icc 1 M, ∑ w ∈ (Finset.Icc 1 n).powerset ×ˢ (A.pi (fun _ => (Finset.Icc 1 n).powerset) ×ˢ B.pi (fun _ => (Finset.Icc 1 n ×ˢ Finset.Icc 1 n).powerset)), writtenWeight q h A B a b ⟨n, w⟩ ≤ q n * 2 := by
    intro n _
    have e : ∑ w ∈ (Finset.Icc 1 n).powerset ×ˢ (A.pi (fun _ => (Finset.Icc 1 n).powerset) ×ˢ B.pi (fun _ => (Finset.Icc 1 n ×ˢ Finset.Icc 1 n).powerset)), writtenWeight q h A B a b ⟨n, w⟩ =
        q n * (∑ P ∈ (Finset.Icc 1 n).powerset, h n P.card) * ((∑ s ∈ A.pi (fun _ => (Finset.Icc 1 n).powerset), ∏ l ∈ A.attach, placeWeight q (a l.1) n (s l.1 l.2).card) *
          ∑ s ∈ B.pi (fun _ => (Finset.Icc 1 n ×ˢ Finset.Icc 1 n).powerset), ∏ l ∈ B.attach, placeWeight q (b l.1) (n ^ 2) (s l.1 l.2).card) := by
      rw [Finset.sum_mul_sum, ← Finset.sum_product', Finset.mul_sum (s := (Finset.Icc 1 n).powerset), Finset.sum_mul_sum, ← Finset.sum_product']
      rfl
    rw [e]
    have h1 := prod_places q hq0 hq A a ha (Finset.Icc 1 n)
    have h2 := prod_places q hq0 hq B b hb (Finset.Icc 1 n ×ˢ Finset.Icc 1 n)
    have c1 : (Finset.Icc 1 n).card = n := by simp
    have c2 : (Finset.Icc 1 n ×ˢ Finset.Icc 1 n).card = n ^ 2 := by rw [Finset.card_product, c1, sq]
    rw [c1] at h1
    rw [c2] at h2
    have p2 : 0 ≤ ∑ s ∈ B.pi (fun _ => (Finset.Icc 1 n ×ˢ Finset.Icc 1 n).powerset), ∏ l ∈ B.attach, placeWeight q (b l.1) (n ^ 2) (s l.1 l.2).card :=
      Finset.sum_nonneg (fun s _ => Finset.prod_nonneg (fun l _ => placeWeight_nonneg q hq0 _ (hb l.1 l.2) _ _))
    have p3 : 0 ≤ ∑ P ∈ (Finset.Icc 1 n).powerset, h n P.card := Finset.sum_nonneg (fun P _ => hh0 _ _)
    have h3 : Real.exp ((∑ l ∈ A, a l) / 2) * Real.exp ((∑ l ∈ B, b l) / 2) ≤ 2 := by
      rw [← Real.exp_add]
      exact le_trans (Real.exp_le_exp.mpr (by linarith)) exp_half_lt.le
    have h4 := le_trans (mul_le_mul h1 h2 p2 (Real.exp_pos _).le) h3
    have h5 : q n * (∑ P ∈ (Finset.Icc 1 n).powerset, h n P.card) ≤ q n := mul_le_of_le_one_right (hq0 n) (hh n)
    exact le_trans (mul_le_mul_of_nonneg_left h4 (mul_nonneg (hq0 n) p3)) (mul_le_mul_of_nonneg_right h5 (by norm_num))
  refine le_trans (Finset.sum_le_sum key) ?_
  rw [← Finset.sum_mul]
  have := hq M
  linarith

end Verif.Graph
