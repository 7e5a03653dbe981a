import Verif.Border.FloatModel
import Verif.Border.Props
import Verif.MinSupp.DefaultProps

/-!
# Emerging patterns with thresholds computed in floating point (C132)
-/

set_option autoImplicit false
set_option linter.unusedSectionVars false

namespace Verif.Border

open Verif.LCM (OrderOk Frequent tidsOf itemsOf)
open Verif.MinSupp Verif.Float

variable {α : Type*} [LinearOrder α]

/-! ### Specification -/

/-- `Y` occurs in at least the fraction `p / q` of the transactions. -/
def AtLeast (D : List (List α)) (p q : ℕ) (Y : Finset α) : Prop := Y ⊆ itemsOf D ∧ p * D.length ≤ q * (tidsOf D Y).card

/-! ### Theorems -/

/-- After a successful fit, an itemset lies in one of the borders iff it is frequent in the second collection at the computed raised threshold and not frequent in the first one at the computed threshold. -/
theorem fitFloat_borders (ord : Finset α → List α) (ho : OrderOk ord) (minSupp growth : ℚ) (D1 D2 : List (List α)) (B : List (List (Finset α) × Finset α)) (h : fitFloat ord minSupp growth D1 D2 = .ok B) (Y : Finset α) (hY : Y.Nonempty) :
    (∃ b ∈ B, InBorder b.1 b.2 Y) ↔ Frequent D2 (dbl (dbl (growth * minSupp) * D2.length)) Y ∧ ¬ Frequent D1 (dbl (minSupp * D1.length)) Y := by
  unfold fitFloat at h
  split at h
  · cases h
  · obtain ⟨h1, h2⟩ := mbdllborder_spec ord ho _ _ B h
    rw [← frequent_iff_le_max ord ho, ← frequent_iff_le_max ord ho]
    constructor
    · rintro ⟨b, hb, hin⟩
      have hin' := ((h1 b hb).2 Y).1 hin
      exact ⟨⟨hY, b.2, (h1 b hb).1, hin'.1⟩, fun ⟨_, e, he, hsub⟩ => hin'.2 e he hsub⟩
    · rintro ⟨⟨_, U, hU, hYU⟩, hno⟩
      have hno' : ∀ e ∈ (LCM.lcmMax (dbl (minSupp * D1.length)) (-1) true ord D1).map (fun r => r.itemset.toFinset),
          ¬ Y ⊆ e := fun e he hsub => hno ⟨hY, e, he, hsub⟩
      obtain ⟨b, hb, rfl⟩ := h2 U hU (fun e he hlt => hno' e he (hYU.trans hlt.1))
      exact ⟨b, hb, ((h1 b hb).2 Y).2 ⟨hYU, hno'⟩⟩

/-- The fit succeeds when the raised support is at most 1 and the first collection has a frequent item. -/
theorem fitFloat_total (ord : Finset α → List α) (ho : OrderOk ord) (minSupp growth : ℚ) (D1 D2 : List (List α)) (h1 : dbl (growth * minSupp) ≤ 1) (hne : ∃ Y, Frequent D1 (dbl (minSupp * D1.length)) Y) :
    ∃ B, fitFloat ord minSupp growth D1 D2 = .ok B := by
  unfold fitFloat
  rw [if_neg (not_lt.2 h1)]
  apply mbdllborder_total
  obtain ⟨Y, hY⟩ := hne
  obtain ⟨_, e, he, _⟩ := (frequent_iff_le_max ord ho _ D1 Y).2 hY
  intro hnil
  rw [hnil] at he
  simp at he

/-- The raised threshold of `min_supp = p / q` and an integer growth rate `g`. -/
theorem raised_near (g p q n : ℕ) : |dbl (dbl (g * dbl (p / q)) * n) - ((g * p * n : ℕ) : ℚ) / q| ≤ ((g * p * n : ℕ) : ℚ) / q / 2 ^ 50 := by
  have hx : (0 : ℚ) ≤ g * (p / q) := by positivity
  have h1 : |(g : ℚ) * dbl (p / q) - g * (p / q)| ≤ g * (p / q) * (1 / 2 ^ 53) := by
    rw [← mul_sub, abs_mul, abs_of_nonneg (by positivity : (0 : ℚ) ≤ g), mul_assoc]
    exact mul_le_mul_of_nonneg_left (dbl_near_self _ (by positivity)) (by positivity)
  have hy : (0 : ℚ) ≤ g * dbl (p / q) := mul_nonneg (by positivity) (dbl_nonneg _)
  have h2 := dbl_near_self _ hy
  obtain ⟨a1, a2⟩ := abs_le.1 h1
  obtain ⟨b1, b2⟩ := abs_le.1 h2
  have h3 : |dbl (g * dbl (p / q)) - g * (p / q)| ≤ g * (p / q) * (3 / 2 ^ 53) := by
    rw [abs_le]
    norm_num at *
    constructor <;> linarith
  have hn : (0 : ℚ) ≤ n := by positivity
  have h4 : |dbl (g * dbl (p / q)) * n - g * (p / q) * n| ≤ g * (p / q) * n * (3 / 2 ^ 53) := by
    rw [← sub_mul, abs_mul, abs_of_nonneg hn]
    calc _ ≤ g * (p / q) * (3 / 2 ^ 53) * (n : ℚ) := mul_le_mul_of_nonneg_right h3 hn
      _ = _ := by ring
  have h5 := dbl_near_self (dbl (g * dbl (p / q)) * n) (mul_nonneg (dbl_nonneg _) hn)
  have e : (g : ℚ) * (p / q) * n = ((g * p * n : ℕ) : ℚ) / q := by push_cast; ring
  rw [← e]
  have hw : (0 : ℚ) ≤ g * (p / q) * n := by positivity
  obtain ⟨c1, c2⟩ := abs_le.1 h4
  obtain ⟨d1, d2⟩ := abs_le.1 h5
  rw [abs_le]
  norm_num at *
  constructor <;> linarith

/-- C132: `min_supp = p / q` and an integer growth rate `g`, all computed in double precision, on less than `2 ^ 50` transactions. If neither fraction is a whole number of transactions, the borders hold exactly the itemsets that occur in a fraction `g * p / q` or more of the
second collection and in less than the fraction `p / q` of the first one. The full statement has no condition; see `emerging_missed`. -/
theorem emerging_exact_partial (ord : Finset α → List α) (ho : OrderOk ord) (g p q : ℕ) (hq : 0 < q) (D1 D2 : List (List α)) (hb1 : p * D1.length < 2 ^ 50) (hb2 : g * p * D2.length < 2 ^ 50) (hd1 : ¬ q ∣ p * D1.length) (hd2 : ¬ q ∣ g * p * D2.length)
    (B : List (List (Finset α) × Finset α)) (h : fitFloat ord (dbl (p / q)) g D1 D2 = .ok B) (Y : Finset α) (hY : Y.Nonempty) :
    (∃ b ∈ B, InBorder b.1 b.2 Y) ↔ AtLeast D2 (g * p) q Y ∧ ¬ AtLeast D1 p q Y := by
  rw [fitFloat_borders ord ho _ _ D1 D2 B h Y hY]
  unfold Frequent AtLeast
  rw [compare_near _ _ q hq hb1 (product_frac p q D1.length) (fun hh => absurd hh hd1), compare_near _ _ q hq hb2 (raised_near g p q D2.length) (fun hh => absurd hh hd2)]
  simp only [hY, true_and]

theorem dbl_tenth : dbl (1 / 10) = 3602879701896397 / 2 ^ 55 := by
  have hlog : Int.log 2 (1 / 10 : ℚ) = -4 := by
    apply le_antisymm
    · have : Int.log 2 (1 / 10 : ℚ) < -3 := by
        rw [← Int.lt_zpow_iff_log_lt (by norm_num) (by norm_num)]
        norm_num
      omega
    · rw [← Int.zpow_le_iff_le_log (by norm_num) (by norm_num)]
      norm_num
  have hu : ulp (1 / 10) = 1 / 2 ^ 56 := by
    unfold ulp
    rw [hlog]
    norm_num
  have hh : halfEven (1 / 10 / ulp (1 / 10)) = 7205759403792794 := by
    apply halfEven_near
    rw [hu, abs_lt]
    norm_num
  unfold dbl
  rw [if_pos (by norm_num), hh, hu]
  norm_num

/-- C132, where the claim holds without condition on the data: the default `min_supp=0.1` and `min_growth_rate=2`, on less than `2 ^ 49` transactions. -/
theorem emerging_default (ord : Finset α → List α) (ho : OrderOk ord) (D1 D2 : List (List α)) (hb1 : D1.length < 2 ^ 49) (hb2 : D2.length < 2 ^ 49) (B : List (List (Finset α) × Finset α)) (h : fitFloat ord (dbl (1 / 10)) 2 D1 D2 = .ok B)
    (Y : Finset α) (hY : Y.Nonempty) : (∃ b ∈ B, InBorder b.1 b.2 Y) ↔ AtLeast D2 2 10 Y ∧ ¬ AtLeast D1 1 10 Y := by
  rw [fitFloat_borders ord ho _ _ D1 D2 B h Y hY]
  unfold Frequent AtLeast
  have h1 : ∀ c : ℕ, dbl (dbl (1 / 10) * D1.length) ≤ c ↔ 1 * D1.length ≤ 10 * c := by
    intro c
    have hp := product_frac 1 10 D1.length
    refine compare_near _ (1 * D1.length) 10 (by norm_num) (by omega) (by exact_mod_cast hp) (fun hdiv => ?_) c
    obtain ⟨k, hk⟩ := hdiv
    rw [one_mul] at *
    rw [hk]
    rcases Nat.eq_zero_or_pos k with rfl | hk0
    · simp [dbl_zero]
    · have hk' : (0 : ℚ) < k := by exact_mod_cast hk0
      have : dbl (dbl (1 / 10) * ((10 * k : ℕ) : ℚ)) = k := by
        refine dbl_near k hk0 (by omega) _ ?_ ?_ <;> rw [dbl_tenth] <;> push_cast <;> norm_num <;> linarith
      rw [this]
      push_cast
      linarith
  have h2 : ∀ c : ℕ, dbl (dbl (2 * dbl (1 / 10)) * D2.length) ≤ c ↔ 2 * D2.length ≤ 10 * c := by
    intro c
    have hp := raised_near 2 1 10 D2.length
    refine compare_near _ (2 * D2.length) 10 (by norm_num) (by omega) (by exact_mod_cast hp) (fun hdiv => ?_) c
    obtain ⟨k, hk⟩ : 5 ∣ D2.length := by omega
    rw [hk]
    have hdd : dbl (2 * dbl (1 / 10)) = 2 * dbl (1 / 10) := by
      have hf := fl_double _ (dbl_isDouble (1 / 10)).double
      unfold fl at hf
      rwa [if_neg (not_lt.2 (mul_nonneg (by norm_num) (dbl_nonneg _)))] at hf
    rw [hdd]
    rcases Nat.eq_zero_or_pos k with rfl | hk0
    · simp [dbl_zero]
    · have hk' : (0 : ℚ) < k := by exact_mod_cast hk0
      have : dbl (2 * dbl (1 / 10) * ((5 * k : ℕ) : ℚ)) = k := by
        refine dbl_near k hk0 (by omega) _ ?_ ?_ <;> rw [dbl_tenth] <;> push_cast <;> norm_num <;> linarith
      rw [this]
      push_cast
      linarith
  rw [h1, h2]
  simp only [hY, true_and]

/-! ### Where it fails -/

theorem dbl_three_tenths : dbl (3 * dbl (1 / 10)) = 5404319552844596 / 2 ^ 54 := by
  rw [dbl_tenth]
  have hlog : Int.log 2 (3 * (3602879701896397 / 2 ^ 55) : ℚ) = -2 := by
    apply le_antisymm
    · have : Int.log 2 (3 * (3602879701896397 / 2 ^ 55) : ℚ) < -1 := by
        rw [← Int.lt_zpow_iff_log_lt (by norm_num) (by norm_num)]
        norm_num
      omega
    · rw [← Int.zpow_le_iff_le_log (by norm_num) (by norm_num)]
      norm_num
  have hu : ulp (3 * (3602879701896397 / 2 ^ 55)) = 1 / 2 ^ 54 := by
    unfold ulp
    rw [hlog]
    norm_num
  have hfl : ⌊(3 * (3602879701896397 / 2 ^ 55) : ℚ) / (1 / 2 ^ 54)⌋ = 5404319552844595 := by
    rw [Int.floor_eq_iff]
    norm_num
  have hh : halfEven (3 * (3602879701896397 / 2 ^ 55) / (1 / 2 ^ 54)) = 5404319552844596 := by
    unfold halfEven
    rw [hfl]
    norm_num
  unfold dbl
  rw [if_pos (by norm_num), hu, hh]
  norm_num

theorem raised_tenths : dbl (dbl (3 * dbl (1 / 10)) * 10) = 3 + 1 / 2 ^ 51 := by
  rw [dbl_three_tenths]
  have hlog : Int.log 2 (5404319552844596 / 2 ^ 54 * 10 : ℚ) = 1 := by
    apply le_antisymm
    · have : Int.log 2 (5404319552844596 / 2 ^ 54 * 10 : ℚ) < 2 := by
        rw [← Int.lt_zpow_iff_log_lt (by norm_num) (by norm_num)]
        norm_num
      omega
    · rw [← Int.zpow_le_iff_le_log (by norm_num) (by norm_num)]
      norm_num
  have hu : ulp (5404319552844596 / 2 ^ 54 * 10) = 1 / 2 ^ 51 := by
    unfold ulp
    rw [hlog]
    norm_num
  have hfl : ⌊(5404319552844596 / 2 ^ 54 * 10 : ℚ) / (1 / 2 ^ 51)⌋ = 6755399441055745 := by
    rw [Int.floor_eq_iff]
    norm_num
  have hh : halfEven (5404319552844596 / 2 ^ 54 * 10 / (1 / 2 ^ 51)) = 6755399441055745 := by
    unfold halfEven
    rw [hfl]
    norm_num
  unfold dbl
  rw [if_pos (by norm_num), hu, hh]
  norm_num

/-- A fit on the first collection `[[2]]` that succeeds. -/
theorem fit_single (g : ℚ) (hg : dbl (g * dbl (1 / 10)) ≤ 1) (D2 : List (List ℕ)) : ∃ B, fitFloat sortSet (dbl (1 / 10)) g [[2]] D2 = .ok B := by
  refine fitFloat_total _ LCM.orderOk_sort _ _ _ _ hg ⟨{2}, by simp, by decide, ?_⟩
  have e : (tidsOf [[2]] ({2} : Finset ℕ)).card = 1 := by decide
  have h := product_frac 1 10 1
  obtain ⟨_, h2⟩ := abs_le.1 h
  have h3 : dbl (dbl (1 / 10) * ([[2]] : List (List ℕ)).length) = dbl (dbl ((1 : ℕ) / (10 : ℕ)) * (1 : ℕ)) := by norm_num
  rw [e, h3]
  norm_num at h2 ⊢
  linarith

/-- C132, witness. `min_supp=0.1` and `min_growth_rate=3`, the first collection `[[2]]`, the second one ten transactions of which three hold item 1. The fit succeeds; `{1}` occurs in three tenths of the second collection and nowhere in the first one, and is in no border. -/
theorem emerging_missed (D2 : List (List ℕ)) (hD2 : D2 = [[1], [1], [1], [0], [0], [0], [0], [0], [0], [0]]) :
    ∃ B, fitFloat sortSet (dbl (1 / 10)) 3 [[2]] D2 = .ok B ∧ AtLeast D2 3 10 {1} ∧ ¬ AtLeast [[2]] 1 10 {1} ∧ ¬ ∃ b ∈ B, InBorder b.1 b.2 ({1} : Finset ℕ) := by
  obtain ⟨B, hB⟩ := fit_single 3 (by rw [dbl_three_tenths]; norm_num) D2
  refine ⟨B, hB, ?_, ?_, ?_⟩
  · subst hD2
    unfold AtLeast; decide
  · unfold AtLeast; decide
  · rw [fitFloat_borders _ LCM.orderOk_sort _ _ _ _ B hB _ (by simp)]
    rintro ⟨⟨_, _, h⟩, _⟩
    subst hD2
    have e : ((tidsOf [[1], [1], [1], [0], [0], [0], [0], [0], [0], [0]] ({1} : Finset ℕ)).card : ℚ) = 3 := by
      have : (tidsOf [[1], [1], [1], [0], [0], [0], [0], [0], [0], [0]] ({1} : Finset ℕ)).card = 3 := by decide
      exact_mod_cast this
    rw [e] at h
    have hl : (([[1], [1], [1], [0], [0], [0], [0], [0], [0], [0]] : List (List ℕ)).length : ℚ) = 10 := by norm_num
    rw [hl, raised_tenths] at h
    norm_num at h

/-- The hypotheses of `emerging_exact_partial` and its two sides: growth rate 3, `min_supp=0.1`, an itemset in two of six transactions. -/
example : ∃ B, fitFloat sortSet (dbl ((1 : ℕ) / (10 : ℕ))) (3 : ℕ) [[2]] [[1, 2], [1], [3], [3], [3], [4]] = .ok B ∧ (∃ b ∈ B, InBorder b.1 b.2 ({1} : Finset ℕ)) ∧ ¬ ∃ b ∈ B, InBorder b.1 b.2 ({4} : Finset ℕ) := by
  obtain ⟨B, hB⟩ := fit_single 3 (by rw [dbl_three_tenths]; norm_num) [[1, 2], [1], [3], [3], [3], [4]]
  have hB' : fitFloat sortSet (dbl ((1 : ℕ) / (10 : ℕ))) (3 : ℕ) [[2]] [[1, 2], [1], [3], [3], [3], [4]] = .ok B := by exact_mod_cast hB
  have h := emerging_exact_partial sortSet LCM.orderOk_sort 3 1 10 (by norm_num) [[2]] [[1, 2], [1], [3], [3], [3], [4]] (by norm_num) (by norm_num) (by decide) (by decide) B hB'
  refine ⟨B, hB', (h {1} (by simp)).2 (by unfold AtLeast; decide), fun h4 => ?_⟩
  exact absurd ((h {4} (by simp)).1 h4) (by unfold AtLeast; decide)

/-- The default parameters: an itemset in exactly a fifth of the transactions is found. -/
example : ∃ B, fitFloat sortSet (dbl (1 / 10)) 2 [[2]] [[1, 2], [3], [3], [4], [4]] = .ok B ∧ ∃ b ∈ B, InBorder b.1 b.2 ({1} : Finset ℕ) := by
  obtain ⟨B, hB⟩ := fit_single 2 (by
    have hf := fl_double _ (dbl_isDouble (1 / 10)).double
    unfold fl at hf
    rw [if_neg (not_lt.2 (mul_nonneg (by norm_num) (dbl_nonneg _)))] at hf
    rw [hf, dbl_tenth]
    norm_num) [[1, 2], [3], [3], [4], [4]]
  exact ⟨B, hB, (emerging_default sortSet LCM.orderOk_sort [[2]] _ (by norm_num) (by norm_num) B hB {1} (by simp)).2 (by unfold AtLeast; decide)⟩

end Verif.Border
