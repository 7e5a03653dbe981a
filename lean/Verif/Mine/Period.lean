import Verif.Mine.Model
import Verif.Mine.Spec
import Mathlib.Tactic.Ring
import Mathlib.Tactic.Linarith

/-!
# The period of a cycle (C67)
-/

set_option autoImplicit false
set_option linter.unusedSectionVars false

namespace Verif.Mine

theorem sorted_split {s : List ℤ} (hs : s.Pairwise (· ≤ ·)) {i : ℕ} {x : ℤ} (hx : s[i]? = some x) :
    s.countP (· < x) ≤ i ∧ i + 1 ≤ s.countP (· ≤ x) ∧ s.countP (x < ·) ≤ s.length - (i + 1) ∧ s.length - i ≤ s.countP (x ≤ ·) := by
  obtain ⟨hi, e⟩ := List.getElem?_eq_some_iff.1 hx
  have h1 : s = s.take i ++ x :: s.drop (i + 1) := by
    conv_lhs => rw [← List.take_append_drop i s, List.drop_eq_getElem_cons hi, e]
  obtain ⟨A, hA⟩ : ∃ A, A = s.take i := ⟨_, rfl⟩
  obtain ⟨B, hB⟩ : ∃ B, B = s.drop (i + 1) := ⟨_, rfl⟩
  have lA : A.length = i := by rw [hA, List.length_take]; omega
  have lB : B.length = s.length - (i + 1) := by rw [hB, List.length_drop]
  rw [← hA, ← hB] at h1
  rw [h1] at hs
  rw [List.pairwise_append, List.pairwise_cons] at hs
  obtain ⟨_, ⟨hB', _⟩, hAB⟩ := hs
  have hA' : ∀ a ∈ A, a ≤ x := fun a ha => hAB a ha x List.mem_cons_self
  rw [h1]
  simp only [List.countP_append, List.countP_cons, List.length_append, List.length_cons, lA]
  have c1 : B.countP (· < x) = 0 := by
    rw [List.countP_eq_zero]; intro b hb; have := hB' b hb; simp only [decide_eq_true_eq]; omega
  have c2 : A.countP (· ≤ x) = A.length := by
    rw [List.countP_eq_length]; intro a ha; simpa using hA' a ha
  have c3 : A.countP (x < ·) = 0 := by
    rw [List.countP_eq_zero]; intro b hb; have := hA' b hb; simp only [decide_eq_true_eq]; omega
  have c4 : B.countP (x ≤ ·) = B.length := by
    rw [List.countP_eq_length]; intro a ha; simpa using hB' a ha
  have c5 : A.countP (· < x) ≤ A.length := List.countP_le_length
  have c6 : B.countP (x < ·) ≤ B.length := List.countP_le_length
  rw [c1, c2, c3, c4]
  simp only [lt_irrefl, decide_false, Bool.false_eq_true, if_false, le_refl, decide_true, if_true]
  omega

/-- C67. The period is the floor of the mean of the lower and the upper median. -/
theorem periodDiffs_median (ds : List ℤ) (hne : ds ≠ []) :
    ∃ lo hi, LowerMedian ds lo ∧ UpperMedian ds hi ∧ lo ≤ hi ∧ periodDiffs ds = some ((lo + hi) / 2) := by
  obtain ⟨s, hs⟩ : ∃ s, s = ds.insertionSort (· ≤ ·) := ⟨_, rfl⟩
  have hp : s.Perm ds := by rw [hs]; exact List.perm_insertionSort _ _
  have hsort : s.Pairwise (· ≤ ·) := by rw [hs]; exact List.pairwise_insertionSort _ _
  have hl := hp.length_eq
  have hpos : 0 < s.length := by rw [hl]; exact List.length_pos_iff.2 hne
  have key : ∀ i, i < s.length → ∀ x, s[i]? = some x → (2 * i < ds.length → ds.length ≤ 2 * (i + 1) → LowerMedian ds x) ∧ (ds.length ≤ 2 * (ds.length - i) → 2 * (ds.length - (i + 1)) < ds.length → UpperMedian ds x) := by
    intro i hi x hx
    obtain ⟨a, b, c, d⟩ := sorted_split hsort hx
    have hm : x ∈ ds := hp.mem_iff.1 (List.mem_of_getElem? hx)
    rw [hp.countP_eq] at a b c d
    rw [hl] at c d
    exact ⟨fun _ _ => ⟨hm, by omega, by omega⟩, fun _ _ => ⟨hm, by omega, by omega⟩⟩
  by_cases ho : s.length % 2 = 1
  · have hi : s.length / 2 < s.length := by omega
    obtain ⟨x, hx⟩ : ∃ x, s[s.length / 2]? = some x := ⟨_, List.getElem?_eq_getElem hi⟩
    obtain ⟨k1, k2⟩ := key _ hi x hx
    refine ⟨x, x, k1 (by omega) (by omega), k2 (by omega) (by omega), le_refl _, ?_⟩
    unfold periodDiffs
    rw [← hs]
    simp only [if_pos ho, hx, Option.some.injEq]
    omega
  · have hi : s.length / 2 < s.length := by omega
    have hi' : s.length / 2 - 1 < s.length := by omega
    obtain ⟨x, hx⟩ : ∃ x, s[s.length / 2 - 1]? = some x := ⟨_, List.getElem?_eq_getElem hi'⟩
    obtain ⟨y, hy⟩ : ∃ y, s[s.length / 2]? = some y := ⟨_, List.getElem?_eq_getElem hi⟩
    obtain ⟨k1, _⟩ := key _ hi' x hx
    obtain ⟨_, k2⟩ := key _ hi y hy
    refine ⟨x, y, k1 (by omega) (by omega), k2 (by omega) (by omega), ?_, ?_⟩
    · have e1 := List.getElem?_eq_some_iff.1 hx
      have e2 := List.getElem?_eq_some_iff.1 hy
      rw [← e1.2, ← e2.2]
      exact List.pairwise_iff_getElem.1 hsort _ _ e1.1 e2.1 (by omega)
    · unfold periodDiffs
      rw [← hs]
      simp only [if_neg ho, hx, hy]

theorem err_left (ds : List ℤ) (m q : ℤ) (h : q ≤ m) : err ds m + (m - q) * ((ds.countP (m ≤ ·) : ℤ) - (ds.length - ds.countP (m ≤ ·) : ℤ)) ≤ err ds q := by
  induction ds with
  | nil => simp [err]
  | cons d ds ih =>
    simp only [err, List.map_cons, List.sum_cons, List.countP_cons, List.length_cons] at ih ⊢
    by_cases hd : m ≤ d
    · simp only [hd, decide_true, if_true, Nat.cast_add, Nat.cast_one]
      rw [abs_of_nonneg (by omega : 0 ≤ d - m), abs_of_nonneg (by omega : 0 ≤ d - q)]
      have : (m - q) * ((↑(List.countP (fun x ↦ decide (m ≤ x)) ds) + 1 : ℤ) - (↑ds.length + 1 - (↑(List.countP (fun x ↦ decide (m ≤ x)) ds) + 1))) =
        (m - q) * (↑(List.countP (fun x ↦ decide (m ≤ x)) ds) - (↑ds.length - ↑(List.countP (fun x ↦ decide (m ≤ x)) ds))) + (m - q) := by ring
      rw [this]
      linarith
    · simp only [hd, decide_false, Bool.false_eq_true, if_false, Nat.cast_add, Nat.cast_one, Nat.add_zero]
      have h1 : |d - m| ≤ |d - q| + (m - q) := by
        have := abs_add_le (d - q) (q - m)
        rw [show d - q + (q - m) = d - m by ring, abs_of_nonpos (by omega : q - m ≤ 0)] at this
        linarith
      have : (m - q) * ((↑(List.countP (fun x ↦ decide (m ≤ x)) ds) : ℤ) - (↑ds.length + 1 - ↑(List.countP (fun x ↦ decide (m ≤ x)) ds))) =
        (m - q) * (↑(List.countP (fun x ↦ decide (m ≤ x)) ds) - (↑ds.length - ↑(List.countP (fun x ↦ decide (m ≤ x)) ds))) - (m - q) := by ring
      rw [this]
      linarith

theorem err_neg (ds : List ℤ) (q : ℤ) : err (ds.map (fun d => -d)) (-q) = err ds q := by
  unfold err
  rw [List.map_map]
  congr 1
  apply List.map_congr_left
  intro d _
  simp only [Function.comp]
  rw [show -d - -q = -(d - q) by ring, abs_neg]

theorem err_min (ds : List ℤ) (m : ℤ) (h1 : ds.length ≤ 2 * ds.countP (m ≤ ·)) (h2 : ds.length ≤ 2 * ds.countP (· ≤ m)) (q : ℤ) : err ds m ≤ err ds q := by
  have pos : ∀ (l : List ℤ) (m q : ℤ), l.length ≤ 2 * l.countP (m ≤ ·) → q ≤ m → err l m ≤ err l q := by
    intro l m q h hq
    have := err_left l m q hq
    have h3 : (0 : ℤ) ≤ (m - q) * ((l.countP (m ≤ ·) : ℤ) - (l.length - l.countP (m ≤ ·) : ℤ)) := by
      apply mul_nonneg <;> omega
    omega
  rcases le_total q m with hq | hq
  · exact pos ds m q h1 hq
  · rw [← err_neg ds m, ← err_neg ds q]
    refine pos _ _ _ ?_ (by omega)
    rw [List.length_map, List.countP_map]
    refine le_trans h2 (Nat.mul_le_mul_left _ (le_of_eq ?_))
    apply List.countP_congr
    intro d _
    simp

/-- C67. No other integer has a smaller sum of distances to the gaps. -/
theorem period_optimal (ds : List ℤ) (hne : ds ≠ []) : ∃ m, periodDiffs ds = some m ∧ ∀ q, err ds m ≤ err ds q := by
  obtain ⟨lo, hi, ⟨_, _, h1⟩, ⟨_, _, h2⟩, hle, e⟩ := periodDiffs_median ds hne
  refine ⟨_, e, err_min ds _ ?_ ?_⟩
  · refine le_trans h2 (Nat.mul_le_mul_left _ (List.countP_mono_left ?_))
    intro x _ hx
    simp only [decide_eq_true_eq] at hx ⊢
    omega
  · refine le_trans h1 (Nat.mul_le_mul_left _ (List.countP_mono_left ?_))
    intro x _ hx
    simp only [decide_eq_true_eq] at hx ⊢
    omega

theorem diff_eq : ∀ (occs : List ℤ), diff occs = gaps occs
  | [] => rfl
  | [_] => rfl
  | a :: b :: l => by
    rw [diff, diff_eq (b :: l)]
    rfl

/-- C67. The period of at least two occurrences minimises, among integers, the sum of the absolute corrections of the cycle (each correction is a gap minus the period). -/
theorem computePeriod_optimal (occs : List ℤ) (h : 2 ≤ occs.length) :
    ∃ p, computePeriod occs = some p ∧ (∃ lo hi, LowerMedian (gaps occs) lo ∧ UpperMedian (gaps occs) hi ∧ p = (lo + hi) / 2) ∧
      ∀ q, ((Miner.computeE occs p).map (fun e => |e|)).sum ≤ ((Miner.computeE occs q).map (fun e => |e|)).sum := by
  have hne : gaps occs ≠ [] := by
    match occs, h with
    | a :: b :: l, _ => simp [gaps]
  obtain ⟨lo, hi, h1, h2, _, e⟩ := periodDiffs_median _ hne
  obtain ⟨m, e', hm⟩ := period_optimal _ hne
  rw [e] at e'
  obtain rfl := Option.some.inj e'
  refine ⟨_, by rw [computePeriod, diff_eq, e], ⟨lo, hi, h1, h2, rfl⟩, fun q => ?_⟩
  have key : ∀ (q : ℤ) (l : List ℤ), ((Miner.computeE l q).map (fun e => |e|)).sum = err (gaps l) q := by
    intro q l
    induction l with
    | nil => rfl
    | cons a l ih =>
      cases l with
      | nil => rfl
      | cons b l =>
        rw [Miner.computeE, List.map_cons, List.sum_cons, ih]
        simp [err, gaps]
  rw [key, key]
  exact hm q

/-- No period for fewer than two occurrences: the code raises. -/
theorem computePeriod_short (occs : List ℤ) (h : occs.length < 2) : computePeriod occs = none := by
  match occs, h with
  | [], _ => rfl
  | [_], _ => rfl

/-- Gaps 10, 12, 9, 30: the middle two are 10 and 12. -/
example : computePeriod [0, 10, 22, 31, 61] = some 11 ∧ LowerMedian (gaps [0, 10, 22, 31, 61]) 10 ∧ UpperMedian (gaps [0, 10, 22, 31, 61]) 12 := by
  refine ⟨by decide, ⟨by decide, by decide, by decide⟩, by decide, by decide, by decide⟩
/-- Negative gaps are rounded down. -/
example : periodDiffs [-3, -2] = some (-3) := by decide

end Verif.Mine
