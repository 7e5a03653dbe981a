import Verif.Mine.FloatModel
import Verif.Mine.Period
import Verif.Float.Props
import Verif.MinSupp.DefaultProps
import Mathlib.Algebra.Order.Floor.Ring
import Mathlib.Tactic.NormNum

/-!
# The period of a cycle in floating point: property C142
-/

set_option autoImplicit false
set_option linter.unusedSectionVars false

namespace Verif.Mine

open Verif.Float

/-- The middle of two doubles, in doubles, is between them. -/
theorem mid_between (a b : ℚ) (ha : IsDouble a) (hb : IsDouble b) (h : a ≤ b) : a ≤ fl (fl (a + b) / 2) ∧ fl (fl (a + b) / 2) ≤ b := by
  have h1 : 2 * a ≤ fl (a + b) := by
    rw [← fl_double _ ha.double]; exact fl_mono (by linarith)
  have h2 : fl (a + b) ≤ 2 * b := by
    rw [← fl_double _ hb.double]; exact fl_mono (by linarith)
  have e : fl (fl (a + b) / 2) = fl (a + b) / 2 := fl_double _ (fl_spec _).1.half
  rw [e]
  constructor <;> linarith

/-- The period in doubles is between the rounded medians, rounded down. -/
theorem periodFloat_between (ds : List ℤ) (hne : ds ≠ []) : ∃ lo hi m, LowerMedian ds lo ∧ UpperMedian ds hi ∧ lo ≤ hi ∧ periodDiffs ds = some ((lo + hi) / 2) ∧ periodFloat ds = some m ∧
    (⌊fl lo⌋ ≤ m ∧ m ≤ ⌊fl hi⌋) ∧ m = ⌊fl (fl (fl lo + fl hi) / 2)⌋ := by
  obtain ⟨s, hs⟩ : ∃ s, s = ds.insertionSort (· ≤ ·) := ⟨_, rfl⟩
  have hp : s.Perm ds := by rw [hs]; exact List.perm_insertionSort _ _
  have hsort : s.Pairwise (· ≤ ·) := by rw [hs]; exact List.pairwise_insertionSort _ _
  have hl := hp.length_eq
  have hpos : 0 < s.length := by rw [hl]; exact List.length_pos_iff.2 hne
  have key : ∀ i, i < s.length → ∀ x, s[i]? = some x → (2 * i < ds.length → ds.length ≤ 2 * (i + 1) → LowerMedian ds x) ∧ (ds.length ≤ 2 * (ds.length - i) → 2 * (ds.length - (i + 1)) < ds.length → UpperMedian ds x) := by
    intro i hi x hx
    obtain ⟨a, b, c, d⟩ := sorted_split hsort hx
    have hm : x ∈ ds := hp.mem_iff.1 (List.mem_of_getElem? hx)
    rw [hp.countP_eq] at a b c d
    rw [hl] at c d
    exact ⟨fun _ _ => ⟨hm, by omega, by omega⟩, fun _ _ => ⟨hm, by omega, by omega⟩⟩
  by_cases ho : s.length % 2 = 1
  · have hi : s.length / 2 < s.length := by omega
    obtain ⟨x, hx⟩ : ∃ x, s[s.length / 2]? = some x := ⟨_, List.getElem?_eq_getElem hi⟩
    obtain ⟨k1, k2⟩ := key _ hi x hx
    have hd := (fl_spec (x : ℚ)).1
    have hm : fl (fl (fl (x : ℚ) + fl x) / 2) = fl x := le_antisymm (mid_between _ _ hd hd le_rfl).2 (mid_between _ _ hd hd le_rfl).1
    refine ⟨x, x, ⌊fl x⌋, k1 (by omega) (by omega), k2 (by omega) (by omega), le_refl _, ?_, ?_, ⟨le_rfl, le_rfl⟩, by rw [hm]⟩
    · unfold periodDiffs
      rw [← hs]
      simp only [if_pos ho, hx, Option.some.injEq]
      omega
    · unfold periodFloat
      rw [← hs]
      simp only [if_pos ho, hx, Option.map_some]
  · have hi : s.length / 2 < s.length := by omega
    have hi' : s.length / 2 - 1 < s.length := by omega
    obtain ⟨x, hx⟩ : ∃ x, s[s.length / 2 - 1]? = some x := ⟨_, List.getElem?_eq_getElem hi'⟩
    obtain ⟨y, hy⟩ : ∃ y, s[s.length / 2]? = some y := ⟨_, List.getElem?_eq_getElem hi⟩
    obtain ⟨k1, _⟩ := key _ hi' x hx
    obtain ⟨_, k2⟩ := key _ hi y hy
    have hxy : x ≤ y := by
      have e1 := List.getElem?_eq_some_iff.1 hx
      have e2 := List.getElem?_eq_some_iff.1 hy
      rw [← e1.2, ← e2.2]
      exact List.pairwise_iff_getElem.1 hsort _ _ e1.1 e2.1 (by omega)
    have hb := mid_between (fl x) (fl y) (fl_spec _).1 (fl_spec _).1 (fl_mono (by exact_mod_cast hxy))
    refine ⟨x, y, ⌊fl (fl (fl x + fl y) / 2)⌋, k1 (by omega) (by omega), k2 (by omega) (by omega), hxy, ?_, ?_, ⟨Int.floor_le_floor hb.1, Int.floor_le_floor hb.2⟩, rfl⟩
    · unfold periodDiffs
      rw [← hs]
      simp only [if_neg ho, hx, hy]
    · unfold periodFloat
      rw [← hs]
      simp only [if_neg ho, hx, hy]

theorem median_mem {ds : List ℤ} {lo hi : ℤ} (h1 : LowerMedian ds lo) (h2 : UpperMedian ds hi) : lo ∈ ds ∧ hi ∈ ds := ⟨h1.1, h2.1⟩

/-- Everything between the medians is optimal. -/
theorem between_optimal {ds : List ℤ} {lo hi m : ℤ} (h1 : LowerMedian ds lo) (h2 : UpperMedian ds hi) (hl : lo ≤ m) (hh : m ≤ hi) (q : ℤ) : err ds m ≤ err ds q := by
  refine err_min ds m ?_ ?_ q
  · refine le_trans h2.2.2 (Nat.mul_le_mul_left _ (List.countP_mono_left ?_))
    intro x _ hx
    simp only [decide_eq_true_eq] at hx ⊢
    omega
  · refine le_trans h1.2.2 (Nat.mul_le_mul_left _ (List.countP_mono_left ?_))
    intro x _ hx
    simp only [decide_eq_true_eq] at hx ⊢
    omega

/-- C142. When every gap is a double, in particular when no gap exceeds `2 ^ 53`, no other integer has a smaller sum of distances to the gaps. -/
theorem period_doubles (ds : List ℤ) (hne : ds ≠ []) (hd : ∀ d ∈ ds, IsDouble d) : ∃ m, periodFloat ds = some m ∧ ∀ q, err ds m ≤ err ds q := by
  obtain ⟨lo, hi, m, h1, h2, _, _, h4, ⟨h5, h6⟩, _⟩ := periodFloat_between ds hne
  rw [fl_double _ (hd lo h1.1), Int.floor_intCast] at h5
  rw [fl_double _ (hd hi h2.1), Int.floor_intCast] at h6
  exact ⟨m, h4, between_optimal h1 h2 h5 h6⟩

/-- C142. Below `2 ^ 52` the period is that of exact arithmetic. -/
theorem period_exact (ds : List ℤ) (hd : ∀ d ∈ ds, |d| ≤ 2 ^ 52) : periodFloat ds = periodDiffs ds := by
  rcases eq_or_ne ds [] with rfl | hne
  · rfl
  obtain ⟨lo, hi, m, h1, h2, _, h3, h4, _, h7⟩ := periodFloat_between ds hne
  have a1 := hd lo h1.1
  have a2 := hd hi h2.1
  have hsum : IsDouble ((lo : ℚ) + hi) := by
    have := isDouble_int (lo + hi) (by rw [abs_le] at *; omega)
    push_cast at this
    exact this
  rw [fl_double _ (isDouble_int lo (a1.trans (by norm_num))), fl_double _ (isDouble_int hi (a2.trans (by norm_num))), fl_double _ hsum, fl_double _ hsum.half] at h7
  rw [h3, h4, h7]
  have e : ((lo : ℚ) + hi) / 2 = ((lo + hi : ℤ) : ℚ) / ((2 : ℕ) : ℚ) := by push_cast; ring
  rw [e, Rat.floor_intCast_div_natCast]
  rfl

theorem fl_near (x : ℚ) : |fl x - x| ≤ |x| / 2 ^ 53 := by
  unfold fl
  split
  · rename_i h
    have := MinSupp.dbl_near_self (-x) (by linarith)
    rw [abs_of_neg h]
    have e : -MinSupp.dbl (-x) - x = -(MinSupp.dbl (-x) - -x) := by ring
    rw [e, abs_neg]
    linarith
  · rename_i h
    have := MinSupp.dbl_near_self x (not_lt.1 h)
    rw [abs_of_nonneg (not_lt.1 h)]
    linarith

theorem err_lip (ds : List ℤ) (p m : ℤ) : err ds p ≤ err ds m + ds.length * |p - m| := by
  induction ds with
  | nil => simp [err]
  | cons d ds ih =>
    simp only [err, List.map_cons, List.sum_cons, List.length_cons] at ih ⊢
    have h1 : |d - p| ≤ |d - m| + |p - m| := by
      have := abs_sub_le d m p
      rwa [abs_sub_comm m p] at this
    push_cast
    linarith

/-- C142, gaps of any size: with all gaps at most `B`, the sum of the corrections exceeds the least possible by at most `B / 2 ^ 53 + 1` for each gap. -/
theorem period_near (ds : List ℤ) (hne : ds ≠ []) (B : ℤ) (hB : ∀ d ∈ ds, |d| ≤ B) : ∃ m, periodFloat ds = some m ∧ ∀ q, (err ds m : ℚ) ≤ err ds q + ds.length * (B / 2 ^ 53 + 1) := by
  obtain ⟨lo, hi, m, h1, h2, h0, _, h4, ⟨h5, h6⟩, _⟩ := periodFloat_between ds hne
  refine ⟨m, h4, fun q => ?_⟩
  obtain ⟨c, hc⟩ : ∃ c, c = max lo (min m hi) := ⟨_, rfl⟩
  have hc1 : lo ≤ c := by rw [hc]; exact le_max_left _ _
  have hc2 : c ≤ hi := by rw [hc]; exact max_le h0 (min_le_right _ _)
  have hopt := between_optimal h1 h2 hc1 hc2 q
  have hlip := err_lip ds m c
  have hbound : ((|m - c| : ℤ) : ℚ) ≤ B / 2 ^ 53 + 1 := by
    have hBlo : |(lo : ℚ)| ≤ B := by exact_mod_cast hB lo h1.1
    have hBhi : |(hi : ℚ)| ≤ B := by exact_mod_cast hB hi h2.1
    have n1 := abs_le.1 ((fl_near lo).trans (div_le_div_of_nonneg_right hBlo (by norm_num)))
    have n2 := abs_le.1 ((fl_near hi).trans (div_le_div_of_nonneg_right hBhi (by norm_num)))
    have hB0 : (0 : ℚ) ≤ B / 2 ^ 53 := div_nonneg ((abs_nonneg _).trans hBlo) (by norm_num)
    have f1 : fl (lo : ℚ) < m + 1 := by
      have := Int.lt_floor_add_one (fl (lo : ℚ))
      have h5' : ((⌊fl (lo : ℚ)⌋ : ℤ) : ℚ) ≤ m := by exact_mod_cast h5
      linarith
    have f2 : (m : ℚ) ≤ fl (hi : ℚ) := by
      have := Int.floor_le (fl (hi : ℚ))
      have h6' : (m : ℚ) ≤ ((⌊fl (hi : ℚ)⌋ : ℤ) : ℚ) := by exact_mod_cast h6
      linarith
    push_cast
    rw [abs_le]
    rcases le_total m lo with hml | hml
    · have e : c = lo := by rw [hc, min_eq_left (hml.trans h0), max_eq_left hml]
      rw [e]
      have : (m : ℚ) ≤ lo := by exact_mod_cast hml
      constructor <;> linarith [n1.1]
    · rcases le_total m hi with hmh | hmh
      · have e : c = m := by rw [hc, min_eq_left hmh, max_eq_right hml]
        rw [e]
        constructor <;> linarith
      · have e : c = hi := by rw [hc, min_eq_right hmh, max_eq_right h0]
        rw [e]
        have : (hi : ℚ) ≤ m := by exact_mod_cast hmh
        constructor <;> linarith [n2.2]
  have hl' : (err ds m : ℚ) ≤ err ds c + ds.length * ((|m - c| : ℤ) : ℚ) := by exact_mod_cast hlip
  have ho' : (err ds c : ℚ) ≤ err ds q := by exact_mod_cast hopt
  have := mul_le_mul_of_nonneg_left hbound (Nat.cast_nonneg (α := ℚ) ds.length)
  linarith

/-- C142, in terms of a cycle. When no two consecutive occurrences are more than `2 ^ 53` apart, the period minimises, among integers, the sum of the absolute corrections. -/
theorem computePeriod_double_partial (occs : List ℤ) (h : 2 ≤ occs.length) (hd : ∀ d ∈ gaps occs, |d| ≤ 2 ^ 53) :
    ∃ p, computePeriodFloat occs = some p ∧ ∀ q, ((Miner.computeE occs p).map (fun e => |e|)).sum ≤ ((Miner.computeE occs q).map (fun e => |e|)).sum := by
  have hne : gaps occs ≠ [] := by
    match occs, h with
    | a :: b :: l, _ => simp [gaps]
  obtain ⟨m, e, hm⟩ := period_doubles _ hne (fun d hd' => isDouble_int d (hd d hd'))
  refine ⟨m, by rw [computePeriodFloat, diff_eq, e], fun q => ?_⟩
  have key : ∀ (q : ℤ) (l : List ℤ), ((Miner.computeE l q).map (fun e => |e|)).sum = err (gaps l) q := by
    intro q l
    induction l with
    | nil => rfl
    | cons a l ih =>
      cases l with
      | nil => rfl
      | cons b l =>
        rw [Miner.computeE, List.map_cons, List.sum_cons, ih]
        simp [err, gaps]
  rw [key, key]
  exact hm q

/-- C142 fails for longer gaps: four occurrences, each `2 ^ 53 + 1` after the one before (104 days, in nanoseconds). The period is one less, and all three corrections are 1 where 0 would do. -/
theorem period_off : let occs := [0, 2 ^ 53 + 1, 2 * (2 ^ 53 + 1), 3 * (2 ^ 53 + 1)]
    computePeriodFloat occs = some (2 ^ 53) ∧ Miner.computeE occs (2 ^ 53) = [1, 1, 1] ∧ Miner.computeE occs (2 ^ 53 + 1) = [0, 0, 0] := by
  decide +kernel

/-- Gaps 10, 13, 9, 30. -/
example : computePeriodFloat [0, 10, 23, 32, 62] = some 11 ∧ ∀ d ∈ gaps [0, 10, 23, 32, 62], |d| ≤ 2 ^ 53 := by
  decide +kernel

end Verif.Mine
