import Verif.TimeScale.Model
import Mathlib.Tactic.Linarith
import Mathlib.Tactic.Ring
import Mathlib.Algebra.Order.Ring.Int
import Mathlib.Tactic.Positivity

/-! # Properties of the automatic time scaling (C33) -/

set_option autoImplicit false

namespace Verif.TimeScale

/-- All timestamps are multiples of `m`. -/
def AllMultiples (m : ℤ) (ts : List ℤ) : Prop := ∀ t ∈ ts, m ∣ t

theorem map_div_mul (ts : List ℤ) (m : ℤ) (h : ∀ t ∈ ts, m ∣ t) : (ts.map (· / m)).map (· * m) = ts := by
  rw [List.map_map]
  conv_rhs => rw [← List.map_id ts]
  apply List.map_congr_left
  intro t ht
  exact Int.ediv_mul_cancel (h t ht)

theorem shiftLoop_spec (k : ℕ) (ts : List ℤ) (n : ℕ) :
    ∃ j, (shiftLoop k ts n).2 = n + j ∧ j ≤ k ∧ (shiftLoop k ts n).1.map (· * 10 ^ j) = ts ∧
      (j < k → ¬ AllMultiples (10 ^ (j + 1)) ts) := by
  induction k generalizing ts n with
  | zero => exact ⟨0, rfl, le_refl _, by simp [shiftLoop], fun h => by omega⟩
  | succ k ih =>
    rw [shiftLoop]
    split
    · next h =>
      have hd : ∀ t ∈ ts, (10 : ℤ) ∣ t := by
        intro t ht
        have := List.all_eq_true.1 h t ht
        exact Int.dvd_of_emod_eq_zero (by simpa using this)
      obtain ⟨j, h1, h2, h3, h4⟩ := ih (ts.map (· / 10)) (n + 1)
      refine ⟨j + 1, by rw [h1]; omega, by omega, ?_, fun hj hm => ?_⟩
      · have e : (fun x : ℤ => x * 10 ^ (j + 1)) = (fun x => x * 10) ∘ (fun x => x * 10 ^ j) := by
          funext x; simp only [Function.comp]; ring
        rw [e, ← List.map_map, h3, map_div_mul ts 10 hd]
      · refine h4 (by omega) (fun t ht => ?_)
        obtain ⟨s, hs, rfl⟩ := List.mem_map.1 ht
        obtain ⟨q, hq⟩ := hm s hs
        refine ⟨q, ?_⟩
        rw [hq, show (10 : ℤ) ^ (j + 1 + 1) * q = (10 ^ (j + 1) * q) * 10 by ring]
        exact Int.mul_ediv_cancel _ (by decide)
    · next h =>
      refine ⟨0, rfl, Nat.zero_le _, by simp, fun _ hm => h ?_⟩
      rw [List.all_eq_true]
      intro t ht
      have := Int.emod_eq_zero_of_dvd (hm t ht)
      simpa using this

theorem shiftUpper_spec (ts : List ℤ) :
    ∃ d : ℕ, (shiftUpper ts).2.1 = d ∧ d ∈ [1, 60, 3600, 86400] ∧ (shiftUpper ts).1.map (· * (d : ℤ)) = ts ∧
      ∀ d' ∈ [1, 60, 3600, 86400], d < d' → ¬ AllMultiples (d' : ℤ) ts := by
  have hall : ∀ m : ℤ, ts.all (fun t => t % m == 0) = true ↔ AllMultiples m ts := by
    intro m
    rw [List.all_eq_true]
    constructor
    · intro h t ht; exact Int.dvd_of_emod_eq_zero (by simpa using h t ht)
    · intro h t ht; simpa using Int.emod_eq_zero_of_dvd (h t ht)
  have hmono : ∀ m m' : ℤ, m ∣ m' → AllMultiples m' ts → AllMultiples m ts := fun m m' hd h t ht => hd.trans (h t ht)
  unfold shiftUpper
  split
  · next h =>
    refine ⟨1, rfl, by decide, map_div_mul ts 1 (fun t _ => one_dvd t), fun d' hd' hlt hm => ?_⟩
    obtain ⟨t, ht, h2⟩ := List.any_eq_true.1 h
    have h60 : (60 : ℤ) ∣ t := by
      have : (60 : ℤ) ∣ (d' : ℤ) := by
        have : ∀ d' ∈ [1, 60, 3600, 86400], 1 < d' → 60 ∣ d' := by decide
        exact Int.natCast_dvd_natCast.2 (this d' hd' hlt)
      exact this.trans (hm t ht)
    rw [Int.emod_eq_zero_of_dvd h60] at h2
    exact absurd h2 (by decide)
  · next h =>
    have h60 : AllMultiples 60 ts := by
      intro t ht
      by_contra hc
      apply h
      rw [List.any_eq_true]
      refine ⟨t, ht, ?_⟩
      simp only [bne_iff_ne, ne_eq]
      exact fun e => hc (Int.dvd_of_emod_eq_zero e)
    split
    · next h1 =>
      refine ⟨86400, rfl, by decide, map_div_mul ts _ ((hall _).1 h1), fun d' hd' hlt => ?_⟩
      exact absurd hlt ((by decide : ∀ d' ∈ [1, 60, 3600, 86400], ¬ 86400 < d') d' hd')
    · next h1 =>
      split
      · next h2 =>
        refine ⟨3600, rfl, by decide, map_div_mul ts _ ((hall _).1 h2), fun d' hd' hlt hm => ?_⟩
        have := (by decide : ∀ d' ∈ [1, 60, 3600, 86400], 3600 < d' → d' = 24 * 3600) d' hd' hlt
        rw [this] at hm
        exact h1 ((hall _).2 hm)
      · next h2 =>
        refine ⟨60, rfl, by decide, map_div_mul ts _ h60, fun d' hd' hlt hm => ?_⟩
        have := (by decide : ∀ d' ∈ [1, 60, 3600, 86400], 60 < d' → 3600 ∣ d') d' hd' hlt
        exact h2 ((hall _).2 (hmono _ _ (Int.natCast_dvd_natCast.2 this) hm))

/-- C33. The timestamps are divided by `10^n * d` with `n ≤ 9` and `d` one of 1, 60, 3600 and 86400, exactly: restoring the converted times
gives back the original list. `n` is the largest number of digits up to 9 that can be removed from all timestamps; `d` is 1 when `n < 9`
and otherwise the largest divisor that applies. -/
theorem autoscale_exact (ts : List ℤ) :
    ∃ (conv : List ℤ) (n d : ℕ) (u : Unit), autoscale ts = (conv, n, d, u) ∧ n ≤ 9 ∧ d ∈ [1, 60, 3600, 86400] ∧ (n < 9 → d = 1) ∧
      conv.map (restore n d) = ts ∧
      (n < 9 → ¬ AllMultiples (10 ^ (n + 1)) ts) ∧
      (n = 9 → ∀ d' ∈ [1, 60, 3600, 86400], d < d' → ¬ AllMultiples (10 ^ 9 * (d' : ℤ)) ts) := by
  obtain ⟨j, h1, h2, h3, h4⟩ := shiftLoop_spec 9 ts 0
  rw [Nat.zero_add] at h1
  change (shiftNano ts).2 = j at h1
  change (shiftNano ts).1.map _ = ts at h3
  unfold autoscale
  simp only
  split
  · next hlt =>
    rw [h1] at hlt ⊢
    refine ⟨_, j, 1, .underSecond, rfl, h2, by decide, fun _ => rfl, ?_, h4, fun h => by omega⟩
    conv_rhs => rw [← h3]
    apply List.map_congr_left
    intro t _
    rw [restore, Nat.cast_one, mul_one]
  · next hlt =>
    have hj : j = 9 := by rw [h1] at hlt; omega
    subst hj
    rw [h1]
    obtain ⟨d, d1, d2, d3, d4⟩ := shiftUpper_spec (shiftNano ts).1
    refine ⟨_, 9, _, _, rfl, le_refl _, by rw [d1]; exact d2, fun h => by omega, ?_, fun h => by omega, fun _ d' hd' hlt hm => ?_⟩
    · rw [d1]
      conv_rhs => rw [← h3, ← d3, List.map_map]
      apply List.map_congr_left
      intro t _
      simp only [restore, Function.comp]
      ring
    · rw [d1] at hlt
      refine d4 d' hd' hlt (fun t ht => ?_)
      have hmem : t * 10 ^ 9 ∈ ts := by
        rw [← h3]; exact List.mem_map_of_mem (f := fun x : ℤ => x * 10 ^ 9) ht
      obtain ⟨q, hq⟩ := hm _ hmem
      refine ⟨q, ?_⟩
      have : (10 : ℤ) ^ 9 ≠ 0 := by decide
      apply mul_right_cancel₀ this
      rw [hq]; ring

/-- Converted times keep the order of the timestamps. -/
theorem autoscale_order (n d : ℕ) (hd : 0 < d) (a b : ℤ) : restore n d a < restore n d b ↔ a < b := by
  unfold restore
  have h : (0 : ℤ) < 10 ^ n * d := by positivity
  rw [mul_assoc, mul_assoc]
  exact ⟨fun hlt => lt_of_mul_lt_mul_right hlt h.le, fun hlt => mul_lt_mul_of_pos_right hlt h⟩

/-- Two hours and minus one day, in nanoseconds: hours. -/
example : autoscale [7200000000000, -86400000000000] = ([2, -24], 9, 3600, .hour) := by decide

/-- A common factor below a second. -/
example : autoscale [1200, 300, 0] = ([12, 3, 0], 2, 1, .underSecond) := by decide

/-- All zero. -/
example : autoscale [0, 0] = ([0, 0], 9, 86400, .day) := by decide

end Verif.TimeScale
