import Verif.Mdlp.EntropyModel
import Verif.Mdlp.EntropySpec
import Mathlib.Analysis.SpecialFunctions.Log.NegMulLog
import Mathlib.Analysis.Convex.Deriv

/-! # Lemmas on class entropies (C96) -/

set_option autoImplicit false
set_option linter.unusedSectionVars false

namespace Verif.Mdlp

open FI

/-- `x log x`. -/
noncomputable def xlog (x : ℝ) : ℝ := x * Real.log x

theorem xlog_zero : xlog 0 = 0 := by simp [xlog]

theorem continuous_xlog : Continuous xlog := Real.continuous_mul_log

/-- The difference of two values of `x log x` at distance `u`. -/
noncomputable def gap (u s : ℝ) : ℝ := xlog (s + u) - xlog s

theorem hasDerivAt_gap {u s : ℝ} (hu : 0 ≤ u) (hs : 0 < s) : HasDerivAt (gap u) (Real.log (s + u) - Real.log s) s := by
  have h1 : HasDerivAt (fun x => xlog (x + u)) (Real.log (s + u) + 1) s := by
    have := (Real.hasDerivAt_mul_log (x := s + u) (by positivity)).comp s ((hasDerivAt_id s).add_const u)
    simpa [xlog, Function.comp_def] using this
  have h2 : HasDerivAt xlog (Real.log s + 1) s := Real.hasDerivAt_mul_log hs.ne'
  have := h1.sub h2
  have e : Real.log (s + u) + 1 - (Real.log s + 1) = Real.log (s + u) - Real.log s := by ring
  rw [e] at this
  exact this

theorem continuousOn_gap (u : ℝ) : ContinuousOn (gap u) (Set.Ici 0) :=
  ((continuous_xlog.comp (continuous_id.add continuous_const)).sub continuous_xlog).continuousOn

theorem concaveOn_gap {u : ℝ} (hu : 0 ≤ u) : ConcaveOn ℝ (Set.Ici 0) (gap u) := by
  apply AntitoneOn.concaveOn_of_deriv (convex_Ici 0) (continuousOn_gap u)
  · rw [interior_Ici]
    exact fun s hs => (hasDerivAt_gap hu hs).differentiableAt.differentiableWithinAt
  · rw [interior_Ici]
    intro s hs t ht hst
    rw [(hasDerivAt_gap hu hs).deriv, (hasDerivAt_gap hu ht).deriv]
    have hs' : (0 : ℝ) < s := hs
    have ht' : (0 : ℝ) < t := ht
    rw [← Real.log_div (by positivity) (by positivity), ← Real.log_div (by positivity) (by positivity)]
    apply Real.log_le_log (by positivity)
    rw [div_le_div_iff₀ ht' hs']
    nlinarith

theorem strictMonoOn_gap {u : ℝ} (hu : 0 < u) : StrictMonoOn (gap u) (Set.Ici 0) := by
  apply strictMonoOn_of_deriv_pos (convex_Ici 0) (continuousOn_gap u)
  rw [interior_Ici]
  intro s hs
  have hs' : (0 : ℝ) < s := hs
  rw [(hasDerivAt_gap hu.le hs').deriv]
  have := Real.log_lt_log hs' (show s < s + u by linarith)
  linarith

/-- The second difference of `x log x` decreases. -/
theorem xlog_three {k n : ℕ} (h : k ≤ n) : (xlog n - xlog k) + (xlog (n + 2) - xlog (k + 2)) ≤ 2 * (xlog (n + 1) - xlog (k + 1)) := by
  obtain ⟨u, rfl⟩ := Nat.exists_eq_add_of_le h
  have hc := concaveOn_gap (u := (u : ℝ)) (by positivity)
  have hx : (k : ℝ) ∈ Set.Ici (0 : ℝ) := by simp
  have hy : (k : ℝ) + 2 ∈ Set.Ici (0 : ℝ) := by simp only [Set.mem_Ici]; positivity
  have this := hc.2 hx hy (show (0 : ℝ) ≤ 1 / 2 by norm_num) (show (0 : ℝ) ≤ 1 / 2 by norm_num) (by norm_num)
  have e : (1 / 2 : ℝ) • (k : ℝ) + (1 / 2 : ℝ) • ((k : ℝ) + 2) = k + 1 := by simp only [smul_eq_mul]; ring
  rw [e] at this
  simp only [smul_eq_mul, gap] at this
  push_cast
  have e1 : (k : ℝ) + 1 + u = k + u + 1 := by ring
  have e2 : (k : ℝ) + 2 + u = k + u + 2 := by ring
  rw [e1, e2] at this
  linarith

theorem xlog_step_lt {k n : ℕ} (h : k < n) : xlog (k + 1) - xlog k < xlog (n + 1) - xlog n := by
  obtain ⟨u, rfl⟩ := Nat.exists_eq_add_of_lt h
  have hu : (0 : ℝ) < (u : ℝ) + 1 := by positivity
  have := strictMonoOn_gap hu (a := (k : ℝ)) (by simp) (b := (k : ℝ) + 1) (by simp only [Set.mem_Ici]; positivity) (by linarith)
  simp only [gap] at this
  push_cast
  have e1 : (k : ℝ) + 1 + (u + 1) = k + u + 1 + 1 := by ring
  have e2 : (k : ℝ) + (u + 1) = k + u + 1 := by ring
  rw [e1, e2] at this
  linarith

/-- The entropy of a list of labels times its length, in nats. -/
noncomputable def Hs (S : List ℕ) : ℝ := xlog S.length - ∑ c ∈ S.toFinset, xlog (S.count c)

theorem Hs_nil : Hs [] = 0 := by simp [Hs, xlog_zero]

theorem Hs_cons (c : ℕ) (S : List ℕ) : Hs (c :: S) = Hs S + (xlog ((S.length : ℝ) + 1) - xlog S.length) - (xlog ((S.count c : ℝ) + 1) - xlog (S.count c)) := by
  unfold Hs
  have h1 : ∑ x ∈ S.toFinset, xlog (S.count x) = ∑ x ∈ insert c S.toFinset, xlog (S.count x) := by
    apply Finset.sum_subset (Finset.subset_insert _ _)
    intro x _ hx
    rw [List.mem_toFinset] at hx
    rw [List.count_eq_zero_of_not_mem hx]
    simp [xlog_zero]
  rw [h1, List.toFinset_cons, ← Finset.add_sum_erase _ _ (Finset.mem_insert_self c _), ← Finset.add_sum_erase (insert c S.toFinset) _ (Finset.mem_insert_self c _)]
  have h2 : ∑ x ∈ (insert c S.toFinset).erase c, xlog ((c :: S).count x) = ∑ x ∈ (insert c S.toFinset).erase c, xlog (S.count x) := by
    apply Finset.sum_congr rfl
    intro x hx
    rw [List.count_cons_of_ne (Finset.ne_of_mem_erase hx).symm]
  rw [h2, List.count_cons_self, List.length_cons]
  push_cast
  ring

theorem Hs_perm {S T : List ℕ} (h : S.Perm T) : Hs S = Hs T := by
  unfold Hs
  rw [h.length_eq, List.toFinset_eq_of_perm _ _ h]
  congr 1
  apply Finset.sum_congr rfl
  intro x _
  rw [h.count_eq]

theorem Hs_three (c : ℕ) (S : List ℕ) : Hs S + Hs (c :: c :: S) ≤ 2 * Hs (c :: S) := by
  rw [Hs_cons c (c :: S), Hs_cons c S, List.count_cons_self, List.length_cons]
  have := xlog_three (List.count_le_length (a := c) (l := S))
  push_cast
  have e1 : (S.length : ℝ) + 1 + 1 = S.length + 2 := by ring
  have e2 : (S.count c : ℝ) + 1 + 1 = S.count c + 2 := by ring
  rw [e1, e2]
  linarith

theorem Hs_cons_lt {c d : ℕ} {S : List ℕ} (hd : d ∈ S) (hcd : d ≠ c) : Hs S < Hs (c :: S) := by
  rw [Hs_cons]
  have : S.count c < S.length := by
    rw [List.count_lt_length_iff]
    exact ⟨d, hd, by simpa using hcd⟩
  linarith [xlog_step_lt this]

theorem Hs_cons_le (c : ℕ) (S : List ℕ) : Hs S ≤ Hs (c :: S) := by
  by_cases h : ∃ d ∈ S, d ≠ c
  · obtain ⟨d, h1, h2⟩ := h
    exact (Hs_cons_lt h1 h2).le
  · push Not at h
    rw [Hs_cons]
    have : S.count c = S.length := by rw [List.count_eq_length]; exact fun b hb => (h b hb).symm
    rw [this]
    linarith

theorem Hs_const {c : ℕ} : ∀ {S : List ℕ}, (∀ x ∈ S, x = c) → Hs S = 0
  | [], _ => Hs_nil
  | d :: S, h => by
    have hd : d = c := h d (by simp)
    have hS : ∀ x ∈ S, x = c := fun x hx => h x (by simp [hx])
    rw [hd, Hs_cons, Hs_const hS]
    have : S.count c = S.length := by rw [List.count_eq_length]; exact fun b hb => (hS b hb).symm
    rw [this]
    ring

theorem Hs_nonneg : ∀ (S : List ℕ), 0 ≤ Hs S
  | [] => by rw [Hs_nil]
  | c :: S => (Hs_nonneg S).trans (Hs_cons_le c S)

theorem log_two_pos : 0 < Real.log 2 := Real.log_pos (by norm_num)

theorem Ent_eq (S : List ℕ) : Ent S = Hs S / (S.length * Real.log 2) := by
  rcases eq_or_ne S [] with rfl | hS
  · simp [Ent, Hs_nil]
  have hn : (0 : ℝ) < S.length := by exact_mod_cast List.length_pos_iff.2 hS
  have hl := log_two_pos
  rw [eq_div_iff (by positivity)]
  unfold Ent Hs
  rw [Finset.sum_mul]
  have h1 : ∀ c ∈ S.toFinset, -((S.count c : ℝ) / S.length * Real.logb 2 ((S.count c : ℝ) / S.length)) * (S.length * Real.log 2) = (S.count c : ℝ) * Real.log S.length - xlog (S.count c) := by
    intro c hc
    have hc' : (0 : ℝ) < S.count c := by exact_mod_cast List.count_pos_iff.2 (List.mem_toFinset.1 hc)
    rw [Real.logb, Real.log_div hc'.ne' hn.ne', xlog]
    field_simp
    ring
  rw [Finset.sum_congr rfl h1, Finset.sum_sub_distrib, ← Finset.sum_mul]
  have h2 : ∑ c ∈ S.toFinset, (S.count c : ℝ) = S.length := by
    exact_mod_cast congrArg (Nat.cast (R := ℝ)) (List.sum_toFinset_count_eq_length S)
  rw [h2, xlog]

theorem CutEnt_eq (S T : List ℕ) : CutEnt S T = (Hs S + Hs T) / ((S ++ T).length * Real.log 2) := by
  have key : ∀ U : List ℕ, (U.length : ℝ) / (S ++ T).length * Ent U = Hs U / ((S ++ T).length * Real.log 2) := by
    intro U
    rw [Ent_eq]
    rcases eq_or_ne U [] with rfl | hU
    · simp [Hs_nil]
    have hn : (U.length : ℝ) ≠ 0 := by exact_mod_cast (List.length_pos_iff.2 hU).ne'
    have hl := log_two_pos.ne'
    rcases eq_or_ne ((S ++ T).length : ℝ) 0 with h0 | h0
    · rw [h0]; simp
    · field_simp
  unfold CutEnt
  rw [key, key, add_div]

end Verif.Mdlp
