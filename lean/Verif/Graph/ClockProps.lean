import Verif.Graph.ClockModel
import Verif.Graph.SearchProps

/-!
# What GraphMDL reports after a fit, and its timeout: property C137
-/

set_option autoImplicit false
set_option linter.unusedSectionVars false

namespace Verif.Graph

variable {C K : Type} [DecidableEq C] [LinearOrder K]

/-- What is reported belongs together: the description length is that of the table after a cover, and the usages of its rows are those of this cover. -/
structure Consistent (env : SEnv C K) (s : SState C K) : Prop where
  dlen : s.dlen = env.dl s.rows
  usage : ∀ r ∈ s.rows, s.usage r = env.usage s.rows r

theorem consistent_end (env : SEnv C K) (s : SState C K) : Consistent env (searchEnd env s) := by
  refine ⟨rfl, fun r hr => ?_⟩
  have hr : r ∈ s.rows := hr
  show (if r ∈ s.rows then env.usage s.rows r else s.usage r) = _
  rw [if_pos hr]
  rfl

/-- The pruning does not read the clock and tests no candidate. -/
theorem prune_clock {env : SEnv C K} (n i : ℕ) (s s' : SState C K) (hr : pruneLoop env n i s = some (.ok s')) : s'.ticks = s.ticks ∧ s'.timeout = s.timeout ∧ s'.tested = s.tested := by
  induction n generalizing i s s' with
  | zero => cases hr
  | succ n ih =>
    rw [pruneLoop] at hr
    split at hr
    · cases hr; exact ⟨rfl, rfl, rfl⟩
    · rename_i r _
      split at hr
      · cases hr
      · rename_i rows _
        split at hr
        · simp only at hr
          split at hr
          · rename_i s4 h4
            obtain ⟨h1, h2, h3⟩ := ih _ _ _ h4
            obtain ⟨h5, h6, h7⟩ := ih _ _ _ hr
            exact ⟨h5.trans h1, h6.trans h2, h7.trans h3⟩
          · rename_i x hx
            exact absurd hr (hx s')
        · simp only at hr
          have h1 := ih _ _ _ hr
          exact h1

/-- After the loop over the candidates: the timeout flag is kept; either the result is consistent, or it is not the end and the last reading was before the timeout. -/
theorem test_clock {env : SEnv C K} (late : ℕ → Bool) (fuel : ℕ) (cands L : List C) (s s' : SState C K) (b : Bool) (hr : testAll env late fuel cands L s = some (.ok (s', b))) :
    s'.timeout = s.timeout ∧ s.ticks ≤ s'.ticks ∧ (Consistent env s' ∨ (b = false ∧ ((L = [] ∧ s' = s) ∨ (s.ticks < s'.ticks ∧ (s.timeout && late (s'.ticks - 1)) = false)))) := by
  induction L generalizing s with
  | nil =>
    simp only [testAll, Option.some.injEq, Except.ok.injEq, Prod.mk.injEq] at hr
    obtain ⟨rfl, rfl⟩ := hr
    exact ⟨rfl, le_rfl, .inr ⟨rfl, .inl ⟨rfl, rfl⟩⟩⟩
  | cons c t ih =>
    rw [testAll] at hr
    split at hr
    · cases hr
    · split at hr
      · simp only [Option.some.injEq, Except.ok.injEq, Prod.mk.injEq] at hr
        obtain ⟨rfl, rfl⟩ := hr
        exact ⟨rfl, Nat.le_succ _, .inl (consistent_end _ _)⟩
      · rename_i hl
        simp only [Bool.not_eq_true] at hl
        simp only at hr
        split at hr
        · split at hr
          · cases hr
          · cases hr
          · rename_i s3 h3
            simp only [Option.some.injEq, Except.ok.injEq, Prod.mk.injEq] at hr
            obtain ⟨rfl, rfl⟩ := hr
            obtain ⟨h1, h2, _⟩ := prune_clock _ _ _ _ h3
            have h1 : s3.ticks = s.ticks + 1 := h1
            have h2 : s3.timeout = s.timeout := h2
            refine ⟨h2, by omega, .inr ⟨rfl, .inr ⟨by omega, ?_⟩⟩⟩
            rw [h1]; exact hl
        · split at hr
          · cases hr
          · split at hr
            · simp only [Option.some.injEq, Except.ok.injEq, Prod.mk.injEq] at hr
              obtain ⟨rfl, rfl⟩ := hr
              exact ⟨rfl, Nat.le_succ _, .inl (consistent_end _ _)⟩
            · obtain ⟨h1, h2, h3⟩ := ih _ hr
              refine ⟨h1, (Nat.le_succ _).trans h2, ?_⟩
              rcases h3 with h3 | ⟨h3, ⟨_, rfl⟩ | ⟨h4, h5⟩⟩
              · exact .inl h3
              · exact .inr ⟨h3, .inr ⟨Nat.lt_succ_self _, hl⟩⟩
              · exact .inr ⟨h3, .inr ⟨(Nat.lt_succ_self _).trans h4, h5⟩⟩

theorem search_consistent {env : SEnv C K} (clock : ℕ → ℚ) (limit : ℚ) (n : ℕ) (s s' : SState C K) (h : Consistent env s ∨ (s.timeout && decide (limit < lastReading clock s.ticks)) = false)
    (hr : clockSearch env clock limit n s = some (.ok s')) : Consistent env s' := by
  induction n generalizing s with
  | zero => cases hr
  | succ n ih =>
    rw [clockSearch] at hr
    split at hr
    · rename_i h1
      simp only [Option.some.injEq, Except.ok.injEq] at hr
      subst hr
      rcases h with h | h
      · exact h
      · rw [h1] at h; cases h
    · simp only at hr
      split at hr
      · simp only [Option.some.injEq, Except.ok.injEq] at hr
        subst hr
        exact consistent_end _ _
      · split at hr
        · simp only [Option.some.injEq, Except.ok.injEq] at hr
          subst hr
          exact consistent_end _ _
        · rename_i hne
          split at hr
          · cases hr
          · cases hr
          · rename_i s2 h2
            simp only [Option.some.injEq, Except.ok.injEq] at hr
            subst hr
            rcases (test_clock _ _ _ _ _ _ _ h2).2.2 with h3 | ⟨h3, _⟩
            · exact h3
            · cases h3
          · rename_i s2 h2
            refine ih s2 ?_ hr
            obtain ⟨h3, _, h4⟩ := test_clock _ _ _ _ _ _ _ h2
            rcases h4 with h4 | ⟨_, ⟨h4, _⟩ | ⟨h4, h5⟩⟩
            · exact .inl h4
            · exact absurd h4 hne
            · right
              have h3 : s2.timeout = s.timeout := h3
              have h5 : (s.timeout && decide (limit ≤ clock (s2.ticks - 1))) = false := h5
              rw [h3]
              rw [Bool.and_eq_false_iff, decide_eq_false_iff_not] at h5 ⊢
              refine h5.imp_right (fun h5 h6 => h5 ?_)
              unfold lastReading at h6
              rw [if_neg (by omega)] at h6
              exact h6.le

/-- C137, first part: whenever fit returns, whatever the readings of the clock and the earlier fits of the object, the description length reported is that of the final table after a cover of the data, and the usages are those of
this cover. -/
theorem fit_consistent (env : SEnv C K) (clock : ℕ → ℚ) (limit : ℚ) (fuel : ℕ) (timeout : Bool) (s s' : SState C K) (hr : clockFit env clock limit fuel timeout s = some (.ok s')) :
    s'.dlen = env.dl s'.rows ∧ ∀ r ∈ s'.rows, s'.usage r = env.usage s'.rows r := by
  have h := search_consistent clock limit fuel _ _ (.inl ⟨rfl, fun r hr => by cases hr⟩) hr
  exact ⟨h.dlen, h.usage⟩

/-! ## The timeout -/

theorem test_timeout {env : SEnv C K} (late : ℕ → Bool) (k : ℕ) (hk : ∀ j, late j = false → j < k) (fuel : ℕ) (cands L : List C) (s s' : SState C K) (b : Bool) (ht : s.timeout = true) (h1 : s.tested.length ≤ s.ticks) (h2 : s.tested.length ≤ k)
    (hr : testAll env late fuel cands L s = some (.ok (s', b))) : s'.tested.length ≤ s'.ticks ∧ s'.tested.length ≤ k := by
  induction L generalizing s with
  | nil =>
    simp only [testAll, Option.some.injEq, Except.ok.injEq, Prod.mk.injEq] at hr
    obtain ⟨rfl, rfl⟩ := hr
    exact ⟨h1, h2⟩
  | cons c t ih =>
    rw [testAll] at hr
    split at hr
    · cases hr
    · split at hr
      · simp only [Option.some.injEq, Except.ok.injEq, Prod.mk.injEq] at hr
        obtain ⟨rfl, rfl⟩ := hr
        exact ⟨by show s.tested.length ≤ s.ticks + 1; omega, h2⟩
      · rename_i hl
        simp only [ht, Bool.true_and, Bool.not_eq_true] at hl
        have hlt := hk _ hl
        have h3 : (s.tested ++ [c]).length ≤ s.ticks + 1 := by rw [List.length_append, List.length_singleton]; omega
        have h4 : (s.tested ++ [c]).length ≤ k := by omega
        simp only at hr
        split at hr
        · split at hr
          · cases hr
          · cases hr
          · rename_i s3 h5
            simp only [Option.some.injEq, Except.ok.injEq, Prod.mk.injEq] at hr
            obtain ⟨rfl, rfl⟩ := hr
            obtain ⟨h6, _, h7⟩ := prune_clock _ _ _ _ h5
            have h6 : s3.ticks = s.ticks + 1 := h6
            have h7 : s3.tested = s.tested ++ [c] := h7
            rw [h6, h7]
            exact ⟨h3, h4⟩
        · split at hr
          · cases hr
          · split at hr
            · simp only [Option.some.injEq, Except.ok.injEq, Prod.mk.injEq] at hr
              obtain ⟨rfl, rfl⟩ := hr
              exact ⟨h3, h4⟩
            · refine ih _ ?_ ?_ ?_ hr
              · exact ht
              · exact h3
              · exact h4

/-- C137, second part: with a timeout and a clock that does not go back, if the reading number `k` is at or past the timeout, then at most `k` candidates are tested: none after that reading. -/
theorem timeout_obeyed (env : SEnv C K) (clock : ℕ → ℚ) (hclock : Monotone clock) (limit : ℚ) (k : ℕ) (hk : limit ≤ clock k) (fuel : ℕ) (s s' : SState C K) (hr : clockFit env clock limit fuel true s = some (.ok s')) : s'.tested.length ≤ k := by
  have hlate : ∀ j, decide (limit ≤ clock j) = false → j < k := by
    intro j hj
    rw [decide_eq_false_iff_not] at hj
    by_contra hjk
    exact hj (hk.trans (hclock (by omega)))
  have key : ∀ (n : ℕ) (s s' : SState C K), s.timeout = true → s.tested.length ≤ s.ticks → s.tested.length ≤ k → clockSearch env clock limit n s = some (.ok s') → s'.tested.length ≤ k := by
    intro n
    induction n with
    | zero => intro s s' _ _ _ hr; cases hr
    | succ n ih =>
      intro s s' ht h1 h2 hr
      rw [clockSearch] at hr
      split at hr
      · cases hr; exact h2
      · simp only at hr
        split at hr
        · cases hr; exact h2
        · split at hr
          · cases hr; exact h2
          · split at hr
            · cases hr
            · cases hr
            · rename_i s2 h3
              cases hr
              refine (test_timeout _ k hlate _ _ _ _ _ _ ?_ ?_ ?_ h3).2
              · exact ht
              · exact Nat.le_succ_of_le h1
              · exact h2
            · rename_i s2 h3
              have h4 : s2.tested.length ≤ s2.ticks ∧ s2.tested.length ≤ k := by
                refine test_timeout _ k hlate _ _ _ _ _ _ ?_ ?_ ?_ h3
                · exact ht
                · exact Nat.le_succ_of_le h1
                · exact h2
              exact ih s2 s' ((test_clock _ _ _ _ _ _ _ h3).1.trans ht) h4.1 h4.2 hr
  exact key fuel _ _ (by simp [searchInit]) (Nat.zero_le _) (Nat.zero_le _) hr

end Verif.Graph
