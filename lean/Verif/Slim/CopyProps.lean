import Verif.Slim.CopyModel
import Verif.Slim.OrderProps

/-!
# Copies of SLIM objects and the time limit (C159)
-/

set_option autoImplicit false
set_option linter.unusedSectionVars false

namespace Verif.Slim

variable {α κ V : Type*} [LinearOrder α] [LinearOrder κ] [LinearOrder V]

/-! ## Lemmas -/

theorem fitLoop_timeUp (P : Params α κ V) (O O' : Oracle α) (h1 : O.enum = O'.enum) (h2 : O.gain = O'.gain) (h3 : O.choose = O'.choose)
    (n i : ℕ) (st : State α V) (h4 : ∀ j, O.timeUp j = O'.timeUp j) : fitLoop P O n i st = fitLoop P O' n i st := by
  have : O = O' := by
    obtain ⟨a, b, c, d⟩ := O
    obtain ⟨a', b', c', d'⟩ := O'
    simp only at h1 h2 h3 h4
    subst h1 h2 h3
    congr 1
    exact funext h4
  rw [this]

theorem tryCandidates_less (P : Params α κ V) (choose : Finset α → Chooser α) (st st' : State α V) (l : List (Finset α × ℚ))
    (h : tryCandidates P choose st l = some (.ok (some st'))) : st'.size < st.size := by
  induction l with
  | nil => cases h
  | cons c cs ih =>
    unfold tryCandidates at h
    cases hc : evaluate P (choose c.1) st c.1 with
    | none => rw [hc] at h; cases h
    | some r =>
      rw [hc] at h
      cases r with
      | error e => cases h
      | ok r =>
        simp only at h
        split_ifs at h with hlt
        · simp only [Option.some.injEq, Except.ok.injEq] at h
          rw [← h]
          exact hlt
        · exact ih h

theorem fitLoop_size (P : Params α κ V) (O : Oracle α) (n i : ℕ) (st st' : State α V) (h : fitLoop P O n i st = some (.ok st')) : st'.size ≤ st.size := by
  induction n generalizing i st with
  | zero => cases h
  | succ n ih =>
    unfold fitLoop at h
    dsimp only at h
    cases hc : tryCandidates P (O.choose i) st (generateCandidates (O.gain i (O.enum i st.ct)) (O.enum i st.ct) (st.ct.map Prod.fst).toFinset).1 with
    | none => rw [hc] at h; cases h
    | some r =>
      rw [hc] at h
      cases r with
      | error e => cases h
      | ok s =>
        cases s with
        | none => simp only [Option.some.injEq, Except.ok.injEq] at h; rw [h]
        | some s =>
          have hlt := tryCandidates_less P _ _ _ _ hc
          simp only at h
          split_ifs at h
          · simp only [Option.some.injEq, Except.ok.injEq] at h
            rw [← h]; exact hlt.le
          · exact (ih _ _ h).trans hlt.le

/-- The environment is the same; the second time limit strikes in no turn where the first does not. -/
theorem fitLoop_more_time (P : Params α κ V) (O : Oracle α) (up : ℕ → Bool) (hup : ∀ j, up j = true → O.timeUp j = true) (n i : ℕ) (st r r' : State α V)
    (h : fitLoop P O n i st = some (.ok r)) (h' : fitLoop P { O with timeUp := up } n i st = some (.ok r')) : r'.size ≤ r.size := by
  induction n generalizing i st with
  | zero => cases h
  | succ n ih =>
    unfold fitLoop at h h'
    dsimp only at h h'
    cases hc : tryCandidates P (O.choose i) st (generateCandidates (O.gain i (O.enum i st.ct)) (O.enum i st.ct) (st.ct.map Prod.fst).toFinset).1 with
    | none => rw [hc] at h; cases h
    | some q =>
      rw [hc] at h h'
      cases q with
      | error e => cases h
      | ok s =>
        cases s with
        | none =>
          simp only [Option.some.injEq, Except.ok.injEq] at h h'
          rw [← h, ← h']
        | some s =>
          simp only at h h'
          by_cases ht : O.timeUp i = true
          · rw [if_pos ht] at h
            simp only [Option.some.injEq, Except.ok.injEq] at h
            subst h
            by_cases hu : up i = true
            · rw [if_pos hu] at h'
              simp only [Option.some.injEq, Except.ok.injEq] at h'
              rw [h']
            · rw [if_neg hu] at h'
              exact fitLoop_size P _ _ _ _ _ h'
          · rw [if_neg ht] at h
            rw [if_neg (fun hu => ht (hup i hu))] at h'
            exact ih _ _ h h'

/-! ## C159 -/

/-- C159, where it holds: without time limit, or when the fit stays within its limit, a copy fits like the object, whatever the clock shows while
the copy works. -/
theorem copy_fits_alike_partial (a : Args α) (iter : Finset α → List α) (total : Table α → V) (initTotal : Sct α → V) (O : Oracle α)
    (elapsed elapsed' : ℕ → ℚ) (h : a.maxTime = -1 ∨ ∀ i, elapsed i ≤ a.maxTime) (fuel : ℕ) (D : List (List α)) :
    fitArgs a.copy iter total initTotal O elapsed' fuel D = fitArgs a iter total initTotal O elapsed fuel D := by
  unfold fitArgs fitLists fit
  refine fitLoop_timeUp _ (timed a.copy elapsed' O) (timed a elapsed O) rfl rfl rfl fuel 0 _ (fun j => ?_)
  have h1 : (timed a elapsed O).timeUp j = false := by
    apply decide_eq_false
    rintro ⟨h2, h3⟩
    rcases h with h | h
    · exact h2 h
    · exact absurd h3 (not_lt.2 (h j))
  rw [h1]
  have h2 : ¬ ((-1 : ℚ) ≠ -1 ∧ (-1 : ℚ) < elapsed' j) := fun h2 => h2.1 rfl
  exact decide_eq_false h2

/-- C159. The limit only costs compression: what the copy returns is never larger than what the object returns. -/
theorem copy_not_larger (a : Args α) (iter : Finset α → List α) (total : Table α → V) (initTotal : Sct α → V) (O : Oracle α)
    (elapsed elapsed' : ℕ → ℚ) (fuel : ℕ) (D : List (List α)) (st st' : State α V)
    (h : fitArgs a iter total initTotal O elapsed fuel D = some (.ok st))
    (h' : fitArgs a.copy iter total initTotal O elapsed' fuel D = some (.ok st')) : st'.size ≤ st.size := by
  refine fitLoop_more_time _ (timed a elapsed O) (timed a.copy elapsed' O).timeUp (fun j hj => ?_) fuel 0 _ _ _ h h'
  have h1 : (-1 : ℚ) ≠ -1 ∧ (-1 : ℚ) < elapsed' j := of_decide_eq_true hj
  exact absurd rfl h1.1

/-- C159. A longer limit never gives a larger result, on the same clock. -/
theorem more_time_not_larger (a : Args α) (longer : ℚ) (hl : longer = -1 ∨ (a.maxTime ≠ -1 ∧ a.maxTime ≤ longer)) (iter : Finset α → List α)
    (total : Table α → V) (initTotal : Sct α → V) (O : Oracle α) (elapsed : ℕ → ℚ) (fuel : ℕ) (D : List (List α)) (st st' : State α V)
    (h : fitArgs a iter total initTotal O elapsed fuel D = some (.ok st))
    (h' : fitArgs { a with maxTime := longer } iter total initTotal O elapsed fuel D = some (.ok st')) : st'.size ≤ st.size := by
  refine fitLoop_more_time _ (timed a elapsed O) (timed { a with maxTime := longer } elapsed O).timeUp (fun j hj => ?_) fuel 0 _ _ _ h h'
  obtain ⟨h1, h2⟩ : longer ≠ -1 ∧ longer < elapsed j := of_decide_eq_true hj
  rcases hl with hl | ⟨h3, h4⟩
  · exact absurd hl h1
  · exact decide_eq_true ⟨h3, h4.trans_lt h2⟩

/-- C159. The items given to the constructor are known after `fit`, beside those of the data, and the copy knows the same items, whatever the limit and the clocks. -/
theorem copy_knows_items (a : Args α) (iter : Finset α → List α) (total : Table α → V) (initTotal : Sct α → V) (O : Oracle α) (hO : OracleOk O)
    (elapsed elapsed' : ℕ → ℚ) (fuel : ℕ) (D : List (List α)) (st st' : State α V)
    (h : fitArgs a iter total initTotal O elapsed fuel D = some (.ok st))
    (h' : fitArgs a.copy iter total initTotal O elapsed' fuel D = some (.ok st')) (i : α) :
    (i ∈ st.sct.map Prod.fst ↔ i ∈ a.items ∨ ∃ d ∈ D, i ∈ d) ∧ (i ∈ st'.sct.map Prod.fst ↔ i ∈ a.items ∨ ∃ d ∈ D, i ∈ d) := by
  have key : ∀ (b : Args α) (el : ℕ → ℚ) (s : State α V), fitArgs b iter total initTotal O el fuel D = some (.ok s) →
      (i ∈ s.sct.map Prod.fst ↔ i ∈ b.items ∨ ∃ d ∈ D, i ∈ d) := by
    intro b el s hs
    obtain ⟨st0, h1, h2⟩ := fit_result _ (timed b el O) ⟨hO.1, hO.2⟩ b.items D fuel _ hs
    simp only [Except.ok.injEq] at h1
    subst h1
    rw [h2.sct, (reach_inv b.items D _ (Reach.prefit _)).2.1 i]
    constructor
    · rintro (⟨t, d, hd, hi⟩ | hi)
      · exact .inr ⟨d, List.mem_of_getElem? hd, hi⟩
      · exact .inl hi
    · rintro (hi | ⟨d, hd, hi⟩)
      · exact .inr hi
      · obtain ⟨t, ht⟩ := List.getElem?_of_mem hd
        exact .inl ⟨t, d, ht, hi⟩
  exact ⟨key a elapsed st h, key a.copy elapsed' st' h'⟩

/-- C159 fails: the object has a limit of one second and stops after its first turn; its copy, on the same clock, goes on. -/
theorem copy_loses_limit :
    let a : Args ℕ := { maxTime := 1 }
    let D := [[1, 2, 3], [1, 2, 3], [1, 2, 3], [4]]
    let S := exS2 true
    let clock : ℕ → ℚ := fun i => 2 * (i + 1)
    (fitArgs a S.iter S.total S.initTotal exO3 clock 9 D).map (Except.map (fun st => (showTable st.ct, st.size))) =
      some (.ok ([([1, 2], [0, 1, 2]), ([1], []), ([2], []), ([3], [0, 1, 2]), ([4], [3])], 7)) ∧
    (fitArgs a.copy S.iter S.total S.initTotal exO3 clock 9 D).map (Except.map (fun st => (showTable st.ct, st.size))) =
      some (.ok ([([1, 2, 3], [0, 1, 2]), ([1], []), ([2], []), ([3], []), ([4], [3])], 4)) :=
  ⟨by decide +kernel, by decide +kernel⟩

/-- The hypotheses of `copy_fits_alike_partial` and `more_time_not_larger` are met. -/
example : (∀ i : ℕ, (fun _ => 1 / 2 : ℕ → ℚ) i ≤ ({ maxTime := 1 } : Args ℕ).maxTime) ∧
    (({ maxTime := 1 } : Args ℕ).maxTime ≠ -1 ∧ ({ maxTime := 1 } : Args ℕ).maxTime ≤ 3) := by
  refine ⟨fun _ => ?_, ?_, ?_⟩ <;> norm_num

/-- The hypotheses of `copy_knows_items` are met for every environment, here with an item that the data do not have: with enough turns both fits end. -/
example (O : Oracle ℕ) (hO : OracleOk O) (clock : ℕ → ℚ) : ∃ fuel st st', fitArgs { maxTime := 1, items := [9] } (exS2 true).iter (exS2 true).total (exS2 true).initTotal O clock fuel [[1, 2], [1, 2]] = some (.ok st) ∧
    fitArgs (Args.copy { maxTime := 1, items := [9] }) (exS2 true).iter (exS2 true).total (exS2 true).initTotal O clock fuel [[1, 2], [1, 2]] = some (.ok st') ∧ 9 ∈ st.sct.map Prod.fst ∧ 9 ∈ st'.sct.map Prod.fst := by
  obtain ⟨n, st, h1, -⟩ := fit_inv ((⟨[9], true, (exS2 true).iter, (exS2 true).total, (exS2 true).initTotal⟩ : Settings ℕ ℕ).params (sctOf [9] [[1, 2], [1, 2]]) []) (timed { maxTime := 1, items := [9] } clock O) ⟨hO.1, hO.2⟩ [9] [[1, 2], [1, 2]]
  obtain ⟨m, st', h2, -⟩ := fit_inv ((⟨[9], true, (exS2 true).iter, (exS2 true).total, (exS2 true).initTotal⟩ : Settings ℕ ℕ).params (sctOf [9] [[1, 2], [1, 2]]) []) (timed (Args.copy { maxTime := 1, items := [9] }) clock O) ⟨hO.1, hO.2⟩ [9] [[1, 2], [1, 2]]
  have k1 := fitLoop_mono _ _ n (max n m) 0 _ _ h1 (le_max_left _ _)
  have k2 := fitLoop_mono _ _ m (max n m) 0 _ _ h2 (le_max_right _ _)
  have k := copy_knows_items { maxTime := 1, items := [9] } (exS2 true).iter (exS2 true).total (exS2 true).initTotal O hO clock clock (max n m) [[1, 2], [1, 2]] st st' k1 k2 9
  exact ⟨max n m, st, st', k1, k2, k.1.2 (.inl (by simp)), k.2.2 (.inl (by simp))⟩

end Verif.Slim
