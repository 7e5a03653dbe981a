import Verif.Graph.ClockProps
import Verif.Graph.EndProps

/-!
# The search of GraphMDL with the readings of its clock: it improves and it ends
-/

set_option autoImplicit false
set_option linter.unusedSectionVars false

namespace Verif.Graph

section

variable {C K κ : Type} [DecidableEq C] [LinearOrder K] [DecidableEq κ]

theorem sInv_clock {env : SEnv C K} (clock : ℕ → ℚ) (limit : ℚ) (ht : TieFree env) (n : ℕ) (s s' : SState C K) (h : SInv env s) (hr : clockSearch env clock limit n s = some (.ok s')) : SInv env s' := by
  induction n generalizing s with
  | zero => cases hr
  | succ n ih =>
    rw [clockSearch] at hr
    split at hr
    · rw [← Except.ok.inj (Option.some.inj hr)]; exact h
    · simp only at hr
      split at hr
      · rw [← Except.ok.inj (Option.some.inj hr)]
        exact sInv_end ⟨h.sorted, h.dec, h.dl, h.used⟩ ht
      · split at hr
        · rw [← Except.ok.inj (Option.some.inj hr)]
          exact sInv_end ⟨h.sorted, h.dec, h.dl, h.used⟩ ht
        · split at hr
          · cases hr
          · cases hr
          · rename_i s2 h2
            rw [← Except.ok.inj (Option.some.inj hr)]
            refine sInv_test _ n ht _ _ _ _ _ ?_ h2
            exact ⟨h.sorted, h.dec, h.dl, h.used⟩
          · rename_i s2 h2
            refine ih _ (sInv_test _ n ht _ _ _ _ _ ?_ h2) hr
            exact ⟨h.sorted, h.dec, h.dl, h.used⟩

/-- C137, third part: if the description length does not depend on the order of rows that compare as equal, then a fit that returns, by its timeout or not, reports a length at most that of the table without patterns, and strictly below
when a pattern is in the table. -/
theorem clock_improves (env : SEnv C K) (ht : TieFree env) (clock : ℕ → ℚ) (limit : ℚ) (fuel : ℕ) (timeout : Bool) (s s' : SState C K) (hr : clockFit env clock limit fuel timeout s = some (.ok s')) :
    s'.dlen ≤ env.dl [] ∧ (s'.rows ≠ [] → s'.dlen < env.dl []) := by
  have h0 : SInv env (searchInit env timeout s) := by
    refine ⟨List.Pairwise.nil, ⟨?_, rfl⟩, fun _ => rfl, fun h => absurd rfl h⟩
    exact List.pairwise_singleton _ _
  have h := sInv_clock clock limit ht fuel _ _ h0 hr
  exact ⟨h.dec.le.1, fun hne => h.dec.le.2 (h.used hne)⟩

theorem clockSearch_mono (env : SEnv C K) (clock : ℕ → ℚ) (limit : ℚ) (n k : ℕ) (s : SState C K) (x : Except String (SState C K)) (h : clockSearch env clock limit n s = some x) : clockSearch env clock limit (n + k) s = some x := by
  induction n generalizing s with
  | zero => cases h
  | succ n ih =>
    rw [show n + 1 + k = (n + k) + 1 by omega]
    rw [clockSearch] at h ⊢
    by_cases h1 : (s.timeout && decide (limit < lastReading clock s.ticks)) = true
    · rw [if_pos h1] at h ⊢; exact h
    · rw [if_neg h1] at h ⊢
      simp only at h ⊢
      by_cases h2 : (s.timeout && decide (limit ≤ clock s.ticks)) = true
      · rw [if_pos h2] at h ⊢; exact h
      · rw [if_neg h2] at h ⊢
        by_cases h3 : env.gen s = []
        · rw [if_pos h3] at h ⊢; exact h
        · rw [if_neg h3] at h ⊢
          cases hT : testAll env (fun k => decide (limit ≤ clock k)) n (env.gen s) (env.gen s) { s with ticks := s.ticks + 1 } with
          | none => rw [hT] at h; cases h
          | some y =>
            rw [testAll_mono _ _ _ _ _ _ _ _ hT]
            rw [hT] at h
            rcases y with e | ⟨s2, b⟩
            · exact h
            · cases b with
              | true => exact h
              | false => exact ih _ h

theorem clockSearch_ends {env : SEnv C K} {key : C → κ} {P : C → Prop} {D : Finset K} (hn : Narrow env key P D) (clock : ℕ → ℚ) (hclock : Monotone clock) (limit : ℚ) (s : SState C K) (h : NInv P D s) :
    ∃ n x, clockSearch env clock limit n s = some x := by
  obtain ⟨U, hU⟩ := hn.keys D.card
  obtain ⟨b, hb⟩ : ∃ b, below D s.dlen = b := ⟨_, rfl⟩
  obtain ⟨m, hm⟩ : ∃ m, untested key U s = m := ⟨_, rfl⟩
  induction b using Nat.strong_induction_on generalizing m s with
  | _ b ihb =>
    induction m using Nat.strong_induction_on generalizing s with
    | _ m ihm =>
      by_cases h1 : (s.timeout && decide (limit < lastReading clock s.ticks)) = true
      · exact ⟨1, .ok s, by rw [clockSearch, if_pos h1]⟩
      · by_cases h2 : (s.timeout && decide (limit ≤ clock s.ticks)) = true
        · exact ⟨1, .ok (searchEnd env { s with ticks := s.ticks + 1 }), by rw [clockSearch, if_neg h1]; simp only; rw [if_pos h2]⟩
        · by_cases h3 : env.gen s = []
          · exact ⟨1, .ok (searchEnd env { s with ticks := s.ticks + 1 }), by rw [clockSearch, if_neg h1]; simp only; rw [if_neg h2, if_pos h3]⟩
          · obtain ⟨n, x, hx, hprog⟩ := test_ends hn (fun k => decide (limit ≤ clock k)) (env.gen s) (env.gen s) U { s with ticks := s.ticks + 1 } ⟨h.rows, h.few, h.dlen⟩
              (fun c hc => ⟨hn.gen s h.rows c hc, hU s h.rows h.length_le c hc⟩)
            rcases x with e | ⟨s2, b2⟩
            · exact ⟨n + 1, .error e, by rw [clockSearch, if_neg h1]; simp only; rw [if_neg h2, if_neg h3, hx]⟩
            · cases b2 with
              | true => exact ⟨n + 1, .ok s2, by rw [clockSearch, if_neg h1]; simp only; rw [if_neg h2, if_neg h3, hx]⟩
              | false =>
                have hnext : ∃ k y, clockSearch env clock limit k s2 = some y := by
                  rcases (hprog s2 rfl h3).cases with ⟨ht, h0, hl⟩ | ⟨hI, hl | ⟨hl1, hl2⟩⟩
                  · have hl := of_decide_eq_true hl
                    by_cases h5 : limit < lastReading clock s2.ticks
                    · exact ⟨1, .ok s2, by rw [clockSearch, ht, decide_eq_true h5]; rfl⟩
                    · have h6 : limit ≤ clock s2.ticks := hl.trans (hclock (Nat.sub_le _ _))
                      refine ⟨1, .ok (searchEnd env { s2 with ticks := s2.ticks + 1 }), ?_⟩
                      rw [clockSearch, if_neg (by simp [h5])]
                      simp only
                      rw [if_pos (by simp [ht, h6])]
                  · exact ihb _ (hb ▸ below_lt hI.dlen hl) s2 hI rfl _ rfl
                  · refine ihm _ ?_ s2 hI ?_ rfl
                    · rw [← hm]; exact hl2
                    · rw [hl1]; exact hb
                obtain ⟨k, y, hy⟩ := hnext
                refine ⟨n + k + 1, y, ?_⟩
                rw [clockSearch, if_neg h1]
                simp only
                rw [if_neg h2, if_neg h3, testAll_mono _ _ _ k _ _ _ _ hx]
                simp only
                rw [Nat.add_comm n k]
                exact clockSearch_mono _ _ _ _ _ _ _ hy

end

variable {σ : Type} [DecidableEq σ]

/-- C137, fourth part: with a clock that does not go back `fit` ends, it returns or raises, with or without a timeout, on the data graphs of `fit_ends`. -/
theorem clock_ends (blank : σ → Bool) (t : LabelTable σ) (nm : Names σ) (d : LGraph σ) (hd : StringData d) (emb : LGraph σ → List Embedding) (hemb : ∀ p, RowFor d p ⟨p.view, emb p, []⟩)
    (env : SEnv (Tried σ) ℝ) (henv : RealSearch blank t nm emb d env) (clock : ℕ → ℚ) (hclock : Monotone clock) (limit : ℚ) (timeout : Bool) (s : SState (Tried σ) ℝ) : ∃ fuel x, clockFit env clock limit fuel timeout s = some x := by
  obtain ⟨D, hD⟩ := real_narrow hd hemb henv
  have h0 : env.dl [] ∈ D := hD.dl [] (by simp)
  refine clockSearch_ends hD clock hclock limit (searchInit env timeout s) ⟨by simp [searchInit], ?_, h0⟩
  simp only [searchInit, List.length_nil, Nat.zero_add]
  exact Finset.card_filter_le _ _

/-! ## Cases -/

/-- What a run reports: the candidates in the table, the length, the number of candidates tested, the usages. -/
def reported (x : Option (Except String (SState ℕ ℕ))) : Option (Option (List ℕ × ℕ × ℕ × List ℕ)) :=
  x.map (fun r => r.toOption.map (fun s => (s.rows.map SRow.cand, s.dlen, s.tested.length, s.rows.map s.usage)))

/-- The clock advances by one at each reading. Without a timeout two patterns are accepted and a third is rejected. -/
example : reported (clockFit goodEnv (fun k => k) 3 10 false (SState.new 0)) = some (some ([2, 1], 18, 3, [1, 1])) := by
  decide +kernel

/-- With a timeout of 3 the reading number 3 ends the search after one candidate; its pattern is kept and reported with the length and the usage of the table that holds it alone. The timeout is passed at the reading at which the second
candidate would be tested. -/
example : reported (clockFit goodEnv (fun k => k) 3 10 true (SState.new 0)) = some (some ([1], 19, 1, [1])) := by
  decide +kernel

/-- The clock stands still at the timeout: the reading is not past the timeout at the head of the loop, the next one ends the search. -/
example : reported (clockFit goodEnv (fun k => min k 1) 1 10 true (SState.new 0)) = some (some ([], 20, 0, [])) := by
  decide +kernel

/-- The removal of pattern 1 is tried after pattern 2 is accepted, makes the table longer and is undone: the length and the usages reported are those of the table with both. -/
example : reported (clockFit (pruneEnv (fun l => if l = [] then 100 else if l = [1] then 90 else if l = [2, 1] then 80 else 95) (fun l => if l = [] then [1] else if l = [1] then [2] else [])) (fun k => k) 9 20 true (SState.new 0)) =
    some (some ([2, 1], 80, 2, [1, 8])) := by
  decide +kernel

end Verif.Graph
