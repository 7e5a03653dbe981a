import Verif.Slim.StopModel
import Verif.Slim.CopyProps

/-!
# `SLIMVectorizer.fit`: properties (C166)
-/

set_option autoImplicit false
set_option linter.unusedSectionVars false

namespace Verif.Slim

variable {α V : Type*} [LinearOrder α] [LinearOrder V]

/-- C166 fails: with stop items, even an empty collection of them, `fit` raises on all data. -/
theorem stop_fit_raises (a : Args α) (iter : Finset α → List α) (total : Table α → V) (initTotal : Sct α → V) (O : Oracle α) (elapsed : ℕ → ℚ) (fuel : ℕ)
    (stop : Finset α) (D : List (List α)) : vectFit a iter total initTotal O elapsed fuel (some stop) D = some (.error .typeError) := rfl

/-- Without stop items and with some data, `fit` ends and knows the items of the data, beside those given to the constructor; the itemsets of the code table are made of known items, and every known item is an itemset of its own. -/
theorem fit_knows_partial (a : Args α) (iter : Finset α → List α) (total : Table α → V) (initTotal : Sct α → V) (O : Oracle α) (hO : OracleOk O)
    (elapsed : ℕ → ℚ) (D : List (List α)) (hD : D ≠ []) :
    ∃ (n : ℕ) (st : State α V), (∀ fuel, n ≤ fuel → vectFit a iter total initTotal O elapsed fuel none D = some (.ok st)) ∧
      (∀ X u, (X, u) ∈ st.ct → ∀ x ∈ X, x ∈ a.items ∨ ∃ d ∈ D, x ∈ d) ∧
      ∀ i, (i ∈ a.items ∨ ∃ d ∈ D, i ∈ d) → ∃ u, ({i}, u) ∈ st.ct := by
  obtain ⟨d, D, rfl⟩ := List.exists_cons_of_ne_nil hD
  obtain ⟨n, st, h1, -⟩ := fit_inv ((⟨a.items, a.pruning, iter, total, initTotal⟩ : Settings α V).params (sctOf a.items (d :: D)) [])
    (timed a elapsed O) ⟨hO.1, hO.2⟩ a.items (d :: D)
  have hfit : ∀ fuel, n ≤ fuel → fitArgs a iter total initTotal O elapsed fuel (d :: D) = some (.ok st) :=
    fun fuel hf => fitLoop_mono _ _ n fuel 0 _ _ h1 hf
  obtain ⟨st0, h1, h2⟩ := fit_result _ (timed a elapsed O) ⟨hO.1, hO.2⟩ a.items (d :: D) n _ (hfit n le_rfl)
  simp only [Except.ok.injEq] at h1
  subst h1
  have hgood : Good st.sct st.ct := by rw [h2.sct]; exact h2.good
  have hk : ∀ i, i ∈ st.sct.map Prod.fst ↔ i ∈ a.items ∨ ∃ e ∈ d :: D, i ∈ e := by
    intro i
    rw [h2.sct, (reach_inv a.items (d :: D) _ (Reach.prefit _)).2.1 i]
    constructor
    · rintro (⟨t, e, hd, hi⟩ | hi)
      · exact .inr ⟨e, List.mem_of_getElem? hd, hi⟩
      · exact .inl hi
    · rintro (hi | ⟨e, hd, hi⟩)
      · exact .inr hi
      · obtain ⟨t, ht⟩ := List.getElem?_of_mem hd
        exact .inl ⟨t, e, ht, hi⟩
  refine ⟨n, st, fun fuel hf => ?_, fun X u hX x hx => (hk x).1 (hgood.keys.known X (mem_key_of_mem hX) x hx), fun i hi => ?_⟩
  · show (fitArgs a iter total initTotal O elapsed fuel (d :: D)).map _ = _
    rw [hfit fuel hf]
    rfl
  · obtain ⟨e, he, hx⟩ := List.mem_map.1 (hgood.keys.single i ((hk i).2 hi))
    exact ⟨e.2, by rw [← hx]; exact he⟩

/-- C166 for data filtered beforehand (missing: `stop_items` itself, `stop_fit_raises`): when the stop items are taken out of the transactions before `fit`, no itemset of the code table holds a stop item, and all other items of the data are kept. -/
theorem filtered_fit_partial (a : Args α) (ha : a.items = []) (iter : Finset α → List α) (total : Table α → V) (initTotal : Sct α → V) (O : Oracle α) (hO : OracleOk O)
    (elapsed : ℕ → ℚ) (stop : Finset α) (D : List (List α)) (hD : D ≠ []) :
    ∃ (n : ℕ) (st : State α V), (∀ fuel, n ≤ fuel → vectFit a iter total initTotal O elapsed fuel none (filterStop stop D) = some (.ok st)) ∧
      (∀ X u, (X, u) ∈ st.ct → ∀ x ∈ X, x ∉ stop ∧ ∃ d ∈ D, x ∈ d) ∧
      ∀ i, i ∉ stop → (∃ d ∈ D, i ∈ d) → ∃ u, ({i}, u) ∈ st.ct := by
  obtain ⟨n, st, h1, h2, h3⟩ := fit_knows_partial a iter total initTotal O hO elapsed (filterStop stop D) (by unfold filterStop; simpa using hD)
  have key : ∀ i, (i ∈ a.items ∨ ∃ d ∈ filterStop stop D, i ∈ d) ↔ i ∉ stop ∧ ∃ d ∈ D, i ∈ d := by
    intro i
    rw [ha]
    unfold filterStop
    simp only [List.not_mem_nil, false_or, List.mem_map]
    constructor
    · rintro ⟨d, ⟨e, he, rfl⟩, hi⟩
      rw [List.mem_filter, decide_eq_true_eq] at hi
      exact ⟨hi.2, e, he, hi.1⟩
    · rintro ⟨hs, e, he, hi⟩
      exact ⟨_, ⟨e, he, rfl⟩, List.mem_filter.2 ⟨hi, decide_eq_true hs⟩⟩
  exact ⟨n, st, h1, fun X u hX x hx => (key x).1 (h2 X u hX x hx), fun i hi hd => h3 i ((key i).2 ⟨hi, hd⟩)⟩

/-- C166. Without data `fit` raises. -/
theorem fit_no_data (a : Args α) (iter : Finset α → List α) (total : Table α → V) (initTotal : Sct α → V) (O : Oracle α) (elapsed : ℕ → ℚ) (fuel : ℕ) :
    vectFit a iter total initTotal O elapsed fuel none [] = some (.error .valueError) := rfl

/-- Stop item 3: given to the constructor, `fit` raises; taken out beforehand, the itemset `{1, 2}` is learned and 3 is not known. -/
example : (vectFit {} (exS2 true).iter (exS2 true).total (exS2 true).initTotal exO (fun _ => 0) 9 (some {3}) [[1, 2], [1, 2, 3], [3]]).map
      (fun r => match r with | .ok _ => none | .error e => some e) = some (some FitErr.typeError) ∧
    ((vectFit {} (exS2 true).iter (exS2 true).total (exS2 true).initTotal exO (fun _ => 0) 9 none (filterStop {3} [[1, 2], [1, 2, 3], [3]])).bind Except.toOption).map
      (fun st => st.ct.map (fun e => sortSet e.1)) = some [[1, 2], [1], [2]] := by decide +kernel

end Verif.Slim
