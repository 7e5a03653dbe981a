import Verif.LCM.SessModel
import Verif.LCM.Props
import Mathlib.Data.Finset.Powerset

/-!
# LCM and LCMMax objects used again and again (C110)
-/

set_option autoImplicit false
set_option linter.unusedSectionVars false

namespace Verif.LCM

open Verif.MinSupp

variable {α : Type*} [LinearOrder α]

/-- A support that `fit` accepts: a positive integer, or a float between 0 and 1 (C06). -/
def Supp.Valid : Supp → Prop
  | .int z => 1 ≤ z
  | .float q => 0 ≤ q ∧ q ≤ 1

/-- How many transactions have to contain an itemset: the integer, or the proportion of the `n` transactions (rounded by `rnd`). -/
def Supp.needed (rnd : ℚ → ℚ) : Supp → ℕ → ℚ
  | .int z, _ => z
  | .float q, n => rnd (q * n)

theorem needed_eq (rnd : ℚ → ℚ) (v : Supp) (n : ℕ) : v.needed rnd n = absolute rnd v n := by cases v <;> rfl

/-- The shape that is compared by `transform`: the length of a Series, the length of the last transaction of a list. -/
def Data.shape (D : Data α) : ℕ := if D.series then D.rows.length else (D.rows.getLastD []).length

theorem check_ok (v : Supp) : (∃ u, checkMinSupp v.val = .ok u) ↔ v.Valid := by
  cases v with
  | int z =>
    simp only [Supp.val, checkMinSupp, Supp.Valid]
    by_cases h : z < 1
    · simp [h]
    · simp [h]; omega
  | float q =>
    simp only [Supp.val, checkMinSupp, Supp.Valid, PyFloat.ltQ, PyFloat.gtQ]
    by_cases h : q < 0
    · simp [h, not_le.mpr h]
    · by_cases h' : 1 < q
      · simp [h', not_le.mpr h']
      · simp [h, h', not_lt.mp h, not_lt.mp h']

theorem features_ok (D : Data α) (h : D.rows ≠ []) : D.features = .ok D.shape := by
  unfold Data.features Data.shape
  cases D.series with
  | true => rfl
  | false =>
    simp only [Bool.false_eq_true, if_false]
    cases hr : D.rows.getLast? with
    | none => exact absurd (List.getLast?_eq_none_iff.mp hr) h
    | some t => simp [List.getLastD_eq_getLast?, hr]

theorem fit_ok (rnd : ℚ → ℚ) (o : Obj α) (D : Data α) (hD : D.rows ≠ []) (hv : o.minSupp.Valid) :
    o.fit rnd D = (.ok (), ⟨o.minSupp, some (fit (absolute rnd o.minSupp D.rows.length) D.rows, absolute rnd o.minSupp D.rows.length, D.shape)⟩) := by
  obtain ⟨u, hu⟩ := (check_ok o.minSupp).mpr hv
  unfold Obj.fit
  rw [if_neg hD, hu, features_ok D hD]

/-- C110, `fit` succeeds exactly for data with a transaction and a valid support; when it raises, the object is as before. -/
theorem fit_accepts (rnd : ℚ → ℚ) (o : Obj α) (D : Data α) : ((o.fit rnd D).1 = .ok () ↔ D.rows ≠ [] ∧ o.minSupp.Valid) ∧ ((o.fit rnd D).1 ≠ .ok () → (o.fit rnd D).2 = o) := by
  by_cases hD : D.rows = []
  · have : o.fit rnd D = (.error .value, o) := by unfold Obj.fit; rw [if_pos hD]
    rw [this]
    exact ⟨⟨fun h => (by cases h), fun h => absurd hD h.1⟩, fun _ => rfl⟩
  · by_cases hv : o.minSupp.Valid
    · rw [fit_ok rnd o D hD hv]
      exact ⟨⟨fun _ => ⟨hD, hv⟩, fun _ => rfl⟩, fun h => absurd rfl h⟩
    · have : o.fit rnd D = (.error .value, o) := by
        unfold Obj.fit
        rw [if_neg hD]
        cases hc : checkMinSupp o.minSupp.val with
        | error e => rfl
        | ok u => exact absurd ((check_ok o.minSupp).mp ⟨u, hc⟩) hv
      rw [this]
      exact ⟨⟨fun h => (by cases h), fun h => absurd h.2 hv⟩, fun _ => rfl⟩

theorem step_fitted (rnd : ℚ → ℚ) (o : Obj α) (op : Op α) (h : ∀ D, op = .fit D → D.rows = []) : (o.step rnd op).fitted = o.fitted := by
  cases op with
  | setMinSupp v => rfl
  | ask D => rfl
  | fit D =>
    change (o.fit rnd D).2.fitted = o.fitted
    rw [(fit_accepts rnd o D).2 (fun hok => absurd (h D rfl) ((fit_accepts rnd o D).1.mp hok).1)]

theorem run_fitted (rnd : ℚ → ℚ) (ops : List (Op α)) (h : ∀ D, Op.fit D ∈ ops → D.rows = []) (o : Obj α) : (o.run rnd ops).fitted = o.fitted := by
  induction ops generalizing o with
  | nil => rfl
  | cons op ops ih =>
    change (Obj.run rnd (o.step rnd op) ops).fitted = _
    rw [ih (fun D hD => h D (List.mem_cons_of_mem _ hD)), step_fitted rnd o op (fun D e => h D (by rw [e]; exact List.mem_cons_self))]

theorem fitted_last (rnd : ℚ → ℚ) (o : Obj α) (before after : List (Op α)) (D : Data α) (hD : D.rows ≠ []) (hv : (o.run rnd before).minSupp.Valid) (hafter : ∀ E, Op.fit E ∈ after → E.rows = []) :
    (o.run rnd (before ++ .fit D :: after)).fitted = some (fit (absolute rnd (o.run rnd before).minSupp D.rows.length) D.rows, absolute rnd (o.run rnd before).minSupp D.rows.length, D.shape) := by
  have : o.run rnd (before ++ .fit D :: after) = Obj.run rnd ((o.run rnd before).step rnd (.fit D)) after := by
    unfold Obj.run
    rw [List.foldl_append]
    rfl
  rw [this, run_fitted rnd after hafter]
  change ((o.run rnd before).fit rnd D).2.fitted = _
  rw [fit_ok rnd _ D hD hv]

/-- C01, C03: the itemsets of a call with `max_length`. -/
theorem lcm_limited (m : ℚ) (o : Opts) (ho : OrderOk o.setOrder) (D : List (List α)) (X : Finset α) :
    (∃ r ∈ lcm m o D, r.itemset.toFinset = X) ↔ (Frequent D m X ∧ Closed D X) ∧ (o.maxLength = -1 ∨ (X.card : ℤ) ≤ o.maxLength) := by
  by_cases hk : o.maxLength = -1
  · rw [lcm_exact m o ho hk D X]
    simp [hk]
  · have h1 := lcm_maxLength m o o.maxLength hk D
    rw [show ({ o with maxLength := o.maxLength } : Opts) = o from rfl] at h1
    rw [h1, ← lcm_exact m { o with maxLength := -1 } ho rfl D X]
    constructor
    · rintro ⟨r, hr, rfl⟩
      rw [List.mem_filter, decide_eq_true_eq] at hr
      refine ⟨⟨r, hr.1, rfl⟩, .inr ?_⟩
      rw [List.toFinset_card_of_nodup (lcm_rows m { o with maxLength := -1 } ho D r hr.1).1]
      exact hr.2
    · rintro ⟨⟨r, hr, rfl⟩, h⟩
      refine ⟨r, List.mem_filter.mpr ⟨hr, ?_⟩, rfl⟩
      rw [decide_eq_true_eq, ← List.toFinset_card_of_nodup (lcm_rows m { o with maxLength := -1 } ho D r hr).1]
      exact h.resolve_left hk

/-- C04: the itemsets of a call of LCMMax with `max_length`. -/
theorem lcmMax_limited (m : ℚ) (k : ℤ) (lex : Bool) (so : Finset α → List α) (hso : OrderOk so) (D : List (List α)) (X : Finset α) :
    (∃ r ∈ lcmMax m k lex so D, r.itemset.toFinset = X) ↔ MaximalFrequent D m X ∧ (k = -1 ∨ (X.card : ℤ) ≤ k) := by
  by_cases hk : k = -1
  · subst hk
    rw [lcmMax_exact m lex so hso D X]
    simp
  · constructor
    · rintro ⟨r, hr, rfl⟩
      have := lcmMax_rows m k lex so hso D r hr
      refine ⟨this.2.1, .inr ?_⟩
      rw [List.toFinset_card_of_nodup this.1]
      exact this.2.2.2.2.1 hk
    · rintro ⟨h, hc⟩
      obtain ⟨r, hr, rfl⟩ := (lcmMax_exact m lex so hso D X).mpr h
      refine ⟨r, ?_, rfl⟩
      have hlen := List.toFinset_card_of_nodup (lcmMax_rows m (-1) lex so hso D r hr).1
      unfold lcmMax at hr ⊢
      rw [transformMax_eq] at hr ⊢
      rw [if_neg (by simp)] at hr
      rw [if_pos hk]
      obtain ⟨q, hq, rfl⟩ := List.mem_map.mp hr
      refine List.mem_map.mpr ⟨q, List.mem_filter.mpr ⟨hq, ?_⟩, rfl⟩
      rw [decide_eq_true_eq]
      have hq' : (if lex = true then (so q.itemset).insertionSort (· ≤ ·) else so q.itemset).toFinset = q.itemset := by
        ext x
        rw [List.mem_toFinset]
        split
        · rw [List.mem_insertionSort, (hso _).2]
        · rw [(hso _).2]
      rw [← hq']
      exact hc.resolve_left hk

/-- C110, answers of LCM: whatever was called before and after it (other fits before, changes of `min_supp`, calls of `transform`, refused fits after), the last fit that succeeded decides: `transform` on data of the shape seen in this fit returns exactly the closed
frequent itemsets of the data of the fit, for the support at its time, with their supports in these data; on data of another shape it raises `ValueError`. The full statement has no condition on the shape; `data_matter` refutes it. -/
theorem lcm_last_fit_partial (rnd : ℚ → ℚ) (o : Obj α) (before after : List (Op α)) (D : Data α) (hD : D.rows ≠ []) (hv : (o.run rnd before).minSupp.Valid) (hafter : ∀ E, Op.fit E ∈ after → E.rows = [])
    (E : Data α) (hE : E.rows ≠ []) (pos named : Given) (setOrder : Finset ℕ → List ℕ) (ho : OrderOk setOrder) :
    (E.shape ≠ D.shape → (o.run rnd (before ++ .fit D :: after)).transform E pos named setOrder = .error .value) ∧
    (E.shape = D.shape → ∃ rows, (o.run rnd (before ++ .fit D :: after)).transform E pos named setOrder = .ok rows ∧
      (∀ r ∈ rows, r.support = (tidsOf D.rows r.itemset.toFinset).card ∧ r.tids = tidsOf D.rows r.itemset.toFinset) ∧ (rows.map (fun r => r.itemset.toFinset)).Nodup ∧
      (∀ X, (∃ r ∈ rows, r.itemset.toFinset = X) ↔ (Frequent D.rows ((o.run rnd before).minSupp.needed rnd D.rows.length) X ∧ Closed D.rows X) ∧ ∀ k, (named.maxLength = some k ∨ named.maxLength = none ∧ pos.maxLength = some k) → k = -1 ∨ (X.card : ℤ) ≤ k) ∧
      ((named.lexicographic = some true ∨ named.lexicographic = none ∧ pos.lexicographic ≠ some false) → ∀ r ∈ rows, r.itemset.Pairwise (· < ·))) := by
  rw [needed_eq]
  have hf := fitted_last rnd o before after D hD hv hafter
  unfold Obj.transform
  rw [hf]
  dsimp only
  rw [features_ok E hE]
  dsimp only
  constructor
  · intro h
    rw [if_pos h]
  · intro h
    rw [if_neg (by simpa using h)]
    refine ⟨_, rfl, ?_, ?_, ?_, ?_⟩
    · intro r hr
      have := lcm_rows _ (pos.opts named setOrder) ho D.rows r hr
      exact ⟨this.2.2.2.2.1, this.2.2.2.1⟩
    · exact lcm_nodup _ (pos.opts named setOrder) ho D.rows
    · intro X
      refine (lcm_limited _ (pos.opts named setOrder) ho D.rows X).trans (and_congr_right fun _ => ?_)
      unfold Given.opts
      cases named.maxLength <;> cases pos.maxLength <;> simp
    · intro hlex r hr
      refine (lcm_rows _ (pos.opts named setOrder) ho D.rows r hr).2.2.2.2.2 ?_
      unfold Given.opts
      revert hlex
      rcases named.lexicographic with _ | _ | _ <;> rcases pos.lexicographic with _ | _ | _ <;> simp

/-- C110, answers of LCMMax, in the same way, with the maximal frequent itemsets. -/
theorem lcmMax_last_fit_partial (rnd : ℚ → ℚ) (o : Obj α) (before after : List (Op α)) (D : Data α) (hD : D.rows ≠ []) (hv : (o.run rnd before).minSupp.Valid) (hafter : ∀ E, Op.fit E ∈ after → E.rows = [])
    (E : Data α) (hE : E.rows ≠ []) (pos named : Given) (setOrder : Finset α → List α) (ho : OrderOk setOrder) :
    (E.shape ≠ D.shape → (o.run rnd (before ++ .fit D :: after)).transformMax (some E) pos named setOrder = .error .value) ∧
    (E.shape = D.shape → ∃ rows, (o.run rnd (before ++ .fit D :: after)).transformMax (some E) pos named setOrder = .ok rows ∧
      (∀ r ∈ rows, r.support = (tidsOf D.rows r.itemset.toFinset).card ∧ r.tids = tidsOf D.rows r.itemset.toFinset) ∧ (rows.map (fun r => r.itemset.toFinset)).Nodup ∧
      (∀ X, (∃ r ∈ rows, r.itemset.toFinset = X) ↔ MaximalFrequent D.rows ((o.run rnd before).minSupp.needed rnd D.rows.length) X ∧ ∀ k, named.maxLength = some k → k = -1 ∨ (X.card : ℤ) ≤ k) ∧
      (named.lexicographic ≠ some false → ∀ r ∈ rows, r.itemset.Pairwise (· < ·))) := by
  rw [needed_eq]
  have hf := fitted_last rnd o before after D hD hv hafter
  unfold Obj.transformMax
  rw [hf]
  dsimp only
  rw [features_ok E hE]
  dsimp only
  constructor
  · intro h
    rw [if_pos h]
  · intro h
    rw [if_neg (by simpa using h)]
    refine ⟨_, rfl, ?_, ?_, ?_, ?_⟩
    · intro r hr
      have := lcmMax_rows _ _ _ _ ho D.rows r hr
      exact ⟨this.2.2.2.1, this.2.2.1⟩
    · exact lcmMax_nodup _ _ _ _ ho D.rows
    · intro X
      refine (lcmMax_limited _ _ _ _ ho D.rows X).trans (and_congr_right fun _ => ?_)
      cases named.maxLength <;> simp
    · intro hlex r hr
      refine (lcmMax_rows _ _ _ _ ho D.rows r hr).2.2.2.2.2 ?_
      revert hlex
      rcases named.lexicographic with _ | _ | _ <;> simp

/-- C110, before a fit both raise `NotFittedError`. -/
theorem never_fitted (rnd : ℚ → ℚ) (v : Supp) (ops : List (Op α)) (h : ∀ D, Op.fit D ∈ ops → D.rows = []) (E : Data α) (F : Option (Data α)) (pos named : Given) (so : Finset ℕ → List ℕ) (so' : Finset α → List α) :
    ((Obj.new v).run rnd ops).transform E pos named so = .error .notFitted ∧ ((Obj.new v).run rnd ops).transformMax F pos named so' = .error .notFitted := by
  have := run_fitted rnd ops h (Obj.new v)
  unfold Obj.transform Obj.transformMax
  rw [this]
  exact ⟨rfl, rfl⟩

/-- C110, `fit_transform` is the result for the data (C01), and raises exactly for data without transaction and invalid supports. -/
theorem fitTransform_exact (rnd : ℚ → ℚ) (o : Obj α) (D : Data α) (named : Given) (so : Finset ℕ → List ℕ) :
    o.fitTransform rnd D named so = if D.rows = [] then .error .value else match checkMinSupp o.minSupp.val with
      | .error _ => .error .value
      | .ok _ => .ok (lcm (o.minSupp.needed rnd D.rows.length) (Given.opts ⟨none, none⟩ named so) D.rows) := by
  rw [needed_eq]
  unfold Obj.fitTransform
  by_cases hD : D.rows = []
  · have : o.fit rnd D = (.error .value, o) := by unfold Obj.fit; rw [if_pos hD]
    rw [this, if_pos hD]
  · rw [if_neg hD]
    cases hc : checkMinSupp o.minSupp.val with
    | error e =>
      have : o.fit rnd D = (.error .value, o) := by unfold Obj.fit; rw [if_neg hD, hc]
      rw [this]
    | ok u =>
      rw [fit_ok rnd o D hD ((check_ok o.minSupp).mp ⟨u, hc⟩)]
      dsimp only [Obj.transform]
      rw [features_ok D hD]
      dsimp only
      rw [if_neg (by simp)]
      rfl

/-! ### Where the documentation is not met -/

/-- Three transactions as a list, as a Series, and as a list with the last two exchanged. -/
def asList : Data ℕ := ⟨false, [[1, 2], [1, 2, 3], [1]]⟩
def asSeries : Data ℕ := ⟨true, [[1, 2], [1, 2, 3], [1]]⟩
def exchanged : Data ℕ := ⟨false, [[1, 2], [1], [1, 2, 3]]⟩

/-- The data given to `transform` do influence the result: after a fit on a list, `transform` raises for the same data as a Series, and for the same transactions in another order. -/
theorem data_matter (so : Finset ℕ → List ℕ) :
    ((Obj.new (.int 2)).run id [.fit asList]).transform asSeries ⟨none, none⟩ ⟨none, none⟩ so = .error .value ∧ ((Obj.new (.int 2)).run id [.fit asList]).transform exchanged ⟨none, none⟩ ⟨none, none⟩ so = .error .value ∧
      ((Obj.new (.int 2)).run id [.fit asList]).transform asList ⟨none, none⟩ ⟨none, none⟩ so ≠ .error .value := by
  refine ⟨?_, ?_, ?_⟩ <;> simp [Obj.run, Obj.step, Obj.new, Obj.fit, Obj.transform, Supp.val, checkMinSupp, asList, asSeries, exchanged, Data.features]

/-- Positional options are dropped by LCMMax, for all data and options. -/
theorem max_positional_dropped (o : Obj α) (D : Option (Data α)) (pos pos' named : Given) (so : Finset α → List α) : o.transformMax D pos named so = o.transformMax D pos' named so := rfl

/-- So a `max_length` of 1 given by position is not honoured: an itemset of two items is returned. -/
example : ∃ rows, ((Obj.new (.int 2)).run id [.fit asList]).transformMax (some asList) ⟨some true, some 1⟩ ⟨none, none⟩ sortSet = .ok rows ∧ rows.map (fun r => (r.itemset, r.support)) = [([1, 2], 2)] := by
  have h : (LCM.transformMax (fit 2 asList.rows) 2 (-1) true sortSet).map (fun r => (r.itemset, r.support)) = [([1, 2], 2)] := by decide
  have h1 : ((Obj.new (.int 2)).run id [.fit asList]).fitted = some (fit 2 asList.rows, 2, 1) := rfl
  refine ⟨_, ?_, h⟩
  unfold Obj.transformMax
  rw [h1]
  simp [asList, Data.features]

/-- The hypotheses of `lcm_last_fit_partial` hold: an earlier fit on other data, a change of the support, a refused fit afterwards. -/
example : ∃ rows, ((Obj.new (.int 1)).run id ([.fit ⟨false, [[5]]⟩, .setMinSupp (.int 2)] ++ .fit asList :: [.setMinSupp (.int 1), .fit ⟨false, []⟩, .ask asList])).transform asList ⟨none, none⟩ ⟨none, none⟩ sortSet = .ok rows ∧
    (∃ r ∈ rows, r.itemset.toFinset = {1, 2}) := by
  obtain ⟨rows, h1, -, -, h2, -⟩ := (lcm_last_fit_partial id (Obj.new (.int 1)) [.fit ⟨false, [[5]]⟩, .setMinSupp (.int 2)] [.setMinSupp (.int 1), .fit ⟨false, []⟩, .ask asList] asList (by simp [asList]) (by simp [Obj.run, Obj.step, Supp.Valid])
    (by simp) asList (by simp [asList]) ⟨none, none⟩ ⟨none, none⟩ sortSet orderOk_sort).2 rfl
  refine ⟨rows, h1, (h2 _).mpr ⟨⟨⟨⟨1, by simp⟩, by decide, ?_⟩, ?_⟩, by simp⟩⟩
  · have : (tidsOf asList.rows {1, 2}).card = 2 := by decide
    rw [this]
    norm_num [Obj.run, Obj.step, Supp.needed]
  · have hall : ∀ Y ∈ (itemsOf asList.rows).powerset, {1, 2} ⊂ Y → (tidsOf asList.rows Y).card < (tidsOf asList.rows {1, 2}).card := by decide
    exact fun Y hY => hall Y (Finset.mem_powerset.mpr hY)

end Verif.LCM
