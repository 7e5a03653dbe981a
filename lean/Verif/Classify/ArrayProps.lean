import Verif.Classify.ArrayModel
import Verif.Classify.OrderProps
import Verif.Slim.TableProps

/-!
# `SlimClassifier` on arrays (C160)
-/

set_option autoImplicit false
set_option linter.unusedSectionVars false

namespace Verif.Classify

variable {L S I κ V R : Type*} [LinearOrder L] [LinearOrder S] [LinearOrder κ] [LinearOrder V] [LinearOrder R] [AddCommMonoid R]

/-! ## Specification -/

/-- The positions of the values of a row that are not zero. -/
def nonzeroAt (k : ℕ) (row : List ℕ) : List ℕ := (List.range k).filter (fun j => decide (row.getD j 0 ≠ 0))

/-- `train` is the fit of a SLIM object with these items. -/
def FitsSlim (κ : Type*) [LinearOrder κ] (train : SlimArgs (List ℕ) → List (List ℕ) → Slim.State ℕ V) : Prop :=
  ∀ args D, ∃ (P : Slim.Params ℕ κ V) (O : Slim.Oracle ℕ) (fuel : ℕ), Slim.OracleOk O ∧ Slim.fit P O args.items fuel D = some (.ok (train args D))

/-! ## Lemmas -/

theorem rowsOf_array (X : List (List ℕ)) (k : ℕ) : Slim.rowsOf (arrayTable X k) X.length = X.map (nonzeroAt k) := by
  apply List.ext_getElem
  · simp [Slim.rowsOf]
  · intro t h1 h2
    have ht : t < X.length := by simpa using h2
    simp only [Slim.rowsOf, List.getElem_map, List.getElem_range, Slim.rowItems, arrayTable, nonzeroAt]
    rw [List.filter_map, List.map_map]
    have h3 : ((fun c : ℕ × List Bool => decide (c.2[t]? = some true)) ∘ fun j : ℕ => (j, X.map (fun row => decide (row.getD j 0 ≠ 0)))) =
        fun j => decide (X[t].getD j 0 ≠ 0) := by
      funext j
      simp only [Function.comp, List.getElem?_map, List.getElem?_eq_getElem ht, Option.map_some, Option.some.injEq, decide_eq_true_eq]
    have h4 : (Prod.fst ∘ fun j : ℕ => (j, X.map (fun row => decide (row.getD j 0 ≠ 0)))) = id := rfl
    rw [h3, h4, List.map_id]

theorem good_of_fits {train : SlimArgs (List ℕ) → List (List ℕ) → Slim.State ℕ V} (ht : FitsSlim κ train) (args : SlimArgs (List ℕ)) (D : List (List ℕ)) :
    Slim.Good (train args D).sct (train args D).ct ∧ ∀ a, a ∈ (train args D).sct.map Prod.fst ↔ (∃ t, Slim.Occurs D a t) ∨ a ∈ args.items := by
  obtain ⟨P, O, fuel, hO, hfit⟩ := ht args D
  obtain ⟨st', h1, h2⟩ := Slim.fit_result P O hO args.items D fuel _ hfit
  simp only [Except.ok.injEq] at h1
  subst h1
  refine ⟨by rw [h2.sct]; exact h2.good, fun a => ?_⟩
  rw [h2.sct]
  exact (Slim.reach_inv args.items D _ (Slim.Reach.prefit P)).2.1 a

theorem decision_array (code : ℕ → ℕ → R) (f : WithTop R → S) (k : ℕ) (m : Slim.State ℕ V) (hg : Slim.Good m.sct m.ct) (X : List (List ℕ)) :
    decisionArray code f k m X = slimDecision code f m (X.map (nonzeroAt k)) := by
  unfold decisionArray slimDecision
  rw [Slim.code_length_table_good m hg, rowsOf_array]
  cases Slim.getCodeLength code m (X.map (nonzeroAt k)) <;> rfl

/-! ## C160 -/

/-- C160. What `predict` does with an array: it classifies, instead of the rows, the positions of their non-zero values. -/
theorem predict_array (train : SlimArgs (List ℕ) → List (List ℕ) → Slim.State ℕ V) (ht : FitsSlim κ train) (a : ClfArgs (List ℕ))
    (X : List (List ℕ)) (y : List L) (code : ℕ → ℕ → R) (f : WithTop R → S) (k : ℕ) (Q : List (List ℕ)) :
    predictArray code f k (fitArray train a X y) Q = predict (slimDecision code f) (fit train a X y) (Q.map (nonzeroAt k)) := by
  have hm : ∀ m ∈ (fit train a X y).models, Slim.Good m.sct m.ct := by
    intro m hm
    obtain ⟨p, _, rfl⟩ := List.mem_map.1 hm
    exact (good_of_fits ht p.1 p.2).1
  unfold predictArray fitArray predict
  rw [List.length_map]
  congr 1
  funext t
  have : ∀ ms : List (Slim.State ℕ V), (∀ m ∈ ms, Slim.Good m.sct m.ct) →
      ms.mapM (fun m => (decisionArray code f k m Q)[t]?) = ms.mapM (fun m => (slimDecision code f m (Q.map (nonzeroAt k)))[t]?) := by
    intro ms
    induction ms with
    | nil => intro _; rfl
    | cons m ms ih =>
      intro h
      rw [List.mapM_cons, List.mapM_cons, ih (fun m' hm' => h m' (List.mem_cons_of_mem _ hm')), decision_array code f k m (h m List.mem_cons_self)]
  rw [this _ hm]

/-- C160, where it holds: on arrays whose rows list the positions of their non-zero values, the answer is that for the list of the rows. -/
theorem predict_array_partial (train : SlimArgs (List ℕ) → List (List ℕ) → Slim.State ℕ V) (ht : FitsSlim κ train) (a : ClfArgs (List ℕ))
    (X : List (List ℕ)) (y : List L) (code : ℕ → ℕ → R) (f : WithTop R → S) (k : ℕ) (Q : List (List ℕ))
    (h : ∀ row ∈ Q, (nonzeroAt k row).toFinset = row.toFinset) :
    predictArray code f k (fitArray train a X y) Q = predict (slimDecision code f) (fit train a X y) Q := by
  rw [predict_array train ht]
  have hm : ∀ m ∈ (fit train a X y).models, Slim.Good m.sct m.ct := by
    intro m hm
    obtain ⟨p, _, rfl⟩ := List.mem_map.1 hm
    exact (good_of_fits ht p.1 p.2).1
  unfold predict
  rw [List.length_map]
  congr 1
  funext t
  have hd : ∀ m : Slim.State ℕ V, Slim.Good m.sct m.ct → slimDecision code f m (Q.map (nonzeroAt k)) = slimDecision code f m Q := by
    intro m hg
    unfold slimDecision
    rw [Slim.getCodeLength_good m hg, Slim.getCodeLength_good m hg]
    simp only
    congr 1
    rw [List.map_map]
    apply List.map_congr_left
    intro row hrow
    simp only [Function.comp, Slim.lengthOf, h row hrow]
  have : ∀ ms : List (Slim.State ℕ V), (∀ m ∈ ms, Slim.Good m.sct m.ct) →
      ms.mapM (fun m => (slimDecision code f m (Q.map (nonzeroAt k)))[t]?) = ms.mapM (fun m => (slimDecision code f m Q)[t]?) := by
    intro ms
    induction ms with
    | nil => intro _; rfl
    | cons m ms ih =>
      intro h
      rw [List.mapM_cons, List.mapM_cons, ih (fun m' hm' => h m' (List.mem_cons_of_mem _ hm')), hd m (h m List.mem_cons_self)]
  rw [this _ hm]

/-- C160 fails: when no item is the number of a column, every sample is given the smallest label. -/
theorem predict_array_smallest (train : SlimArgs (List ℕ) → List (List ℕ) → Slim.State ℕ V) (ht : FitsSlim κ train) (a : ClfArgs (List ℕ))
    (X : List (List ℕ)) (y : List L) (hxy : X.length = y.length) (hy : y ≠ []) (code : ℕ → ℕ → R) (f : WithTop R → S) (hf : StrictAnti f) (k : ℕ)
    (hX : ∀ row ∈ X, ∀ v ∈ row, k ≤ v) (hi : ∀ v ∈ a.items, k ≤ v) (Q : List (List ℕ)) (c : L) (hc : c ∈ y) (hmin : ∀ c' ∈ y, c ≤ c') :
    predictArray code f k (fitArray train a X y) Q = some (Q.map (fun _ => c)) := by
  rw [predict_array train ht]
  obtain ⟨labels, h1, h2, h3⟩ := predict_shortest train (fun args D => by
    obtain ⟨P, O, fuel, hO, h⟩ := ht args D
    exact ⟨P, O, args.items, fuel, hO, h⟩) a X y hxy hy code f hf (Q.map (nonzeroAt k))
  rw [h1]
  congr 1
  apply List.ext_getElem?
  intro t
  by_cases htq : t < Q.length
  · obtain ⟨c', k1, k2, k3⟩ := h3 t (nonzeroAt k Q[t]) (by rw [List.getElem?_map, List.getElem?_eq_getElem htq]; rfl)
    rw [k1, List.getElem?_map, List.getElem?_eq_getElem htq]
    simp only [Option.map_some, Option.some.injEq]
    have htop : ∀ c0, Slim.lengthOf code (train (slimDefault a.items) (trainingOf X y c0)) (nonzeroAt k Q[t]) = ⊤ := by
      intro c0
      obtain ⟨hg, hk⟩ := good_of_fits ht (slimDefault a.items) (trainingOf X y c0)
      have hgr : Slim.greedy ((train (slimDefault a.items) (trainingOf X y c0)).ct.map Prod.fst) (nonzeroAt k Q[t]).toFinset = [] := by
        have key : ∀ l : List (Finset ℕ), (∀ Y ∈ l, ¬ Y ⊆ (nonzeroAt k Q[t]).toFinset) → Slim.greedy l (nonzeroAt k Q[t]).toFinset = [] := by
          intro l
          induction l with
          | nil => intro _; rfl
          | cons Y l ih =>
            intro h
            rw [Slim.greedy, if_neg (h Y List.mem_cons_self)]
            exact ih (fun Z hZ => h Z (List.mem_cons_of_mem _ hZ))
        apply key
        intro Y hY hsub
        obtain ⟨v, hv⟩ := hg.keys.nonempty Y hY
        have hlt : v < k := by
          have := hsub hv
          rw [List.mem_toFinset, nonzeroAt, List.mem_filter, List.mem_range] at this
          exact this.1
        rcases (hk v).1 (hg.keys.known Y hY v hv) with ⟨t', tr, htr, hvt⟩ | hvi
        · have htr2 : tr ∈ trainingOf X y c0 := List.mem_of_getElem? htr
          rw [← zip_filter_eq X y hxy] at htr2
          obtain ⟨p, hp, rfl⟩ := List.mem_map.1 htr2
          have := hX p.1 (List.of_mem_zip (List.mem_filter.1 hp).1).1 v hvt
          omega
        · have := hi v hvi
          omega
      unfold Slim.lengthOf
      rw [hgr]
      simp
    by_contra hne
    have hlt : c < c' := lt_of_le_of_ne (hmin c' k2) (fun h => hne h.symm)
    have := (k3 c hc).2 hlt
    rw [htop, htop] at this
    exact absurd this (lt_irrefl _)
  · rw [List.getElem?_eq_none (by rw [h2, List.length_map]; omega), List.getElem?_eq_none (by rw [List.length_map]; omega)]

/-! ## Examples -/

/-- An environment where no candidate has a positive estimated gain. -/
noncomputable def noGain : Slim.Oracle ℕ := ⟨fun _ tab => tab, fun _ _ _ _ => 0, fun _ _ => minChoose, fun _ => false⟩

theorem genInner_zero (x : Finset ℕ × Finset ℕ) (Y : Slim.Table ℕ) (stack : Finset (Finset ℕ)) : (Slim.genInner (fun _ _ => 0) x Y stack).1 = [] := by
  induction Y generalizing stack with
  | nil => rfl
  | cons y Y ih =>
    unfold Slim.genInner
    split_ifs
    · exact ih _
    · exact ih _
    · exact ih _
    · exact absurd ‹_› (lt_irrefl _)
    · exact ih _

theorem genOuter_zero (Y : Slim.Table ℕ) (stack : Finset (Finset ℕ)) : (Slim.genOuter (fun _ _ => 0) Y stack).1 = [] := by
  induction Y generalizing stack with
  | nil => rfl
  | cons y Y ih =>
    unfold Slim.genOuter
    split_ifs
    · exact ih _
    · simp [genInner_zero, ih]

/-- Training without gains: the code table of singletons. -/
def plainTrain (args : SlimArgs (List ℕ)) (D : List (List ℕ)) : Slim.State ℕ ℕ :=
  Slim.prefit ((Slim.exS2 args.pruning).params (Slim.sctOf args.items D) []) args.items D

theorem plainTrain_fits : FitsSlim (Slim.CoverKey ℕ) plainTrain := by
  intro args D
  refine ⟨(Slim.exS2 args.pruning).params (Slim.sctOf args.items D) [], noGain, 1, ⟨fun _ _ => List.Perm.refl _, fun _ _ => minChoose_ok⟩, ?_⟩
  unfold Slim.fit Slim.fitLoop Slim.generateCandidates noGain
  dsimp only
  rw [genOuter_zero]
  rfl

/-- A score that decreases with the code length. -/
def exScore (x : WithTop ℕ) : (WithTop ℕ)ᵒᵈ := OrderDual.toDual x

theorem exScore_anti : StrictAnti exScore := fun _ _ h => h

/-- The hypotheses of `predict_array_smallest` hold. The samples with the items 5, 6 and 7, 8 are told apart when they are given as lists; given as
an array with two columns both get the label 1. -/
theorem array_and_list_differ :
    let X := [[5, 6], [7, 8]]
    let clf := fit plainTrain ⟨[], true⟩ X [1, 2]
    (∀ row ∈ X, ∀ v ∈ row, 2 ≤ v) ∧
    predict (slimDecision (fun u n => n - u + 1) exScore) clf X = some [1, 2] ∧
    predictArray (fun u n => n - u + 1) exScore 2 (fitArray plainTrain ⟨[], true⟩ X [1, 2]) X = some [1, 1] := by
  refine ⟨by decide, by decide +kernel, ?_⟩
  exact predict_array_smallest (κ := Slim.CoverKey ℕ) (L := ℕ) plainTrain plainTrain_fits ⟨[], true⟩ [[5, 6], [7, 8]] [1, 2] rfl (by decide) _ exScore exScore_anti 2 (by decide)
    (by simp) [[5, 6], [7, 8]] 1 (by decide) (by decide)

/-- The hypothesis of `predict_array_partial` holds: these rows have the items 0 and 2, and non-zero values at the positions 0 and 2. -/
example : ∀ row ∈ [[2, 0, 2], [2, 0, 2]], (nonzeroAt 3 row).toFinset = row.toFinset := by decide

end Verif.Classify
