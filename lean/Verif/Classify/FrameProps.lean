import Verif.Classify.FrameModel
import Verif.Classify.OrderProps
import Verif.Slim.TableProps

/-!
# `SlimClassifier` on data frames (C162)
-/

set_option autoImplicit false
set_option linter.unusedSectionVars false

namespace Verif.Classify

variable {L S I α κ V R : Type*} [LinearOrder L] [LinearOrder S] [LinearOrder α] [LinearOrder κ] [LinearOrder V] [LinearOrder R] [AddCommMonoid R]

/-! ## Specification -/

/-- `train` is the fit of a SLIM object with these items. -/
def FitsOn (α κ : Type*) [LinearOrder α] [LinearOrder κ] (train : SlimArgs (List α) → List (List α) → Slim.State α V) : Prop :=
  ∀ args D, ∃ (P : Slim.Params α κ V) (O : Slim.Oracle α) (fuel : ℕ), Slim.OracleOk O ∧ Slim.fit P O args.items fuel D = some (.ok (train args D))

/-! ## Lemmas -/

theorem good_of_fitsOn {train : SlimArgs (List α) → List (List α) → Slim.State α V} (ht : FitsOn α κ train) (args : SlimArgs (List α)) (D : List (List α)) :
    Slim.Good (train args D).sct (train args D).ct ∧ ∀ a, a ∈ (train args D).sct.map Prod.fst ↔ (∃ t, Slim.Occurs D a t) ∨ a ∈ args.items := by
  obtain ⟨P, O, fuel, hO, hfit⟩ := ht args D
  obtain ⟨st', h1, h2⟩ := Slim.fit_result P O hO args.items D fuel _ hfit
  simp only [Except.ok.injEq] at h1
  subst h1
  refine ⟨by rw [h2.sct]; exact h2.good, fun a => ?_⟩
  rw [h2.sct]
  exact (Slim.reach_inv args.items D _ (Slim.Reach.prefit P)).2.1 a

/-- Samples without any known item all get the smallest label. -/
theorem unknown_smallest (train : SlimArgs (List α) → List (List α) → Slim.State α V) (ht : FitsOn α κ train) (a : ClfArgs (List α))
    (X : List (List α)) (y : List L) (hxy : X.length = y.length) (hy : y ≠ []) (code : ℕ → ℕ → R) (f : WithTop R → S) (hf : StrictAnti f) (Q : List (List α))
    (hX : ∀ q ∈ Q, ∀ v ∈ q, v ∉ a.items ∧ ∀ x ∈ X, v ∉ x) (c : L) (hc : c ∈ y) (hmin : ∀ c' ∈ y, c ≤ c') :
    predict (slimDecision code f) (fit train a X y) Q = some (Q.map (fun _ => c)) := by
  obtain ⟨labels, h1, h2, h3⟩ := predict_shortest train (fun args D => by
    obtain ⟨P, O, fuel, hO, h⟩ := ht args D
    exact ⟨P, O, args.items, fuel, hO, h⟩) a X y hxy hy code f hf Q
  rw [h1]
  congr 1
  apply List.ext_getElem?
  intro t
  by_cases htq : t < Q.length
  · obtain ⟨c', k1, k2, k3⟩ := h3 t Q[t] (List.getElem?_eq_getElem htq)
    rw [k1, List.getElem?_map, List.getElem?_eq_getElem htq]
    simp only [Option.map_some, Option.some.injEq]
    have htop : ∀ c0, Slim.lengthOf code (train (slimDefault a.items) (trainingOf X y c0)) Q[t] = ⊤ := by
      intro c0
      obtain ⟨hg, hk⟩ := good_of_fitsOn ht (slimDefault a.items) (trainingOf X y c0)
      have hgr : Slim.greedy ((train (slimDefault a.items) (trainingOf X y c0)).ct.map Prod.fst) Q[t].toFinset = [] := by
        have key : ∀ l : List (Finset α), (∀ Y ∈ l, ¬ Y ⊆ Q[t].toFinset) → Slim.greedy l Q[t].toFinset = [] := by
          intro l
          induction l with
          | nil => intro _; rfl
          | cons Y l ih =>
            intro h
            rw [Slim.greedy, if_neg (h Y List.mem_cons_self)]
            exact ih (fun Z hZ => h Z (List.mem_cons_of_mem _ hZ))
        apply key
        intro Y hY hsub
        obtain ⟨v, hv⟩ := hg.keys.nonempty Y hY
        obtain ⟨n1, n2⟩ := hX Q[t] (List.getElem_mem htq) v (List.mem_toFinset.1 (hsub hv))
        rcases (hk v).1 (hg.keys.known Y hY v hv) with ⟨t', tr, htr, hvt⟩ | hvi
        · have htr2 : tr ∈ trainingOf X y c0 := List.mem_of_getElem? htr
          rw [← zip_filter_eq X y hxy] at htr2
          obtain ⟨p, hp, rfl⟩ := List.mem_map.1 htr2
          exact n2 p.1 (List.of_mem_zip (List.mem_filter.1 hp).1).1 hvt
        · exact n1 hvi
      unfold Slim.lengthOf
      rw [hgr]
      simp
    by_contra hne
    have hlt : c < c' := lt_of_le_of_ne (hmin c' k2) (fun h => hne h.symm)
    have := (k3 c hc).2 hlt
    rw [htop, htop] at this
    exact absurd this (lt_irrefl _)
  · rw [List.getElem?_eq_none (by rw [h2]; omega), List.getElem?_eq_none (by rw [List.length_map]; omega)]

/-- `zip` stops with the shorter list. -/
theorem fit_zip {T M : Type*} (train : SlimArgs I → List T → M) (a : ClfArgs I) (X : List T) (y : List L) (h : ∀ c ∈ y, c ∈ y.take X.length) :
    fit train a X y = fit train a (X.take y.length) (y.take X.length) := by
  have h1 : (y.take X.length).toFinset = y.toFinset := by
    ext c
    rw [List.mem_toFinset, List.mem_toFinset]
    exact ⟨fun hc => List.mem_of_mem_take hc, h c⟩
  have h2 : (X.take y.length).zip (y.take X.length) = X.zip y := by
    induction X generalizing y with
    | nil => simp
    | cons x X ih =>
      cases y with
      | nil => simp
      | cons b y =>
        simp only [List.length_cons, List.take_succ_cons, List.zip_cons_cons, List.cons.injEq, true_and]
        clear ih h h1
        induction X generalizing y with
        | nil => simp
        | cons x X ih =>
          cases y with
          | nil => simp
          | cons b y => simp only [List.length_cons, List.take_succ_cons, List.zip_cons_cons, List.cons.injEq, true_and]; exact ih y
  unfold fit
  rw [h1, h2]

theorem classesX_empty {T M : Type*} (train : SlimArgs I → List T → M) (a : ClfArgs I) (X : List T) (y : List L) :
    (fit train a X y).classesX.any (fun D => D.isEmpty) = true ↔ ∃ c ∈ y, c ∉ y.take X.length := by
  have hz : ∀ c, (((X.zip y).filter (fun p => decide (p.2 = c))).map Prod.fst).isEmpty = true ↔ c ∉ y.take X.length := by
    intro c
    rw [List.isEmpty_iff, List.map_eq_nil_iff, List.filter_eq_nil_iff]
    have : y.take X.length = (X.zip y).map Prod.snd := by
      induction X generalizing y with
      | nil => simp
      | cons x X ih =>
        cases y with
        | nil => simp
        | cons b y => simp [ih]
    rw [this, List.mem_map]
    constructor
    · rintro h ⟨p, hp, rfl⟩
      exact h p hp (by simp)
    · intro h p hp hpc
      exact h ⟨p, hp, of_decide_eq_true hpc⟩
  unfold fit
  simp only [List.any_map, List.any_eq_true, Function.comp]
  constructor
  · rintro ⟨c, hc, h⟩
    exact ⟨c, by rw [mem_sortSet, List.mem_toFinset] at hc; exact hc, (hz c).1 h⟩
  · rintro ⟨c, hc, h⟩
    exact ⟨c, by rw [mem_sortSet, List.mem_toFinset]; exact hc, (hz c).2 h⟩

/-! ## C162 -/

/-- C162. `fit` on a data frame raises as soon as a label has no sample among as many samples as the frame has columns. -/
theorem frame_fit_raises (train : SlimArgs (List Name) → List (List Name) → Slim.State Name V) (a : ClfArgs (List Name)) (tab : List (Name × List Bool)) (y : List L) :
    fitFrame train a tab y = .error .valueError ↔ ∃ c ∈ y, c ∉ y.take tab.length := by
  have h := classesX_empty train a (tab.map (fun c => letters c.1)) y
  rw [List.length_map] at h
  rw [← h]
  unfold fitFrame
  simp only
  split_ifs with h1
  · exact iff_of_true rfl h1
  · exact iff_of_false (nomatch ·) h1

/-- C162. The values of the frame do not matter to `fit`. -/
theorem frame_values_ignored (train : SlimArgs (List Name) → List (List Name) → Slim.State Name V) (a : ClfArgs (List Name)) (tab tab' : List (Name × List Bool)) (y : List L)
    (h : tab.map Prod.fst = tab'.map Prod.fst) : fitFrame train a tab y = fitFrame train a tab' y := by
  unfold fitFrame
  have : tab.map (fun c => letters c.1) = tab'.map (fun c => letters c.1) := by
    have := congrArg (List.map letters) h
    rwa [List.map_map, List.map_map] at this
  rw [this]

/-- C162. What the model of a label is fitted on: for every column at the position of a sample with this label, the letters of the name of the column. -/
theorem frame_transactions (train : SlimArgs (List Name) → List (List Name) → Slim.State Name V) (a : ClfArgs (List Name)) (tab : List (Name × List Bool)) (y : List L)
    (clf : Clf L (List Name) (Slim.State Name V) (List Name)) (hfit : fitFrame train a tab y = .ok clf) (i : ℕ) (c : L) (hc : clf.classes[i]? = some c) :
    clf.classesX[i]? = some (((tab.zip y).filter (fun p => p.2 = c)).map (fun p => p.1.1.map (fun ch => [ch]))) := by
  have hclf : clf = fit train a (tab.map (fun c => letters c.1)) y := by
    unfold fitFrame at hfit
    simp only at hfit
    split_ifs at hfit
    exact (Except.ok.inj hfit).symm
  have hX : clf.classesX = clf.classes.map (fun c => (((tab.map (fun c => letters c.1)).zip y).filter (fun p => p.2 = c)).map Prod.fst) := by
    rw [hclf]; rfl
  rw [hX, List.getElem?_map, hc, Option.map_some, Option.some.injEq, List.zip_map_left, List.filter_map, List.map_map]
  rfl

/-- What `predict` does with a frame: the samples are the sets of the names of the columns that are true in a row. -/
theorem predict_frame (train : SlimArgs (List Name) → List (List Name) → Slim.State Name V) (ht : FitsOn Name κ train) (a : ClfArgs (List Name))
    (X : List (List Name)) (y : List L) (code : ℕ → ℕ → R) (f : WithTop R → S) (tab : List (Name × List Bool)) (n : ℕ) :
    predictFrame code f (fit train a X y) tab n = predict (slimDecision code f) (fit train a X y) (Slim.rowsOf tab n) := by
  have hm : ∀ m ∈ (fit train a X y).models, Slim.Good m.sct m.ct := by
    intro m hm
    obtain ⟨p, _, rfl⟩ := List.mem_map.1 hm
    exact (good_of_fitsOn ht p.1 p.2).1
  have hd : ∀ m : Slim.State Name V, Slim.Good m.sct m.ct → decisionFrame code f tab n m = slimDecision code f m (Slim.rowsOf tab n) := by
    intro m hg
    unfold decisionFrame slimDecision
    rw [Slim.code_length_table_good m hg]
    cases Slim.getCodeLength code m (Slim.rowsOf tab n) <;> rfl
  unfold predictFrame predict
  have hl : (Slim.rowsOf tab n).length = n := by simp [Slim.rowsOf]
  rw [List.length_replicate, hl]
  congr 1
  funext t
  have : ∀ ms : List (Slim.State Name V), (∀ m ∈ ms, Slim.Good m.sct m.ct) →
      ms.mapM (fun m => (decisionFrame code f tab n m)[t]?) = ms.mapM (fun m => (slimDecision code f m (Slim.rowsOf tab n))[t]?) := by
    intro ms
    induction ms with
    | nil => intro _; rfl
    | cons m ms ih =>
      intro h
      rw [List.mapM_cons, List.mapM_cons, ih (fun m' hm' => h m' (List.mem_cons_of_mem _ hm')), hd m (h m List.mem_cons_self)]
  rw [this _ hm]

/-- C162 fails: when no column of the samples is named by a single letter and no given item names one, every sample gets the smallest label. -/
theorem predict_frame_smallest (train : SlimArgs (List Name) → List (List Name) → Slim.State Name V) (ht : FitsOn Name κ train) (a : ClfArgs (List Name))
    (tab : List (Name × List Bool)) (y : List L) (clf : Clf L (List Name) (Slim.State Name V) (List Name)) (hfit : fitFrame train a tab y = .ok clf) (code : ℕ → ℕ → R) (f : WithTop R → S)
    (hf : StrictAnti f) (Q : List (Name × List Bool)) (n : ℕ) (hQ : ∀ q ∈ Q, q.1.length ≠ 1 ∧ q.1 ∉ a.items) (c : L) (hc : c ∈ y) (hmin : ∀ c' ∈ y, c ≤ c') :
    predictFrame code f clf Q n = some (List.replicate n c) := by
  have hall : ∀ c ∈ y, c ∈ y.take tab.length := by
    by_contra h
    push Not at h
    rw [(frame_fit_raises train a tab y).2 h] at hfit
    cases hfit
  have hclf : clf = fit train a (tab.map (fun c => letters c.1)) y := by
    unfold fitFrame at hfit
    simp only at hfit
    split_ifs at hfit
    exact (Except.ok.inj hfit).symm
  have hlen : (tab.map (fun c => letters c.1)).length = tab.length := List.length_map _
  rw [hclf, predict_frame train ht, fit_zip train a _ y (by rw [hlen]; exact hall), hlen]
  rw [unknown_smallest train ht a _ _ (by simp [Nat.min_comm]) (List.ne_nil_of_mem (hall c hc)) code f hf (Slim.rowsOf Q n) ?_ c (hall c hc) (fun c' hc' => hmin c' (List.mem_of_mem_take hc'))]
  · rw [List.map_const']
    simp [Slim.rowsOf]
  · intro q hq v hv
    obtain ⟨t, _, rfl⟩ := List.mem_map.1 hq
    obtain ⟨e, he, rfl⟩ := List.mem_map.1 hv
    obtain ⟨h1, h2⟩ := hQ e (List.mem_filter.1 he).1
    refine ⟨h2, fun x hx hvx => ?_⟩
    obtain ⟨k, _, rfl⟩ := List.mem_map.1 (List.mem_of_mem_take hx)
    obtain ⟨ch, _, hch⟩ := List.mem_map.1 hvx
    exact h1 (by rw [← hch]; rfl)

/-- C162, where it holds: with a single label and at least one column, `fit` works and every sample gets the label, as with the list of the rows. -/
theorem one_label_partial (train : SlimArgs (List Name) → List (List Name) → Slim.State Name V) (ht : FitsOn Name κ train) (a : ClfArgs (List Name))
    (tab : List (Name × List Bool)) (htab : tab ≠ []) (k : ℕ) (hk : k ≠ 0) (c : L) (code : ℕ → ℕ → R) (f : WithTop R → S) (hf : StrictAnti f) (Q : List (Name × List Bool)) (n : ℕ) :
    ∃ clf, fitFrame train a tab (List.replicate k c) = .ok clf ∧ predictFrame code f clf Q n = some (List.replicate n c) ∧
      predict (slimDecision code f) (fit train a (Slim.rowsOf tab k) (List.replicate k c)) (Slim.rowsOf Q n) = some (List.replicate n c) := by
  have hall : ∀ c' ∈ List.replicate k c, c' ∈ (List.replicate k c).take tab.length := by
    intro c' hc'
    rw [List.take_replicate, (List.mem_replicate.1 hc').2]
    exact List.mem_replicate.2 ⟨by have := List.length_pos_iff.2 htab; omega, rfl⟩
  have hone : ∀ (X : List (List Name)) (m : ℕ), m ≠ 0 → X.length = m → predict (slimDecision code f) (fit train a X (List.replicate m c)) (Slim.rowsOf Q n) = some (List.replicate n c) := by
    intro X m hm hX
    obtain ⟨labels, h1, h2, h3⟩ := predict_shortest train (fun args D => by
      obtain ⟨P, O, fuel, hO, h⟩ := ht args D
      exact ⟨P, O, args.items, fuel, hO, h⟩) a X (List.replicate m c) (by simp [hX]) (by simp [hm]) code f hf (Slim.rowsOf Q n)
    rw [h1]
    congr 1
    have hl : (Slim.rowsOf Q n).length = n := by simp [Slim.rowsOf]
    rw [hl] at h2
    refine List.eq_replicate_iff.2 ⟨h2, fun b hb => ?_⟩
    obtain ⟨t, htl, rfl⟩ := List.getElem_of_mem hb
    obtain ⟨c', e1, e2, -⟩ := h3 t (Slim.rowsOf Q n)[t] (List.getElem?_eq_getElem (by omega))
    rw [List.getElem?_eq_getElem htl] at e1
    rw [Option.some.inj e1]
    exact (List.mem_replicate.1 e2).2
  have hlen : (tab.map (fun c => letters c.1)).length = tab.length := List.length_map _
  refine ⟨fit train a (tab.map (fun c => letters c.1)) (List.replicate k c), ?_, ?_, hone _ k hk (by simp [Slim.rowsOf])⟩
  · have h := (classesX_empty train a (tab.map (fun c => letters c.1)) (List.replicate k c)).not
    rw [hlen] at h
    unfold fitFrame
    simp only
    rw [if_neg (h.2 (by push Not; exact hall))]
  · rw [predict_frame train ht, fit_zip train a _ _ (by rw [hlen]; exact hall), hlen, List.take_replicate]
    exact hone _ _ (by have := List.length_pos_iff.2 htab; omega) (by simp [Nat.min_comm])

/-! ## Examples -/

/-- An environment where no candidate has a positive estimated gain. -/
noncomputable def noGainOn (α : Type*) [LinearOrder α] : Slim.Oracle α := ⟨fun _ tab => tab, fun _ _ _ _ => 0, fun _ _ => minChoose, fun _ => false⟩

theorem genInner_none (x : Finset α × Finset ℕ) (Y : Slim.Table α) (stack : Finset (Finset α)) : (Slim.genInner (fun _ _ => 0) x Y stack).1 = [] := by
  induction Y generalizing stack with
  | nil => rfl
  | cons y Y ih =>
    unfold Slim.genInner
    split_ifs
    · exact ih _
    · exact ih _
    · exact ih _
    · exact absurd ‹_› (lt_irrefl _)
    · exact ih _

theorem genOuter_none (Y : Slim.Table α) (stack : Finset (Finset α)) : (Slim.genOuter (fun _ _ => 0) Y stack).1 = [] := by
  induction Y generalizing stack with
  | nil => rfl
  | cons y Y ih =>
    unfold Slim.genOuter
    split_ifs
    · exact ih _
    · simp [genInner_none, ih]

/-- Training without gains: the code table of singletons. -/
def namesTrain (args : SlimArgs (List Name)) (D : List (List Name)) : Slim.State Name ℕ :=
  Slim.prefit ((⟨[], args.pruning, sortSet, fun tab => (tab.map (fun e => e.2.card)).sum, fun sct => (sct.map (fun e => e.2.card)).sum⟩ : Slim.Settings Name ℕ).params (Slim.sctOf args.items D) []) args.items D

theorem namesTrain_fits : FitsOn Name (Slim.CoverKey Name) namesTrain := by
  intro args D
  refine ⟨(⟨[], args.pruning, sortSet, fun tab => (tab.map (fun e => e.2.card)).sum, fun sct => (sct.map (fun e => e.2.card)).sum⟩ : Slim.Settings Name ℕ).params (Slim.sctOf args.items D) [], noGainOn Name, 1, ⟨fun _ _ => List.Perm.refl _, fun _ _ => minChoose_ok⟩, ?_⟩
  unfold Slim.fit Slim.fitLoop Slim.generateCandidates noGainOn
  dsimp only
  rw [genOuter_none]
  rfl

/-- Two samples and two columns, `aa` and `bb`: the first sample has `aa`, the second one `bb`. -/
def twoNames : List (Name × List Bool) := [([97, 97], [true, false]), ([98, 98], [false, true])]

/-- The hypotheses of `predict_frame_smallest` hold. The samples are told apart when they are given as lists; as a data frame both get the label 1. -/
theorem frame_and_list_differ :
    Slim.rowsOf twoNames 2 = [[[97, 97]], [[98, 98]]] ∧
    predict (slimDecision (fun u n => n - u + 1) (fun x : WithTop ℕ => OrderDual.toDual x)) (fit namesTrain ⟨[], true⟩ (Slim.rowsOf twoNames 2) [1, 2]) (Slim.rowsOf twoNames 2) = some [1, 2] ∧
    ∃ clf, fitFrame namesTrain ⟨[], true⟩ twoNames [1, 2] = .ok clf ∧ predictFrame (fun u n => n - u + 1) (fun x : WithTop ℕ => OrderDual.toDual x) clf twoNames 2 = some [1, 1] := by
  refine ⟨by decide, by decide +kernel, ?_⟩
  cases h : fitFrame namesTrain ⟨[], true⟩ twoNames [1, 2] with
  | error e =>
    exfalso
    unfold fitFrame at h
    simp only at h
    split_ifs at h with h1
    obtain ⟨c, hc, hn⟩ := (classesX_empty _ _ _ _).1 h1
    exact hn hc
  | ok clf =>
    exact ⟨clf, rfl, predict_frame_smallest (κ := Slim.CoverKey Name) (L := ℕ) namesTrain namesTrain_fits ⟨[], true⟩ twoNames [1, 2] clf h _ _ (fun _ _ h => h) twoNames 2 (by decide) 1 (by decide) (by decide)⟩

/-- Three samples and two columns: the label 2 comes too late, `fit` raises. -/
example : fitFrame namesTrain ⟨[], true⟩ [([97, 97], [true, false, true]), ([98, 98], [false, true, true])] [1, 1, 2] = .error .valueError := (frame_fit_raises _ _ _ _).2 ⟨2, by decide, by decide⟩

/-- The hypotheses of `one_label_partial` hold. -/
example : ∃ clf, fitFrame namesTrain ⟨[], true⟩ twoNames [7, 7, 7] = .ok clf ∧ predictFrame (fun u n => n - u + 1) (fun x : WithTop ℕ => OrderDual.toDual x) clf twoNames 2 = some [7, 7] := by
  obtain ⟨clf, h1, h2, -⟩ := one_label_partial (κ := Slim.CoverKey Name) (L := ℕ) namesTrain namesTrain_fits ⟨[], true⟩ twoNames (by decide) 3 (by decide) 7 (fun u n => n - u + 1) (fun x : WithTop ℕ => OrderDual.toDual x) (fun _ _ h => h) twoNames 2
  exact ⟨clf, h1, h2⟩

end Verif.Classify
