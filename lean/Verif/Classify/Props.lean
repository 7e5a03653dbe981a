import Verif.Classify.Model
import Mathlib.Order.Monotone.Basic

/-! # Properties of `SlimClassifier` (C21, C22) -/

set_option autoImplicit false
set_option linter.unusedSectionVars false

namespace Verif.Classify

variable {L T M S I : Type*} [LinearOrder L] [LinearOrder S]

theorem argmax_spec (l : List S) (hl : l ≠ []) : ∃ i s, argmax l = some (i, s) ∧ l[i]? = some s ∧
    (∀ (j : ℕ) s', l[j]? = some s' → s' ≤ s) ∧ ∀ (j : ℕ) s', j < i → l[j]? = some s' → s' < s := by
  induction l with
  | nil => exact absurd rfl hl
  | cons a l ih =>
    cases l with
    | nil =>
      refine ⟨0, a, rfl, rfl, fun j s' h => ?_, fun j s' h => absurd h (by omega)⟩
      cases j with
      | zero => simp at h; rw [h]
      | succ j => simp at h
    | cons b l =>
      obtain ⟨i, s, h1, h2, h3, h4⟩ := ih (by simp)
      unfold argmax
      rw [h1]
      simp only
      by_cases hle : s ≤ a
      · rw [if_pos hle]
        refine ⟨0, a, rfl, rfl, fun j s' h => ?_, fun j s' h => absurd h (by omega)⟩
        cases j with
        | zero => simp at h; rw [h]
        | succ j => exact (h3 j s' (by simpa using h)).trans hle
      · rw [if_neg hle]
        refine ⟨i + 1, s, rfl, by simpa using h2, fun j s' h => ?_, fun j s' hj h => ?_⟩
        · cases j with
          | zero => simp at h; rw [← h]; exact (not_le.1 hle).le
          | succ j => exact h3 j s' (by simpa using h)
        · cases j with
          | zero => simp at h; rw [← h]; exact not_le.1 hle
          | succ j => exact h4 j s' (by omega) (by simpa using h)

/-- The training transactions with label `c`, by increasing index. -/
def trainingOf (X : List T) (y : List L) (c : L) : List T :=
  (List.range X.length).filterMap (fun i => if y[i]? = some c then X[i]? else none)

theorem zip_filter_eq (X : List T) (y : List L) (h : X.length = y.length) (c : L) :
    ((X.zip y).filter (fun p => p.2 = c)).map Prod.fst = trainingOf X y c := by
  unfold trainingOf
  induction X generalizing y with
  | nil => rfl
  | cons x X ih =>
    cases y with
    | nil => simp at h
    | cons b y =>
      rw [List.zip_cons_cons, List.length_cons, List.range_succ_eq_map, List.filterMap_cons, List.filterMap_map]
      have h2 := ih y (by simpa using h)
      by_cases hb : b = c
      · rw [List.filter_cons_of_pos (by simpa using hb), List.map_cons, h2]
        simp only [List.getElem?_cons_zero, hb, if_true]
        rfl
      · rw [List.filter_cons_of_neg (by simpa using hb), h2]
        simp only [List.getElem?_cons_zero, Option.some.injEq, hb, if_false]
        rfl

/-- C21, training. The classes are the distinct labels in increasing order; the model of a class is trained on exactly the training
transactions of that class, in order. -/
theorem fit_split (train : SlimArgs I → List T → M) (a : ClfArgs I) (X : List T) (y : List L) (h : X.length = y.length) :
    (fit train a X y).classes.Pairwise (· < ·) ∧ (∀ c, c ∈ (fit train a X y).classes ↔ c ∈ y) ∧
    (fit train a X y).models.length = (fit train a X y).classes.length ∧
    ∀ (i : ℕ) c, (fit train a X y).classes[i]? = some c →
      (fit train a X y).classesX[i]? = some (trainingOf X y c) ∧
      ∃ args, (fit train a X y).args[i]? = some args ∧ (fit train a X y).models[i]? = some (train args (trainingOf X y c)) := by
  refine ⟨strict_sortSet y.toFinset, fun c => ?_, by simp [fit], fun i c hi => ?_⟩
  · change c ∈ sortSet y.toFinset ↔ _
    rw [mem_sortSet, List.mem_toFinset]
  · change (sortSet y.toFinset)[i]? = some c at hi
    have h1 : ((sortSet y.toFinset).map (fun c => ((X.zip y).filter (fun p => p.2 = c)).map Prod.fst))[i]? =
        some (trainingOf X y c) := by
      rw [List.getElem?_map, hi, Option.map_some, zip_filter_eq X y h]
    have h2 : ((sortSet y.toFinset).map (fun _ => slimDefault a.items))[i]? = some (slimDefault a.items) := by
      rw [List.getElem?_map, hi]; rfl
    refine ⟨h1, _, h2, ?_⟩
    unfold fit
    simp only
    rw [List.getElem?_map, (List.getElem?_zip_eq_some (z := (slimDefault a.items, trainingOf X y c))).2 ⟨h2, h1⟩]
    rfl

theorem mapM_spec {β γ : Type*} (f : β → Option γ) (l : List β) (h : ∀ x ∈ l, ∃ y, f x = some y) :
    ∃ out, l.mapM f = some out ∧ out.length = l.length ∧ ∀ (i : ℕ) x, l[i]? = some x → out[i]? = f x := by
  induction l with
  | nil => exact ⟨[], rfl, rfl, fun i x hx => by simp at hx⟩
  | cons x l ih =>
    obtain ⟨out, h1, h2, h3⟩ := ih (fun y hy => h y (List.mem_cons_of_mem _ hy))
    obtain ⟨y, hy⟩ := h x List.mem_cons_self
    refine ⟨y :: out, by rw [List.mapM_cons, hy, h1]; rfl, by simp [h2], fun i z hz => ?_⟩
    cases i with
    | zero =>
      simp only [List.getElem?_cons_zero, Option.some.injEq] at hz
      rw [← hz, hy]; rfl
    | succ i => exact h3 i z (by simpa using hz)

/-- C21, prediction. For training data that is not empty, `predict` returns one label per transaction: a training label whose model
gives the transaction the highest score, and the smallest such label. -/
theorem predict_best (train : SlimArgs I → List T → M) (a : ClfArgs I) (X : List T) (y : List L) (h : X.length = y.length)
    (hy : y ≠ []) (decision : M → List T → List S) 
    (hd : ∀ args D Q, (decision (train args D) Q).length = Q.length) (Q : List T) :
    ∃ labels, predict decision (fit train a X y) Q = some labels ∧ labels.length = Q.length ∧
      ∀ (t : ℕ), t < Q.length → ∃ c s, labels[t]? = some c ∧ c ∈ y ∧
        (decision (train (slimDefault a.items) (trainingOf X y c)) Q)[t]? = some s ∧
        ∀ c' ∈ y, ∃ s', (decision (train (slimDefault a.items) (trainingOf X y c')) Q)[t]? = some s' ∧
          s' ≤ s ∧ (c' < c → s' < s) := by
  obtain ⟨f1, f2, f3, f4⟩ := fit_split train a X y h
  have hmod : ∀ (i : ℕ) c, (fit train a X y).classes[i]? = some c →
      (fit train a X y).models[i]? = some (train (slimDefault a.items) (trainingOf X y c)) := by
    intro i c hi
    obtain ⟨_, args, h1, h2⟩ := f4 i c hi
    have : (fit train a X y).args[i]? = some (slimDefault a.items) := by
      change ((sortSet y.toFinset).map (fun _ => slimDefault a.items))[i]? = _
      rw [List.getElem?_map]
      change (sortSet y.toFinset)[i]? = some c at hi
      rw [hi]; rfl
    rw [this, Option.some.injEq] at h1
    rw [h1]
    exact h2
  have key : ∀ t, t < Q.length → ∃ c s, ((fit train a X y).models.mapM (fun m => (decision m Q)[t]?)).bind
        (fun scores => (argmax scores).bind (fun i => (fit train a X y).classes[i.1]?)) = some c ∧ c ∈ y ∧
        (decision (train (slimDefault a.items) (trainingOf X y c)) Q)[t]? = some s ∧
        ∀ c' ∈ y, ∃ s', (decision (train (slimDefault a.items) (trainingOf X y c')) Q)[t]? = some s' ∧
          s' ≤ s ∧ (c' < c → s' < s) := by
    intro t ht
    have hsome : ∀ m ∈ (fit train a X y).models, ∃ s, (decision m Q)[t]? = some s := by
      intro m hm
      obtain ⟨p, _, rfl⟩ := List.mem_map.1 hm
      exact ⟨_, List.getElem?_eq_getElem (by rw [hd]; exact ht)⟩
    obtain ⟨scores, g1, g2, g3⟩ := mapM_spec (fun m => (decision m Q)[t]?) _ hsome
    have hne : scores ≠ [] := by
      intro h0
      rw [h0, f3] at g2
      obtain ⟨c, hc⟩ := List.exists_mem_of_ne_nil y hy
      have := (f2 c).2 hc
      rw [List.eq_nil_of_length_eq_zero g2.symm] at this
      cases this
    obtain ⟨i, s, a1, a2, a3, a4⟩ := argmax_spec scores hne
    have hilt : i < (fit train a X y).classes.length := by
      rw [← f3, ← g2]; exact (List.getElem?_eq_some_iff.1 a2).1
    obtain ⟨c, hc⟩ : ∃ c, (fit train a X y).classes[i]? = some c := ⟨_, List.getElem?_eq_getElem hilt⟩
    refine ⟨c, s, ?_, (f2 c).1 (List.mem_of_getElem? hc), ?_, fun c' hc' => ?_⟩
    · rw [g1, Option.bind_some, a1, Option.bind_some, hc]
    · rw [← a2]; exact (g3 i _ (hmod i c hc)).symm
    · obtain ⟨j, hj⟩ := List.mem_iff_getElem?.1 ((f2 c').2 hc')
      have hsj := g3 j _ (hmod j c' hj)
      have hjlt : j < scores.length := by rw [g2, f3]; exact (List.getElem?_eq_some_iff.1 hj).1
      refine ⟨scores[j], by rw [← hsj]; exact List.getElem?_eq_getElem hjlt, a3 j _ (List.getElem?_eq_getElem hjlt), fun hlt => ?_⟩
      refine a4 j _ ?_ (List.getElem?_eq_getElem hjlt)
      by_contra hij
      rcases Nat.lt_or_eq_of_le (not_lt.1 hij) with h5 | h5
      · rw [List.getElem?_eq_some_iff] at hc hj
        obtain ⟨q1, rfl⟩ := hc
        obtain ⟨q2, rfl⟩ := hj
        exact absurd (List.pairwise_iff_getElem.1 f1 i j q1 q2 h5) (lt_asymm hlt)
      · subst h5
        rw [hc, Option.some.injEq] at hj
        exact absurd hlt (by rw [hj]; exact lt_irrefl _)
  have hall : ∀ t ∈ List.range Q.length, ∃ c, ((fit train a X y).models.mapM (fun m => (decision m Q)[t]?)).bind
        (fun scores => (argmax scores).bind (fun i => (fit train a X y).classes[i.1]?)) = some c := by
    intro t ht
    obtain ⟨c, _, hc, _⟩ := key t (List.mem_range.1 ht)
    exact ⟨c, hc⟩
  obtain ⟨labels, l1, l2, l3⟩ := mapM_spec _ _ hall
  refine ⟨labels, l1, by rw [l2, List.length_range], fun t ht => ?_⟩
  obtain ⟨c, s, k1, k2, k3, k4⟩ := key t ht
  exact ⟨c, s, by rw [l3 t t (by rw [List.getElem?_range ht]), k1], k2, k3, k4⟩

/-- `decision_function` of a SLIM model, `/repo/skmine/itemsets/slim.py:244-275`: `f` is `exp(-0.2 * x)`. -/
def slimDecision {α V R : Type*} [LinearOrder α] [LinearOrder V] [LinearOrder R] [AddCommMonoid R] (code : ℕ → ℕ → R)
    (f : WithTop R → S) (m : Slim.State α V) (Q : List (List α)) : List S :=
  match Slim.getCodeLength code m Q with
  | .ok ls => ls.map f
  | .error _ => []

/-- C21 with fitted SLIM models: when the score is strictly decreasing in the code length, the predicted label is one whose model
encodes the transaction with the shortest code (`Slim.lengthOf`: sum of the codes of the itemsets of its greedy cover, infinite when zero), the
smallest such label. Floating point `exp` is only weakly decreasing for very different lengths (underflow). -/
theorem predict_shortest {α κ V R : Type*} [LinearOrder α] [LinearOrder κ] [LinearOrder V] [LinearOrder R] [AddCommMonoid R]
    (train : SlimArgs I → List (List α) → Slim.State α V)
    (htrain : ∀ args D, ∃ (P : Slim.Params α κ V) (O : Slim.Oracle α) (items : List α) (fuel : ℕ), Slim.OracleOk O ∧
      Slim.fit P O items fuel D = some (.ok (train args D)))
    (a : ClfArgs I) (X : List (List α)) (y : List L) (h : X.length = y.length) (hy : y ≠ []) (code : ℕ → ℕ → R)
    (f : WithTop R → S) (hf : StrictAnti f) (Q : List (List α)) :
    ∃ labels, predict (slimDecision code f) (fit train a X y) Q = some labels ∧ labels.length = Q.length ∧
      ∀ (t : ℕ) tr, Q[t]? = some tr → ∃ c, labels[t]? = some c ∧ c ∈ y ∧ ∀ c' ∈ y,
        Slim.lengthOf code (train (slimDefault a.items) (trainingOf X y c)) tr ≤
          Slim.lengthOf code (train (slimDefault a.items) (trainingOf X y c')) tr ∧
        (c' < c → Slim.lengthOf code (train (slimDefault a.items) (trainingOf X y c)) tr <
          Slim.lengthOf code (train (slimDefault a.items) (trainingOf X y c')) tr) := by
  have hdec : ∀ args D Q, slimDecision code f (train args D) Q = Q.map (fun tr => f (Slim.lengthOf code (train args D) tr)) := by
    intro args D Q
    obtain ⟨P, O, items, fuel, hO, hfit⟩ := htrain args D
    obtain ⟨st', h1, h2⟩ := Slim.fit_result P O hO items D fuel _ hfit
    simp only [Except.ok.injEq] at h1
    subst h1
    have hg : Slim.Good (train args D).sct (train args D).ct := by rw [h2.sct]; exact h2.good
    unfold slimDecision
    rw [Slim.getCodeLength_good _ hg code Q]
    simp only [List.map_map]
    rfl
  obtain ⟨labels, h1, h2, h3⟩ := predict_best train a X y h hy (slimDecision code f) (fun args D Q => by rw [hdec]; simp) Q
  refine ⟨labels, h1, h2, fun t tr htr => ?_⟩
  obtain ⟨c, s, k1, k2, k3, k4⟩ := h3 t (List.getElem?_eq_some_iff.1 htr).1
  refine ⟨c, k1, k2, fun c' hc' => ?_⟩
  obtain ⟨s', m1, m2, m3⟩ := k4 c' hc'
  rw [hdec, List.getElem?_map, htr, Option.map_some, Option.some.injEq] at k3 m1
  subst k3 m1
  exact ⟨hf.le_iff_ge.1 m2, fun hlt => hf.lt_iff_gt.1 (m3 hlt)⟩

/-- C22 fails: the models are always trained with `pruning=True`. -/
theorem pruning_ignored (train : SlimArgs I → List T → M) (a : ClfArgs I) (X : List T) (y : List L) :
    ∀ args ∈ (fit train a X y).args, args.pruning = true ∧ args.items = a.items := by
  intro args h
  obtain ⟨_, _, rfl⟩ := List.mem_map.1 h
  exact ⟨rfl, rfl⟩

/-- C22, what holds: with `pruning=True` the models are trained with `pruning=True`. Missing: `pruning=False`, the default of
the classifier. -/
theorem pruning_partial (train : SlimArgs I → List T → M) (a : ClfArgs I) (ha : a.pruning = true) (X : List T) (y : List L) :
    ∀ args ∈ (fit train a X y).args, args.pruning = a.pruning := by
  intro args h
  rw [ha]
  exact (pruning_ignored train a X y args h).1

/-- C22 fails for every non-empty training set with `pruning=False`. -/
theorem pruning_not_honoured (train : SlimArgs I → List T → M) (a : ClfArgs I) (ha : a.pruning = false) (X : List T) (y : List L)
    (hy : y ≠ []) : ∃ args ∈ (fit train a X y).args, args.pruning ≠ a.pruning := by
  obtain ⟨c, hc⟩ := List.exists_mem_of_ne_nil y hy
  refine ⟨slimDefault a.items, List.mem_map.2 ⟨c, ?_, rfl⟩, by rw [ha]; simp [slimDefault]⟩
  rw [mem_sortSet, List.mem_toFinset]
  exact hc

/-- Labels `5, 3, 5`; the score of a transaction is minus the distance to the first training transaction. A tie goes to `3`. -/
example : predict (fun (m : ℕ) Q => Q.map (fun q : ℕ => -(((q : Int) - m).natAbs : Int)))
    (fit (fun (_ : SlimArgs Unit) (X : List ℕ) => X.headD 0) ⟨(), false⟩ [10, 20, 30] [5, 3, 5]) [11, 19, 15] = some [5, 3, 3] := by
  decide

example : trainingOf [10, 20, 30] [5, 3, 5] 5 = [10, 30] := by decide

end Verif.Classify
