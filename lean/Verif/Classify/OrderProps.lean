import Verif.Classify.Props
import Verif.Slim.OrderProps

/-!
# `SlimClassifier` does not depend on the order of the training samples nor on the other samples to classify (C115)
-/

set_option autoImplicit false
set_option linter.unusedSectionVars false

namespace Verif.Classify

variable {L T M S I α V R : Type*} [LinearOrder L] [LinearOrder S] [LinearOrder α] [LinearOrder V] [LinearOrder R] [AddCommMonoid R]

/-! ## Specification -/

/-- The same labelled transactions in some order, when a transaction is seen as the set of its items. -/
def SameSamples (X : List (List α)) (y : List L) (X' : List (List α)) (y' : List L) : Prop :=
  ((X.map List.toFinset).zip y).Perm ((X'.map List.toFinset).zip y')

/-- `train` is the fit of a new SLIM object. What the model of SLIM leaves open (sizes, gains, iteration orders) depends on the data
only up to their order, and on itemsets and counts only. -/
structure Trains (train : SlimArgs I → List (List α) → Slim.State α V) : Prop where
  slim : ∃ (Z : SlimArgs I → List (List α) → Slim.Settings α V) (O : SlimArgs I → List (List α) → Slim.Oracle α)
      (fuel : SlimArgs I → List (List α) → ℕ) (asked : SlimArgs I → List (List α) → List (List α)),
    (∀ args D D', Slim.SameData D D' → Z args D' = Z args D ∧ O args D' = O args D ∧ fuel args D' = fuel args D ∧ asked args D' = asked args D) ∧
    (∀ args D, (∀ (Y : Finset α) (a : α), a ∈ (Z args D).iter Y ↔ a ∈ Y) ∧ Slim.CountsOnly ((Z args D).params [] []) ∧
      Slim.OracleOk (O args D) ∧ Slim.OracleCounts (O args D)) ∧
    ∀ args D, (Slim.srun (Z args D) Slim.SObj.new [.fit (O args D) (fuel args D) D (asked args D)]).st = some (train args D)

/-! ## Lemmas -/

theorem predict_congr (decision : M → List T → List S) (clf clf' : Clf L T M I) (Q : List T) (hc : clf'.classes = clf.classes)
    (hm : clf'.models.map (fun m => decision m Q) = clf.models.map (fun m => decision m Q)) : predict decision clf' Q = predict decision clf Q := by
  unfold predict
  congr 1
  funext t
  have key : ∀ ms : List M, ms.mapM (fun m => (decision m Q)[t]?) = (ms.map (fun m => decision m Q)).mapM (fun r => r[t]?) := by
    intro ms
    induction ms with
    | nil => rfl
    | cons m ms ih => rw [List.map_cons, List.mapM_cons, List.mapM_cons, ih]
  rw [key, key, hm, hc]

theorem zip_map_fst {β γ : Type*} (f : β → γ) (X : List β) (y : List L) : (X.map f).zip y = (X.zip y).map (fun p => (f p.1, p.2)) := by
  induction X generalizing y with
  | nil => rfl
  | cons x X ih =>
    cases y with
    | nil => rfl
    | cons c y => rw [List.map_cons, List.zip_cons_cons, List.zip_cons_cons, List.map_cons, ih]

theorem part_sets (X : List (List α)) (y : List L) (c : L) :
    (((X.zip y).filter (fun p => p.2 = c)).map Prod.fst).map List.toFinset =
      (((X.map List.toFinset).zip y).filter (fun p => p.2 = c)).map Prod.fst := by
  rw [zip_map_fst, List.filter_map, List.map_map, List.map_map]
  rfl

theorem labels_zip (X : List T) (y : List L) (h : X.length = y.length) : (X.zip y).map Prod.snd = y := by
  rw [List.map_snd_zip]
  omega

theorem decision_order (train : SlimArgs I → List (List α) → Slim.State α V) (ht : Trains train) (code : ℕ → ℕ → R) (f : WithTop R → S)
    (args : SlimArgs I) (D D' : List (List α)) (h : Slim.SameData D D') (Q : List (List α)) :
    slimDecision code f (train args D') Q = slimDecision code f (train args D) Q := by
  obtain ⟨Z, O, fuel, asked, h1, h2, h3⟩ := ht.slim
  obtain ⟨e1, e2, e3, e4⟩ := h1 args D D' h
  obtain ⟨g1, g2, g3, g4⟩ := h2 args D
  obtain ⟨_, _, hr⟩ := Slim.order_irrelevant code (Z args D) g1 g2 D D' h [.fit (O args D) (fuel args D) D (asked args D)]
    (fun op hop => by rw [List.mem_singleton.1 hop]; exact ⟨⟨rfl, g3⟩, g4⟩)
  have a1 := h3 args D
  have a2 := h3 args D'
  rw [e1, e2, e3, e4] at a2
  rcases hr with ⟨hn, _⟩ | ⟨st, st', k1, k2, _, _, k3⟩
  · rw [a1] at hn; cases hn
  · rw [a1] at k1
    have k2' : (Slim.srun (Z args D) Slim.SObj.new [.fit (O args D) (fuel args D) D' (asked args D)]).st = some st' := k2
    rw [a2] at k2'
    cases k1
    cases k2'
    unfold slimDecision
    rw [(k3 Q).2]

/-! ## Theorems -/

/-- C115. The predictions do not depend on the order of the training samples, nor on the order and repetition of the items in them. -/
theorem training_order (train : SlimArgs I → List (List α) → Slim.State α V) (ht : Trains train) (a : ClfArgs I) (X X' : List (List α))
    (y y' : List L) (hl : X.length = y.length) (hl' : X'.length = y'.length) (h : SameSamples X y X' y') (code : ℕ → ℕ → R)
    (f : WithTop R → S) (Q : List (List α)) :
    (fit train a X' y').classes = (fit train a X y).classes ∧
    predict (slimDecision code f) (fit train a X' y') Q = predict (slimDecision code f) (fit train a X y) Q := by
  have hy : y'.toFinset = y.toFinset := by
    have h1 := h.map Prod.snd
    rw [labels_zip _ _ (by simpa using hl), labels_zip _ _ (by simpa using hl')] at h1
    exact (List.toFinset_eq_of_perm _ _ h1).symm
  have hc : (fit train a X' y').classes = (fit train a X y).classes := by
    change sortSet y'.toFinset = sortSet y.toFinset
    rw [hy]
  refine ⟨hc, predict_congr _ _ _ Q hc ?_⟩
  have key : ∀ (X : List (List α)) (y : List L), (fit train a X y).models =
      (sortSet y.toFinset).map (fun c => train (slimDefault a.items) (((X.zip y).filter (fun p => p.2 = c)).map Prod.fst)) := by
    intro X y
    unfold fit
    dsimp only
    induction sortSet y.toFinset with
    | nil => rfl
    | cons c cs ih => rw [List.map_cons, List.map_cons, List.zip_cons_cons, List.map_cons, List.map_cons, ih]
  rw [key, key, hy, List.map_map, List.map_map]
  apply List.map_congr_left
  intro c _
  refine decision_order train ht code f _ _ _ ?_ Q
  unfold Slim.SameData
  rw [part_sets, part_sets]
  exact ((h.filter _).map _).filter _

/-- C115. A label depends only on its own transaction: classifying many transactions in one call is classifying each of them in a call of its own. -/
theorem query_rowwise (train : SlimArgs I → List (List α) → Slim.State α V) (ht : Trains train) (a : ClfArgs I) (X : List (List α))
    (y : List L) (code : ℕ → ℕ → R) (f : WithTop R → S) (Q : List (List α)) :
    predict (slimDecision code f) (fit train a X y) Q =
      Q.mapM (fun q => (predict (slimDecision code f) (fit train a X y) [q]).bind List.head?) := by
  obtain ⟨Z, O, fuel, asked, h1, h2, h3⟩ := ht.slim
  have hdec : ∀ m ∈ (fit train a X y).models, ∀ Q, slimDecision code f m Q = Q.map (fun tr => f (Slim.lengthOf code m tr)) := by
    intro m hm Q
    obtain ⟨p, _, rfl⟩ := List.mem_map.1 hm
    obtain ⟨_, _, hO, _⟩ := h2 p.1 p.2
    have hst := h3 p.1 p.2
    have hfit : Slim.fit ((Z p.1 p.2).params (Slim.sctOf (Z p.1 p.2).items p.2) []) (O p.1 p.2) (Z p.1 p.2).items (fuel p.1 p.2) p.2 = some (.ok (train p.1 p.2)) := by
      change (Slim.fit ((Z p.1 p.2).params (Slim.sctOf (Z p.1 p.2).items p.2) []) (O p.1 p.2) (Z p.1 p.2).items (fuel p.1 p.2) p.2).bind Except.toOption = _ at hst
      revert hst
      rcases Slim.fit ((Z p.1 p.2).params (Slim.sctOf (Z p.1 p.2).items p.2) []) (O p.1 p.2) (Z p.1 p.2).items (fuel p.1 p.2) p.2 with _ | e | st
      · intro hst; cases hst
      · intro hst; cases hst
      · intro hst; cases hst; rfl
    have hg := (Slim.fit_good _ _ hO _ _ _ _ hfit).1
    unfold slimDecision
    rw [Slim.getCodeLength_good _ hg code Q]
    simp only [List.map_map]
    rfl
  have hrow : ∀ (Q : List (List α)) (t : ℕ), (fit train a X y).models.mapM (fun m => (slimDecision code f m Q)[t]?) =
      (fit train a X y).models.mapM (fun m => Q[t]?.map (fun tr => f (Slim.lengthOf code m tr))) := by
    intro Q t
    have : ∀ ms : List (Slim.State α V), (∀ m ∈ ms, ∀ Q, slimDecision code f m Q = Q.map (fun tr => f (Slim.lengthOf code m tr))) →
        ms.mapM (fun m => (slimDecision code f m Q)[t]?) = ms.mapM (fun m => Q[t]?.map (fun tr => f (Slim.lengthOf code m tr))) := by
      intro ms
      induction ms with
      | nil => exact fun _ => rfl
      | cons m ms ih =>
        intro h
        rw [List.mapM_cons, List.mapM_cons, ih (fun m' hm' => h m' (List.mem_cons_of_mem _ hm')), h m List.mem_cons_self, List.getElem?_map]
    exact this _ hdec
  obtain ⟨g, hgdef⟩ : ∃ g : List α → Option L, g = fun q => ((fit train a X y).models.mapM (fun m => some (f (Slim.lengthOf code m q)))).bind
      (fun scores => (argmax scores).bind (fun i => (fit train a X y).classes[i.1]?)) := ⟨_, rfl⟩
  have hpred : ∀ Q : List (List α), predict (slimDecision code f) (fit train a X y) Q = Q.mapM g := by
    intro Q
    unfold predict
    have hQ : Q.mapM g = (List.range Q.length).mapM (fun t => Q[t]?.bind g) := by
      clear hdec hrow
      induction Q with
      | nil => rfl
      | cons q Q ih =>
        rw [List.length_cons, List.range_succ_eq_map, List.mapM_cons, List.mapM_cons, ih]
        have h5 : ∀ ts : List ℕ, (ts.map Nat.succ).mapM (fun t => (q :: Q)[t]?.bind g) = ts.mapM (fun t => Q[t]?.bind g) := by
          intro ts
          induction ts with
          | nil => rfl
          | cons t ts iht => rw [List.map_cons, List.mapM_cons, List.mapM_cons, iht]; rfl
        rw [h5]
        rfl
    rw [hQ]
    have h6 : ∀ ts : List ℕ, (∀ t ∈ ts, t < Q.length) → ts.mapM (fun t => ((fit train a X y).models.mapM (fun m => (slimDecision code f m Q)[t]?)).bind
        (fun scores => (argmax scores).bind (fun i => (fit train a X y).classes[i.1]?))) = ts.mapM (fun t => Q[t]?.bind g) := by
      intro ts
      induction ts with
      | nil => exact fun _ => rfl
      | cons t ts iht =>
        intro hts
        rw [List.mapM_cons, List.mapM_cons, iht (fun t' h' => hts t' (List.mem_cons_of_mem _ h')), hrow,
          List.getElem?_eq_getElem (hts t List.mem_cons_self), Option.bind_some, hgdef]
        rfl
    exact h6 _ (fun t ht => List.mem_range.1 ht)
  rw [hpred]
  have h7 : g = fun q => (predict (slimDecision code f) (fit train a X y) [q]).bind List.head? := by
    funext q
    rw [hpred, List.mapM_cons]
    cases g q with
    | none => rfl
    | some c => rfl
  rw [← h7]

/-! ## Examples -/

/-- A choice among the prune sets that looks at counts only. -/
noncomputable def minChoose : Slim.Chooser α := fun _ ps t =>
  open Classical in
  if h : ps.Nonempty then
    (Finset.exists_min_image ps (fun c => (((t.map (fun e => (e.1, e.2.card))).find? (fun e => decide (e.1 = c))).map Prod.snd).getD 0) h).choose
  else ∅

theorem minChoose_ok : Slim.ChooserOk (minChoose (α := α)) := by
  intro n ps t h
  unfold minChoose
  rw [dif_pos h]
  obtain ⟨h1, h2⟩ := (Finset.exists_min_image ps (fun c => (((t.map (fun e => (e.1, e.2.card))).find? (fun e => decide (e.1 = c))).map Prod.snd).getD 0) h).choose_spec
  have key : ∀ c, (((t.map (fun e => (e.1, e.2.card))).find? (fun e => decide (e.1 = c))).map Prod.snd).getD 0 = (Slim.lookup t c).card := by
    intro c
    unfold Slim.lookup
    rw [List.find?_map]
    change (Option.map Prod.snd (Option.map _ (t.find? (fun e => decide (e.1 = c))))).getD 0 = _
    cases t.find? (fun e => decide (e.1 = c)) with
    | none => rfl
    | some e => rfl
  refine ⟨h1, fun c hc => ?_⟩
  have := h2 c hc
  rwa [key, key] at this

theorem minChoose_counts : Slim.ChooserCounts (minChoose (α := α)) := by
  intro n ps t t' h
  unfold minChoose
  simp only [h]

/-- An environment that looks at counts only and stops after one accepted candidate. -/
noncomputable def oneTurn : Slim.Oracle ℕ := ⟨fun _ tab => tab, fun _ _ x y => if 4 < x.2.card + y.2.card then 2 else 1, fun _ _ => minChoose, fun _ => true⟩

theorem oneTurn_ok : Slim.OracleOk oneTurn ∧ Slim.OracleCounts oneTurn :=
  ⟨⟨fun _ _ => List.Perm.refl _, fun _ _ => minChoose_ok⟩, ⟨fun _ _ _ => rfl, fun _ _ _ x y => by simp [oneTurn], fun _ _ => minChoose_counts⟩⟩

theorem oneTurn_fuel {κ : Type*} [LinearOrder κ] (P : Slim.Params ℕ κ ℕ) (items : List ℕ) (D : List (List ℕ)) :
    ∃ st, Slim.fit P oneTurn items 1 D = some (.ok st) := by
  obtain ⟨n, st, h⟩ := Slim.fit_terminates P oneTurn oneTurn_ok.1 items D
  refine ⟨st, ?_⟩
  have h1 := h (n + 1) (by omega)
  rw [← h1]
  unfold Slim.fit Slim.fitLoop
  dsimp only
  cases Slim.tryCandidates P (oneTurn.choose 0) (Slim.prefit P items D) _ with
  | none => rfl
  | some r =>
    rcases r with e | _ | st2
    · rfl
    · rfl
    · rfl

/-- The fit of a new SLIM object that stops after one accepted candidate. -/
noncomputable def exTrain (args : SlimArgs (List ℕ)) (D : List (List ℕ)) : Slim.State ℕ ℕ :=
  (oneTurn_fuel ({ Slim.exS2 args.pruning with items := args.items }.params (Slim.sctOf args.items D) []) args.items D).choose

/-- The hypotheses hold: this is a way to train, and the two lists of samples are the same up to order. -/
example : Trains exTrain ∧ SameSamples [[1, 2], [3, 3], [1], [2]] [7, 5, 7, 7] [[3], [2], [2, 1, 1], [1]] [5, 7, 7, 7] ∧
    (fit exTrain ⟨[4], false⟩ [[1, 2], [3, 3], [1], [2]] [7, 5, 7, 7]).classesX = [[[3, 3]], [[1, 2], [1], [2]]] := by
  refine ⟨⟨fun args _ => { Slim.exS2 args.pruning with items := args.items }, fun _ _ => oneTurn, fun _ _ => 1, fun _ _ => [],
    fun _ _ _ _ => ⟨rfl, rfl, rfl, rfl⟩, fun args D => ⟨fun Y b => mem_sortSet Y b, ⟨fun t t' h => ?_, fun s s' h => ?_⟩, oneTurn_ok⟩, fun args D => ?_⟩, ?_, ?_⟩
  · have := congrArg (List.map Prod.snd) h
    have h2 : t.map (fun e => e.2.card) = t'.map (fun e => e.2.card) := by simpa [List.map_map, Function.comp_def] using this
    exact congrArg List.sum h2
  · exact congrArg List.sum h
  · have h := (oneTurn_fuel ({ Slim.exS2 args.pruning with items := args.items }.params (Slim.sctOf args.items D) []) args.items D).choose_spec
    change (Slim.fit ({ Slim.exS2 args.pruning with items := args.items }.params (Slim.sctOf args.items D) []) oneTurn args.items 1 D).bind Except.toOption = _
    rw [h]
    rfl
  · unfold SameSamples
    decide +kernel
  · unfold fit
    decide +kernel

end Verif.Classify
