import Verif.Classify.OrderProps
import Verif.Slim.NameProps

/-!
# `SlimClassifier` and the names of classes and items (C140)

Source: `/repo/skmine/itemsets/slim_classifier.py:48-94`. The models are those of C21 and C133.
-/

set_option autoImplicit false
set_option linter.unusedSectionVars false

namespace Verif.Classify

variable {L L' T M S I α β V R : Type*} [LinearOrder L] [LinearOrder L'] [LinearOrder S] [LinearOrder α] [LinearOrder β] [LinearOrder V] [LinearOrder R] [AddCommMonoid R]

/-! ## Specification -/

/-- `st` and `st'` are the results of fitting two new SLIM objects, the first on `D` and the second on `D` with the items renamed by `f`, with the constructor arguments `args` and the renamed ones. What the model of SLIM leaves open
(sizes, gains, iteration orders) corresponds under the renaming. -/
def TrainedAlike (f : α ↪o β) (args : SlimArgs (List α)) (D : List (List α)) (st : Slim.State α V) (st' : Slim.State β V) : Prop :=
  ∃ (Z : Slim.Settings α V) (Z' : Slim.Settings β V) (O : Slim.Oracle α) (O' : Slim.Oracle β) (fuel : ℕ) (asked : List (List α)), Slim.SettingsRen f Z Z' ∧ Slim.OracleRen f O O' ∧ Z.items = args.items ∧ Z.pruning = args.pruning ∧
    (Slim.srun Z Slim.SObj.new [.fit O fuel D asked]).st = some st ∧ (Slim.srun Z' Slim.SObj.new [.fit O' fuel (D.map (List.map f)) (asked.map (List.map f))]).st = some st'

/-! ## Lemmas -/

theorem models_eq (train : SlimArgs I → List T → M) (a : ClfArgs I) (X : List T) (y : List L) :
    (fit train a X y).models = (sortSet y.toFinset).map (fun c => train (slimDefault a.items) (((X.zip y).filter (fun p => p.2 = c)).map Prod.fst)) := by
  unfold fit
  dsimp only
  induction sortSet y.toFinset with
  | nil => rfl
  | cons c cs ih => rw [List.map_cons, List.map_cons, List.zip_cons_cons, List.map_cons, List.map_cons, ih]

theorem sortSet_image (g : L → L') (hg : StrictMono g) (y : List L) : sortSet (y.map g).toFinset = (sortSet y.toFinset).map g := by
  apply List.Perm.eq_of_pairwise' (strict_sortSet _)
  · rw [List.pairwise_map]
    exact (strict_sortSet y.toFinset).imp (fun h => hg h)
  · rw [List.perm_ext_iff_of_nodup (nodup_sortSet _) ((nodup_sortSet _).map hg.injective)]
    intro c
    simp [mem_sortSet]

theorem part_named (g : L → L') (hg : Function.Injective g) (X : List T) (y : List L) (c : L) :
    ((X.zip (y.map g)).filter (fun p => p.2 = g c)).map Prod.fst = ((X.zip y).filter (fun p => p.2 = c)).map Prod.fst := by
  rw [List.zip_map_right, List.filter_map, List.map_map]
  have e : ((fun p : T × L' => decide (p.2 = g c)) ∘ Prod.map id g) = fun p : T × L => decide (p.2 = c) := by
    funext p
    exact decide_eq_decide.2 hg.eq_iff
  rw [e]
  rfl

theorem training_named (g : L → L') (hg : Function.Injective g) (X : List T) (y : List L) (h : X.length = y.length) (c : L) : trainingOf X (y.map g) (g c) = trainingOf X y c := by
  rw [← zip_filter_eq X y h, ← zip_filter_eq X (y.map g) (by rw [List.length_map]; exact h), part_named g hg]

theorem mapM_map {η : Type*} (F : η → Option L) (g : L → L') (l : List η) : l.mapM (fun x => (F x).map g) = (l.mapM F).map (List.map g) := by
  induction l with
  | nil => rfl
  | cons x l ih =>
    rw [List.mapM_cons, List.mapM_cons, ih]
    cases F x with
    | none => rfl
    | some c => cases l.mapM F <;> rfl

theorem part_items (f : α → β) (X : List (List α)) (y : List L) (c : L) :
    (((X.map (List.map f)).zip y).filter (fun p => p.2 = c)).map Prod.fst = (((X.zip y).filter (fun p => p.2 = c)).map Prod.fst).map (List.map f) := by
  rw [zip_map_fst, List.filter_map, List.map_map, List.map_map]
  rfl

theorem decision_named {f : α ↪o β} {args : SlimArgs (List α)} {D : List (List α)} {st : Slim.State α V} {st' : Slim.State β V} (h : TrainedAlike f args D st st') (code : ℕ → ℕ → R) (w : WithTop R → S) (Q : List (List α)) :
    slimDecision code w st' (Q.map (List.map f)) = slimDecision code w st Q := by
  obtain ⟨Z, Z', O, O', fuel, asked, h1, h2, _, _, h5, h6⟩ := h
  rcases Slim.names_irrelevant_partial code f Z Z' h1 [.fit O fuel D asked] [.fit O' fuel (D.map (List.map f)) (asked.map (List.map f))] (.cons ⟨h2, rfl, rfl, rfl⟩ .nil) with ⟨hn, _⟩ | ⟨s, s', k1, k2, _, _, _, k3, _⟩
  · rw [h5] at hn; cases hn
  · rw [h5] at k1
    rw [h6] at k2
    cases k1
    cases k2
    unfold slimDecision
    rw [k3]

/-! ## Theorems -/

/-- C140, names of classes that keep their order. The predicted labels are the renamed labels. -/
theorem class_names_follow (g : L → L') (hg : StrictMono g) (train : SlimArgs I → List T → M) (a : ClfArgs I) (X : List T) (y : List L) (decision : M → List T → List S) (Q : List T) :
    predict decision (fit train a X (y.map g)) Q = (predict decision (fit train a X y) Q).map (List.map g) := by
  have hm : (fit train a X (y.map g)).models = (fit train a X y).models := by
    rw [models_eq, models_eq, sortSet_image g hg, List.map_map]
    apply List.map_congr_left
    intro c _
    rw [Function.comp_apply, part_named g hg.injective]
  have hc : (fit train a X (y.map g)).classes = (fit train a X y).classes.map g := sortSet_image g hg y
  unfold predict
  rw [hm, hc, ← mapM_map]
  congr 1
  funext t
  cases (fit train a X y).models.mapM (fun m => (decision m Q)[t]?) with
  | none => rfl
  | some scores =>
    rw [Option.bind_some, Option.bind_some]
    cases argmax scores with
    | none => rfl
    | some i => rw [Option.bind_some, Option.bind_some, List.getElem?_map]

/-- C140, any one-to-one names of classes. A transaction whose predicted class has a higher score than all other classes is given the renamed class. -/
theorem class_names_untied (g : L → L') (hg : Function.Injective g) (train : SlimArgs I → List T → M) (a : ClfArgs I) (X : List T) (y : List L) (h : X.length = y.length) (hy : y ≠ []) (decision : M → List T → List S)
    (hd : ∀ args D Q, (decision (train args D) Q).length = Q.length) (Q : List T) :
    ∃ labels labels', predict decision (fit train a X y) Q = some labels ∧ predict decision (fit train a X (y.map g)) Q = some labels' ∧ labels.length = Q.length ∧ labels'.length = Q.length ∧
      ∀ (t : ℕ) (c : L), labels[t]? = some c →
        (∀ c' ∈ y, c' ≠ c → ∀ s s', (decision (train (slimDefault a.items) (trainingOf X y c)) Q)[t]? = some s → (decision (train (slimDefault a.items) (trainingOf X y c')) Q)[t]? = some s' → s' < s) → labels'[t]? = some (g c) := by
  obtain ⟨labels, h1, h2, h3⟩ := predict_best train a X y h hy decision hd Q
  obtain ⟨labels', h1', h2', h3'⟩ := predict_best train a X (y.map g) (by rw [List.length_map]; exact h) (by simpa using hy) decision hd Q
  refine ⟨labels, labels', h1, h1', h2, h2', fun t c hc hu => ?_⟩
  have ht : t < Q.length := by rw [← h2]; exact (List.getElem?_eq_some_iff.1 hc).1
  obtain ⟨c0, s, k1, k2, k3, k4⟩ := h3 t ht
  rw [hc, Option.some.injEq] at k1
  subst k1
  obtain ⟨d, r, m1, m2, m3, m4⟩ := h3' t ht
  obtain ⟨c', hc', rfl⟩ := List.mem_map.1 m2
  rw [training_named g hg X y h] at m3
  by_cases he : c' = c
  · rw [m1, he]
  · exfalso
    have hlt := hu c' hc' he s r k3 m3
    obtain ⟨s', n1, n2, _⟩ := m4 (g c) (List.mem_map_of_mem k2)
    rw [training_named g hg X y h, k3, Option.some.injEq] at n1
    rw [← n1] at n2
    exact absurd hlt (not_lt.2 n2)

/-- C140, names of items that keep their order, together with names of classes that keep their order. Fit on renamed samples, then predict for renamed transactions: the labels are the renamed labels. -/
theorem item_names_follow (f : α ↪o β) (g : L → L') (hg : StrictMono g) (train : SlimArgs (List α) → List (List α) → Slim.State α V) (train' : SlimArgs (List β) → List (List β) → Slim.State β V) (a : ClfArgs (List α)) (X : List (List α))
    (y : List L) (h : X.length = y.length)
    (ht : ∀ c ∈ y, TrainedAlike f (slimDefault a.items) (trainingOf X y c) (train (slimDefault a.items) (trainingOf X y c)) (train' (slimDefault (a.items.map f)) ((trainingOf X y c).map (List.map f))))
    (code : ℕ → ℕ → R) (w : WithTop R → S) (Q : List (List α)) :
    predict (slimDecision code w) (fit train' ⟨a.items.map f, a.pruning⟩ (X.map (List.map f)) (y.map g)) (Q.map (List.map f)) = (predict (slimDecision code w) (fit train a X y) Q).map (List.map g) := by
  rw [class_names_follow g hg]
  congr 1
  have hm : (fit train' ⟨a.items.map f, a.pruning⟩ (X.map (List.map f)) y).models.map (fun m => slimDecision code w m (Q.map (List.map f))) = (fit train a X y).models.map (fun m => slimDecision code w m Q) := by
    rw [models_eq, models_eq, List.map_map, List.map_map]
    apply List.map_congr_left
    intro c hc
    rw [mem_sortSet, List.mem_toFinset] at hc
    rw [Function.comp_apply, Function.comp_apply, part_items, zip_filter_eq X y h]
    exact decision_named (ht c hc) code w Q
  have key : ∀ {N U : Type _} (dec : N → List U → List S) (ms : List N) (q : List U) (t : ℕ), ms.mapM (fun m => (dec m q)[t]?) = (ms.map (fun m => dec m q)).mapM (fun r => r[t]?) := by
    intro N U dec ms q t
    induction ms with
    | nil => rfl
    | cons m ms ih => rw [List.map_cons, List.mapM_cons, List.mapM_cons, ih]
  have key' : ∀ {N U : Type _} (dec : N → List U → List S) (ms : List N) (q : List U) (t : ℕ), ms.mapM (fun m => (dec m q)[t]?) = (ms.map (fun m => dec m q)).mapM (fun r => r[t]?) := by
    intro N U dec ms q t
    induction ms with
    | nil => rfl
    | cons m ms ih => rw [List.map_cons, List.mapM_cons, List.mapM_cons, ih]
  unfold predict
  rw [List.length_map]
  congr 1
  funext t
  rw [key, key', hm]
  rfl

/-- C140, where order matters. Two classes with the same training data: every transaction gets the smaller name, however the classes are named. -/
theorem tied_names_matter (train : SlimArgs I → List T → M) (a : ClfArgs I) (x : T) (decision : M → List T → List S) (hd : ∀ args D Q, (decision (train args D) Q).length = Q.length) (q : T) :
    predict decision (fit train a [x, x] [0, 1]) [q] = some [0] ∧ predict decision (fit train a [x, x] ([0, 1].map (fun c => 1 - c))) [q] = some [0] := by
  have hs : sortSet [0, 1].toFinset = [0, 1] ∧ sortSet [1, 0].toFinset = [0, 1] := by decide +kernel
  obtain ⟨s, hs'⟩ : ∃ s, (decision (train (slimDefault a.items) [x]) [q])[0]? = some s := ⟨_, List.getElem?_eq_getElem (by rw [hd]; exact Nat.zero_lt_one)⟩
  have go : ∀ y : List ℕ, y = [0, 1] ∨ y = [1, 0] → predict decision (fit train a [x, x] y) [q] = some [0] := by
    intro y hy
    have hc : (fit train a [x, x] y).classes = [0, 1] := by
      rcases hy with rfl | rfl
      · exact hs.1
      · exact hs.2
    have hm : (fit train a [x, x] y).models = [train (slimDefault a.items) [x], train (slimDefault a.items) [x]] := by
      rw [models_eq]
      rcases hy with rfl | rfl
      · rw [hs.1]; rfl
      · rw [hs.2]; rfl
    unfold predict
    rw [hc, hm]
    have hr : (List.range [q].length) = [0] := rfl
    rw [hr, List.mapM_cons, List.mapM_cons, List.mapM_cons, hs']
    have ha : argmax [s, s] = some (0, s) := by
      unfold argmax
      unfold argmax
      simp [argmax]
    change (((argmax [s, s]).bind (fun i => [0, 1][i.1]?)).bind fun c => some [c]) = some [0]
    rw [ha]
    rfl
  exact ⟨go _ (Or.inl rfl), go _ (Or.inr rfl)⟩

/-! ## Examples -/

/-- Fitting a new SLIM object with at most nine rounds. -/
def nineRounds (args : SlimArgs (List ℕ)) (D : List (List ℕ)) : Slim.State ℕ ℕ :=
  ((Slim.srun { Slim.exS2 args.pruning with items := args.items } Slim.SObj.new [.fit Slim.exO3 9 D []]).st).getD ⟨[], [], 0⟩

/-- The hypotheses of `item_names_follow` hold for four samples in two classes. -/
example : let X := [[1, 2, 3], [1, 2], [4], [1, 2]]
    ∀ c ∈ [7, 7, 5, 7], TrainedAlike Slim.exTen (slimDefault [6]) (trainingOf X [7, 7, 5, 7] c) (nineRounds (slimDefault [6]) (trainingOf X [7, 7, 5, 7] c))
      (nineRounds (slimDefault ([6].map Slim.exTen)) ((trainingOf X [7, 7, 5, 7] c).map (List.map Slim.exTen))) := by
  intro X c hc
  have hsome : ∀ {o : Option (Slim.State ℕ ℕ)}, o.isSome = true → o = some (o.getD ⟨[], [], 0⟩) := by
    intro o ho
    cases o with
    | none => cases ho
    | some st => rfl
  have hruns : (Slim.srun { Slim.exS2 true with items := [6] } Slim.SObj.new [.fit Slim.exO3 9 (trainingOf X [7, 7, 5, 7] c) []]).st.isSome = true ∧
      (Slim.srun { Slim.exS2 true with items := [6].map Slim.exTen } Slim.SObj.new [.fit Slim.exO3 9 ((trainingOf X [7, 7, 5, 7] c).map (List.map Slim.exTen)) []]).st.isSome = true := by
    have hc' : c = 7 ∨ c = 5 := by
      simp only [List.mem_cons, List.not_mem_nil, or_false] at hc
      omega
    rcases hc' with rfl | rfl
    · decide +kernel
    · decide +kernel
  refine ⟨{ Slim.exS2 true with items := [6] }, { Slim.exS2 true with items := [6].map Slim.exTen }, Slim.exO3, Slim.exO3, 9, [], ⟨rfl, rfl, fun X => Slim.sortSet_ren Slim.exTen X, fun tab => ?_, fun sct => ?_⟩,
    ⟨fun _ _ => rfl, fun _ _ x y => rfl, fun _ _ => Slim.exChoose_ren _, rfl⟩, rfl, rfl, hsome hruns.1, hsome hruns.2⟩
  · change ((tab.map _).map _).sum = _
    rw [List.map_map]
    rfl
  · change ((sct.map _).map _).sum = _
    rw [List.map_map]
    rfl

/-- Labels `5, 3, 5` and the same with the names 3 and 5 exchanged; the score of a transaction is minus the distance to the first training transaction. The labels of 11 and 19 are exchanged; 15 is tied and keeps the label 3. -/
example : let decision := fun (m : ℕ) (Q : List ℕ) => Q.map (fun q : ℕ => -(((q : Int) - m).natAbs : Int))
    let train := fun (_ : SlimArgs Unit) (X : List ℕ) => X.headD 0
    predict decision (fit train ⟨(), false⟩ [10, 20, 30] [5, 3, 5]) [11, 19, 15] = some [5, 3, 3] ∧
      predict decision (fit train ⟨(), false⟩ [10, 20, 30] ([5, 3, 5].map (fun c => if c = 5 then 3 else if c = 3 then 5 else c))) [11, 19, 15] = some [3, 5, 3] := by
  decide

end Verif.Classify
