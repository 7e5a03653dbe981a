import Verif.Border.OrderProps
import Verif.LCM.MetaProps

/-!
# Emerging patterns do not depend on the names of items and classes (C139)

Source: `/repo/skmine/emerging/mbdldorber.py:156-211`. The models are those of C24 to C26.
-/

set_option autoImplicit false
set_option linter.unusedSectionVars false

namespace Verif.Border

open Verif.LCM (OrderOk)

variable {α β γ δ : Type*} [LinearOrder α] [LinearOrder β] [LinearOrder γ] [LinearOrder δ]

/-- A border with the items renamed. -/
def renamedBorder (f : α → β) (b : List (Finset α) × Finset α) : List (Finset β) × Finset β := (b.1.map (Finset.image f), b.2.image f)

theorem SameRes.trans_perm {η : Type*} {a b c : Except Err (List η)} (h1 : SameRes List.Perm a b) (h2 : SameRes List.Perm b c) : SameRes List.Perm a c := by
  revert h1 h2
  cases a <;> cases b <;> cases c <;> simp only [SameRes] <;> intro h1 h2
  all_goals first
    | exact h1.trans h2
    | exact h1.elim
    | exact h2.elim

theorem image_sub (f : α → β) (hf : Function.Injective f) (X Y : Finset α) : X.image f ⊆ Y.image f ↔ X ⊆ Y := Finset.image_subset_image_iff hf

theorem image_ssub (f : α → β) (hf : Function.Injective f) (X Y : Finset α) : X.image f ⊂ Y.image f ↔ X ⊂ Y := by
  rw [Finset.ssubset_def, Finset.ssubset_def, image_sub f hf, image_sub f hf]

theorem sub_image (f : α → β) {X : Finset β} {U : Finset α} (h : X ⊆ U.image f) : ∃ Y : Finset α, X = Y.image f := by
  obtain ⟨Y, -, rfl⟩ := Finset.subset_image_iff.1 h
  exact ⟨Y, rfl⟩

theorem mem_leftOf_renamed (f : α → β) (hf : Function.Injective f) (ord : Finset α → List α) (ord' : Finset β → List β) (ho : OrderOk ord) (ho' : OrderOk ord') (l1 : List (Finset α)) (l1' : List (Finset β)) (h : l1 ≠ []) (h' : l1' ≠ [])
    (h1 : ∀ X, X ∈ l1' ↔ X ∈ l1.map (Finset.image f)) (U : Finset α) (X : Finset β) : X ∈ (leftOf ord l1 U).map (Finset.image f) ↔ X ∈ leftOf ord' l1' (U.image f) := by
  have hall : ∀ Q : Finset β → Prop, (∀ e ∈ l1', Q e) ↔ ∀ e ∈ l1, Q (e.image f) := by
    intro Q
    simp only [h1, List.mem_map]
    exact ⟨fun h e he => h _ ⟨e, he, rfl⟩, fun h e ⟨e', he', hee⟩ => hee ▸ h e' he'⟩
  have hex : ∀ Q : Finset β → Prop, (∃ e ∈ l1', Q e) ↔ ∃ e ∈ l1, Q (e.image f) := by
    intro Q
    simp only [h1, List.mem_map]
    exact ⟨fun ⟨e, ⟨e', he', hee⟩, hq⟩ => ⟨e', he', hee ▸ hq⟩, fun ⟨e, he, hq⟩ => ⟨_, ⟨e, he, rfl⟩, hq⟩⟩
  have key : ∀ Y : Finset α, Y.image f ∈ leftOf ord' l1' (U.image f) ↔ Y ∈ leftOf ord l1 U := by
    intro Y
    rw [mem_leftOf ord ho l1 h, mem_leftOf ord' ho' l1' h', image_sub f hf]
    refine and_congr Iff.rfl (and_congr ?_ ?_)
    · rw [hall]
      refine forall₂_congr (fun e _ => ?_)
      rw [← Finset.image_inter _ _ hf, image_sub f hf]
    · constructor
      · intro hZ Z hZY
        obtain ⟨e, he, hs⟩ := (hex _).1 (hZ (Z.image f) ((image_ssub f hf Z Y).2 hZY))
        rw [← Finset.image_inter _ _ hf, image_sub f hf] at hs
        exact ⟨e, he, hs⟩
      · intro hZ Z hZY
        obtain ⟨W, rfl⟩ := sub_image f hZY.1
        obtain ⟨e, he, hs⟩ := hZ W ((image_ssub f hf W Y).1 hZY)
        refine (hex _).2 ⟨e, he, ?_⟩
        rw [← Finset.image_inter _ _ hf, image_sub f hf]
        exact hs
  constructor
  · intro hX
    obtain ⟨Y, hY, rfl⟩ := List.mem_map.1 hX
    exact (key Y).2 hY
  · intro hX
    obtain ⟨Y, rfl⟩ := sub_image f ((mem_leftOf ord' ho' l1' h' _ _).1 hX).1
    exact List.mem_map.2 ⟨Y, (key Y).1 hX, rfl⟩

theorem mbdl_renamed (f : α → β) (hf : Function.Injective f) (ord : Finset α → List α) (ord' : Finset β → List β) (ho : OrderOk ord) (ho' : OrderOk ord') (l1 l2 : List (Finset α)) (l1' l2' : List (Finset β))
    (h1 : ∀ X, X ∈ l1' ↔ X ∈ l1.map (Finset.image f)) (h2 : l2'.Perm (l2.map (Finset.image f))) :
    SameRes SameBorders ((mbdllborder ord l1 l2).map (List.map (renamedBorder f))) (mbdllborder ord' l1' l2') := by
  by_cases h0 : l1 = []
  · have h0' : l1' = [] := by
      rw [List.eq_nil_iff_forall_not_mem]
      intro X hX
      have := (h1 X).1 hX
      rw [h0] at this
      cases this
    rw [h0, h0', mbdl_nil, mbdl_nil]
    by_cases hn : l2 = []
    · rw [if_pos hn, if_pos (by rw [hn] at h2; exact h2.eq_nil)]
      exact ⟨[], List.Perm.refl _, List.Forall₂.nil⟩
    · rw [if_neg hn, if_neg (fun h => hn (by rw [h] at h2; exact List.map_eq_nil_iff.1 h2.nil_eq.symm))]
      rfl
  · have h0' : l1' ≠ [] := by
      obtain ⟨X, hX⟩ := List.exists_mem_of_ne_nil _ h0
      exact List.ne_nil_of_mem ((h1 _).2 (List.mem_map_of_mem hX))
    rw [mbdl_eq ord l1 h0, mbdl_eq ord' l1' h0']
    have hany : ∀ U : Finset α, l1'.any (fun e => decide (U.image f ⊂ e)) = l1.any (fun e => decide (U ⊂ e)) := by
      intro U
      rw [Bool.eq_iff_iff, List.any_eq_true, List.any_eq_true]
      simp only [h1, List.mem_map, decide_eq_true_eq]
      constructor
      · rintro ⟨_, ⟨e, he, rfl⟩, hs⟩
        exact ⟨e, he, (image_ssub f hf _ _).1 hs⟩
      · rintro ⟨e, he, hs⟩
        exact ⟨_, ⟨e, he, rfl⟩, (image_ssub f hf _ _).2 hs⟩
    refine ⟨((l2.map (Finset.image f)).filter (fun U => !l1'.any (fun e => decide (U ⊂ e)))).map (fun U => (leftOf ord' l1' U, U)), (h2.symm.filter _).map _, ?_⟩
    rw [List.filter_map]
    simp only [List.map_map]
    have e : ((fun U => !l1'.any (fun e => decide (U ⊂ e))) ∘ Finset.image f) = fun U => !l1.any (fun e => decide (U ⊂ e)) := by
      funext U
      simp only [Function.comp_apply, hany]
    rw [e, List.forall₂_map_left_iff, List.forall₂_map_right_iff, List.forall₂_same]
    intro U _
    exact ⟨rfl, fun X => mem_leftOf_renamed f hf ord ord' ho ho' l1 l1' h0 h0' h1 U X⟩

theorem combinations_nodup (o : List α) (hn : o.Nodup) (size : ℕ) : ((o.sublistsLen size).map List.toFinset).Nodup := by
  refine List.Nodup.map_on ?_ (List.nodup_sublistsLen size hn)
  intro x hx y hy hxy
  exact sublist_eq_of_toFinset hn (List.mem_sublistsLen.1 hx).1 (List.mem_sublistsLen.1 hy).1 hxy

theorem mem_combinations (o : List α) (hn : o.Nodup) (size : ℕ) (pat : Finset α) : pat ∈ (o.sublistsLen size).map List.toFinset ↔ pat ⊆ o.toFinset ∧ pat.card = size := by
  rw [List.mem_map]
  constructor
  · rintro ⟨l, hl, rfl⟩
    obtain ⟨h1, h2⟩ := List.mem_sublistsLen.1 hl
    exact ⟨fun x hx => List.mem_toFinset.2 (h1.subset (List.mem_toFinset.1 hx)), by rw [List.toFinset_card_of_nodup (hn.sublist h1), h2]⟩
  · rintro ⟨h1, h2⟩
    have e : (o.filter (fun x => decide (x ∈ pat))).toFinset = pat := by
      ext x
      rw [List.mem_toFinset, List.mem_filter, decide_eq_true_eq]
      exact ⟨fun h => h.2, fun h => ⟨List.mem_toFinset.1 (h1 h), h⟩⟩
    refine ⟨o.filter (fun x => decide (x ∈ pat)), List.mem_sublistsLen.2 ⟨List.filter_sublist, ?_⟩, e⟩
    rw [← List.toFinset_card_of_nodup (hn.filter _), e, h2]

theorem patterns_renamed (f : α → β) (hf : Function.Injective f) (ord : Finset α → List α) (ord' : Finset β → List β) (ho : OrderOk ord) (ho' : OrderOk ord') (b : List (Finset α) × Finset α) (n : ℕ) :
    SameRes List.Perm ((bordersToPatterns ord b.1 b.2 n).map (List.map (Finset.image f))) (bordersToPatterns ord' (renamedBorder f b).1 (renamedBorder f b).2 n) := by
  have hmin : effectiveMinSize (b.1.map (Finset.image f)) n = effectiveMinSize b.1 n := by
    unfold effectiveMinSize
    rw [List.map_map]
    have : (Finset.card ∘ Finset.image f : Finset α → ℕ) = Finset.card := by
      funext X
      exact Finset.card_image_of_injective X hf
    rw [this]
  unfold renamedBorder bordersToPatterns
  simp only [hmin]
  cases effectiveMinSize b.1 n with
  | error e => rfl
  | ok k =>
    show List.Perm _ _
    rw [List.map_flatMap, Finset.card_image_of_injective _ hf]
    refine List.Perm.flatMap_left _ ?_
    intro size _
    have hany : ∀ pat : Finset α, (b.1.map (Finset.image f)).any (fun e => decide (pat.image f ⊆ e)) = b.1.any (fun e => decide (pat ⊆ e)) := by
      intro pat
      rw [List.any_map]
      congr 1
      funext e
      simp only [Function.comp_apply, image_sub f hf]
    rw [List.perm_ext_iff_of_nodup (((combinations_nodup _ (ho _).1 size).filter _).map (Finset.image_injective hf)) ((combinations_nodup _ (ho' _).1 size).filter _)]
    intro pat
    rw [List.mem_map, List.mem_filter, mem_combinations _ (ho' _).1]
    have er : (ord' (b.2.image f)).toFinset = b.2.image f := by ext x; rw [List.mem_toFinset, (ho' _).2]
    have el : (ord b.2).toFinset = b.2 := by ext x; rw [List.mem_toFinset, (ho _).2]
    rw [er]
    constructor
    · rintro ⟨p, hp, rfl⟩
      rw [List.mem_filter, mem_combinations _ (ho _).1, el] at hp
      obtain ⟨⟨h1, h2⟩, h3⟩ := hp
      refine ⟨⟨(image_sub f hf _ _).2 h1, by rw [Finset.card_image_of_injective _ hf]; exact h2⟩, ?_⟩
      rw [hany]; exact h3
    · rintro ⟨⟨h1, h2⟩, h3⟩
      obtain ⟨p, rfl⟩ := sub_image f h1
      refine ⟨p, ?_, rfl⟩
      rw [List.mem_filter, mem_combinations _ (ho _).1, el]
      rw [hany] at h3
      exact ⟨⟨(image_sub f hf _ _).1 h1, by rw [← Finset.card_image_of_injective p hf]; exact h2⟩, h3⟩

theorem discover_renamed (f : α → β) (hf : Function.Injective f) (ord : Finset α → List α) (ord' : Finset β → List β) (ho : OrderOk ord) (ho' : OrderOk ord') (B : List (List (Finset α) × Finset α)) (n : ℕ) :
    SameRes List.Perm ((discover ord B n).map (List.map (Finset.image f))) (discover ord' (B.map (renamedBorder f)) n) := by
  induction B with
  | nil => exact List.Perm.refl _
  | cons b B ih =>
    rw [List.map_cons, discover_cons, discover_cons]
    have hp := patterns_renamed f hf ord ord' ho ho' b n
    revert hp ih
    cases bordersToPatterns ord b.1 b.2 n <;> cases bordersToPatterns ord' (renamedBorder f b).1 (renamedBorder f b).2 n <;> cases discover ord B n <;> cases discover ord' (B.map (renamedBorder f)) n <;>
      simp only [SameRes, Except.map, List.map_append] <;> intro h1 h2
    all_goals first
      | exact h2
      | exact h1
      | exact h2.elim
      | exact h1.elim
      | exact List.Perm.append h2 h1

theorem lcmMax_sets (f : α → β) (hf : Function.Injective f) (m : ℚ) (ord : Finset α → List α) (ord' : Finset β → List β) (ho : OrderOk ord) (ho' : OrderOk ord') (D : List (List α)) :
    ((LCM.lcmMax m (-1) true ord' (D.map (List.map f))).map (fun r => r.itemset.toFinset)).Perm (((LCM.lcmMax m (-1) true ord D).map (fun r => r.itemset.toFinset)).map (Finset.image f)) := by
  have h := (LCM.lcmMax_renamed f hf m (-1) true true ord ord' ho ho' D).map Prod.fst
  rw [List.map_map, List.map_map, List.map_map] at h
  rw [List.map_map]
  exact h

theorem fit_renamed (f : α → β) (hf : Function.Injective f) (ord : Finset α → List α) (ord' : Finset β → List β) (ho : OrderOk ord) (ho' : OrderOk ord') (minSupp growth : ℚ) (D1 D2 : List (List α)) :
    SameRes SameBorders ((fit ord minSupp growth D1 D2).map (List.map (renamedBorder f))) (fit ord' minSupp growth (D1.map (List.map f)) (D2.map (List.map f))) := by
  unfold fit
  by_cases hg : growth * minSupp < 0 ∨ 1 < growth * minSupp
  · rw [if_pos hg, if_pos hg]; rfl
  · rw [if_neg hg, if_neg hg]
    simp only [List.length_map]
    exact mbdl_renamed f hf ord ord' ho ho' _ _ _ _ (fun X => (lcmMax_sets f hf _ ord ord' ho ho' D1).mem_iff) (lcmMax_sets f hf _ ord ord' ho ho' D2)

theorem sort_renamed (g : γ → δ) (hg : StrictMono g) (y : List γ) : (y.map g).dedup.insertionSort (· ≤ ·) = (y.dedup.insertionSort (· ≤ ·)).map g := by
  refine List.Perm.eq_of_pairwise (le := (· ≤ ·)) (fun a b _ _ h h' => le_antisymm h h') (List.pairwise_insertionSort _ _) ?_ ?_
  · rw [List.pairwise_map]
    exact (List.pairwise_insertionSort (· ≤ ·) y.dedup).imp (fun h => hg.monotone h)
  · refine (List.perm_insertionSort _ _).trans ?_
    rw [List.dedup_map_of_injective hg.injective]
    exact ((List.perm_insertionSort (· ≤ ·) y.dedup).map g).symm

theorem split_renamed (f : α → β) (g : γ → δ) (hg : StrictMono g) (D : List (List α)) (y : List γ) :
    split (D.map (List.map f)) (y.map g) = (split D y).map (fun p => (p.1.map (List.map f), p.2.map (List.map f))) := by
  have hpart : ∀ a : γ, (((D.map (List.map f)).zip (y.map g)).filter (fun p => decide (p.2 = g a))).map Prod.fst = ((((D.zip y).filter (fun p => decide (p.2 = a))).map Prod.fst)).map (List.map f) := by
    intro a
    rw [List.zip_map, List.filter_map, List.map_map, List.map_map]
    have e : ((fun p : List β × δ => decide (p.2 = g a)) ∘ Prod.map (List.map f) g) = fun p : List α × γ => decide (p.2 = a) := by
      funext p
      exact decide_eq_decide.2 hg.injective.eq_iff
    rw [e]
    rfl
  unfold split
  rw [sort_renamed g hg]
  match y.dedup.insertionSort (· ≤ ·) with
  | [] => rfl
  | [_] => rfl
  | [l0, l1] =>
    simp only [List.map_cons, List.map_nil]
    rw [hpart, hpart]
    rfl
  | _ :: _ :: _ :: _ => rfl

/-- C139. Renaming the items one to one, whatever the order of the new names, and the two classes in a way that keeps their order, renames the items in the borders and in the emerging patterns and changes nothing else; exceptions are
the same. Only the order of the results may change. -/
theorem border_names_independent (f : α → β) (hf : Function.Injective f) (g : γ → δ) (hg : StrictMono g) (ord : Finset α → List α) (ord' : Finset β → List β) (ho : OrderOk ord) (ho' : OrderOk ord') (minSupp growth : ℚ)
    (D : List (List α)) (y : List γ) (minSize : ℕ) :
    SameRes SameBorders ((fitBy ord minSupp growth D y).map (List.map (renamedBorder f))) (fitBy ord' minSupp growth (D.map (List.map f)) (y.map g)) ∧
      SameRes List.Perm ((fitDiscover ord minSupp growth D y minSize).map (List.map (Finset.image f))) (fitDiscover ord' minSupp growth (D.map (List.map f)) (y.map g) minSize) := by
  have hfit : SameRes SameBorders ((fitBy ord minSupp growth D y).map (List.map (renamedBorder f))) (fitBy ord' minSupp growth (D.map (List.map f)) (y.map g)) := by
    unfold fitBy
    rw [split_renamed f g hg]
    cases split D y with
    | error e => rfl
    | ok p => exact fit_renamed f hf ord ord' ho ho' minSupp growth p.1 p.2
  refine ⟨hfit, ?_⟩
  unfold fitDiscover
  revert hfit
  cases fitBy ord minSupp growth D y with
  | error e =>
    cases fitBy ord' minSupp growth (D.map (List.map f)) (y.map g) with
    | error e' => exact fun h => h
    | ok b => exact fun h => h.elim
  | ok B =>
    cases fitBy ord' minSupp growth (D.map (List.map f)) (y.map g) with
    | error e' => exact fun h => h.elim
    | ok B' =>
      rintro ⟨B0, hp, hfa⟩
      exact ((discover_renamed f hf ord ord' ho ho' B minSize).trans_perm (discover_forall ord' ord' ho' ho' minSize hfa)).trans_perm (discover_perm ord' minSize hp)

/-! ### Cases -/

/-- Three transactions of the first class, one of the second: the items get names in the opposite order, the classes the names 5 and 7. -/
example : fitBy sortSet (1 / 2) 2 ([[1, 2, 3], [1, 2, 3], [1, 2, 3, 4]].map (List.map (fun i => 9 - i))) ([0, 0, 1].map (fun k => 5 + 2 * k)) = .ok [([{5}], {5, 6, 7, 8})] := by
  have : split ([[1, 2, 3], [1, 2, 3], [1, 2, 3, 4]].map (List.map (fun i => 9 - i))) ([0, 0, 1].map (fun k => 5 + 2 * k)) = .ok ([[8, 7, 6], [8, 7, 6]], [[8, 7, 6, 5]]) := by decide
  unfold fitBy
  rw [this]
  have h1 : ¬ ((2 : ℚ) * (1 / 2) < 0 ∨ 1 < (2 : ℚ) * (1 / 2)) := by norm_num
  have e1 : (1 / 2 : ℚ) * (([[8, 7, 6], [8, 7, 6]] : List (List ℕ)).length : ℕ) = 1 := by norm_num
  have e2 : (2 : ℚ) * (1 / 2) * (([[8, 7, 6, 5]] : List (List ℕ)).length : ℕ) = 1 := by norm_num
  simp only
  unfold fit
  rw [if_neg h1, e1, e2]
  decide

/-- Names of classes in the other order exchange the two collections: the itemset {1, 2, 3, 4} has a border with one order, and there is no border with the other. -/
theorem class_names_matter : fitBy sortSet (1 / 2) 2 [[1, 2, 3], [1, 2, 3], [1, 2, 3, 4]] [0, 0, 1] = .ok [([{4}], {1, 2, 3, 4})] ∧
    fitBy sortSet (1 / 2) 2 [[1, 2, 3], [1, 2, 3], [1, 2, 3, 4]] [1, 1, 0] = .ok [] := by
  constructor
  · have : split [[1, 2, 3], [1, 2, 3], [1, 2, 3, 4]] [0, 0, 1] = .ok ([[1, 2, 3], [1, 2, 3]], [[1, 2, 3, 4]]) := by decide
    unfold fitBy
    rw [this]
    exact witness_fit
  · have : split [[1, 2, 3], [1, 2, 3], [1, 2, 3, 4]] [1, 1, 0] = .ok ([[1, 2, 3, 4]], [[1, 2, 3], [1, 2, 3]]) := by decide
    unfold fitBy
    rw [this]
    have h1 : ¬ ((2 : ℚ) * (1 / 2) < 0 ∨ 1 < (2 : ℚ) * (1 / 2)) := by norm_num
    have e1 : (1 / 2 : ℚ) * (([[1, 2, 3, 4]] : List (List ℕ)).length : ℕ) = 1 / 2 := by norm_num
    have e2 : (2 : ℚ) * (1 / 2) * (([[1, 2, 3], [1, 2, 3]] : List (List ℕ)).length : ℕ) = 2 := by norm_num
    simp only
    unfold fit
    rw [if_neg h1, e1, e2]
    decide +kernel

end Verif.Border
