import Verif.Border.Props
import Mathlib.Data.List.Forall2

/-!
# Emerging patterns do not depend on the order of the data (C118)

Source: `/repo/skmine/emerging/mbdldorber.py:156-211`. The models are those of C24 to C26.
-/

set_option autoImplicit false
set_option linter.unusedSectionVars false

namespace Verif.Border

open Verif.LCM (OrderOk Frequent tidsOf itemsOf MaximalFrequent)

variable {α : Type*} [LinearOrder α]

/-! ### What is compared -/

/-- Same exception, or results in the relation `R`. -/
def SameRes {β : Type*} (R : β → β → Prop) : Except Err β → Except Err β → Prop
  | .ok a, .ok b => R a b
  | .error e, .error e' => e = e'
  | _, _ => False

/-- Two borders with the same right side and the same sets on the left. -/
def SameBorder (b c : List (Finset α) × Finset α) : Prop := b.2 = c.2 ∧ ∀ X, X ∈ b.1 ↔ X ∈ c.1

/-- The same borders, in any order. -/
def SameBorders (B B' : List (List (Finset α) × Finset α)) : Prop := ∃ B0, B0.Perm B' ∧ List.Forall₂ SameBorder B B0

/-- `MBDLLBorder(...).fit(D, y)`: the borders. -/
def fitBy {β : Type*} [LinearOrder β] (ord : Finset α → List α) (minSupp growth : ℚ) (D : List (List α)) (y : List β) : Except Err (List (List (Finset α) × Finset α)) :=
  match split D y with
  | .error e => .error e
  | .ok (D1, D2) => fit ord minSupp growth D1 D2

/-- `MBDLLBorder(...).fit(D, y).discover(min_size)`. -/
def fitDiscover {β : Type*} [LinearOrder β] (ord : Finset α → List α) (minSupp growth : ℚ) (D : List (List α)) (y : List β) (minSize : ℕ) : Except Err (List (Finset α)) :=
  match fitBy ord minSupp growth D y with
  | .error e => .error e
  | .ok B => discover ord B minSize

/-! ### Lemmas -/

/-- The left side of the border of `U`. -/
def leftOf (ord : Finset α → List α) (isets1 : List (Finset α)) (U : Finset α) : List (Finset α) :=
  match borderDiff ord U (Filter.filterMaximal (isets1.map (fun e => U ∩ e))) with
  | .ok L => L
  | .error _ => []

theorem leftOf_ok (ord : Finset α → List α) (isets1 : List (Finset α)) (h : isets1 ≠ []) (U : Finset α) :
    borderDiff ord U (Filter.filterMaximal (isets1.map (fun e => U ∩ e))) = .ok (leftOf ord isets1 U) := by
  obtain ⟨L, hL⟩ := (borderDiff_total ord U _).1 (filterMaximal_ne_nil (isets1.map (fun e => U ∩ e)) (by simpa using h))
  unfold leftOf
  rw [hL]

theorem mem_leftOf (ord : Finset α → List α) (ho : OrderOk ord) (isets1 : List (Finset α)) (h : isets1 ≠ []) (U X : Finset α) :
    X ∈ leftOf ord isets1 U ↔ X ⊆ U ∧ (∀ e ∈ isets1, ¬ X ⊆ U ∩ e) ∧ ∀ Y, Y ⊂ X → ∃ e ∈ isets1, Y ⊆ U ∩ e := by
  rw [borderDiff_minimal ord ho U _ _ (leftOf_ok ord isets1 h U) X]
  have key : ∀ Y, (∀ s ∈ Filter.filterMaximal (isets1.map (fun e => U ∩ e)), ¬ Y ⊆ s) ↔ ∀ e ∈ isets1, ¬ Y ⊆ U ∩ e := by
    intro Y
    rw [subset_filterMaximal_iff]
    simp
  rw [key]
  refine and_congr_right (fun _ => and_congr_right (fun _ => forall_congr' (fun Y => imp_congr_right (fun _ => ?_))))
  have := not_congr (key Y)
  push Not at this
  exact this

theorem mbdl_eq (ord : Finset α → List α) (isets1 : List (Finset α)) (h : isets1 ≠ []) (isets2 : List (Finset α)) :
    mbdllborder ord isets1 isets2 = .ok ((isets2.filter (fun U => !isets1.any (fun e => decide (U ⊂ e)))).map (fun U => (leftOf ord isets1 U, U))) := by
  induction isets2 with
  | nil => rfl
  | cons U l ih =>
    rw [mbdllborder, List.filter_cons]
    by_cases hs : isets1.any (fun e => decide (U ⊂ e)) = true
    · rw [if_pos hs, hs, ih]; rfl
    · rw [if_neg hs, leftOf_ok ord isets1 h U, ih]
      simp only [Bool.not_eq_true] at hs
      rw [hs]
      rfl

theorem mbdl_nil (ord : Finset α → List α) (isets2 : List (Finset α)) : mbdllborder ord [] isets2 = if isets2 = [] then .ok [] else .error .indexError := by
  cases isets2 with
  | nil => rfl
  | cons U l => rfl

theorem mbdl_same (ord ord' : Finset α → List α) (ho : OrderOk ord) (ho' : OrderOk ord') (l1 l1' l2 l2' : List (Finset α)) (h1 : ∀ X, X ∈ l1 ↔ X ∈ l1') (h2 : l2.Perm l2') :
    SameRes SameBorders (mbdllborder ord l1 l2) (mbdllborder ord' l1' l2') := by
  by_cases h0 : l1 = []
  · have h0' : l1' = [] := by
      rw [List.eq_nil_iff_forall_not_mem]
      intro X hX
      have := (h1 X).2 hX
      rw [h0] at this
      cases this
    rw [h0, h0', mbdl_nil, mbdl_nil]
    by_cases hn : l2 = []
    · rw [if_pos hn, if_pos (by rw [hn] at h2; exact h2.nil_eq.symm)]
      exact ⟨[], List.Perm.refl _, List.Forall₂.nil⟩
    · rw [if_neg hn, if_neg (fun h => hn (by rw [h] at h2; exact h2.eq_nil))]
      rfl
  · have h0' : l1' ≠ [] := by
      intro h
      refine h0 ?_
      rw [List.eq_nil_iff_forall_not_mem]
      intro X hX
      have := (h1 X).1 hX
      rw [h] at this
      cases this
    rw [mbdl_eq ord l1 h0, mbdl_eq ord' l1' h0']
    have hany : ∀ U, l1'.any (fun e => decide (U ⊂ e)) = l1.any (fun e => decide (U ⊂ e)) := by
      intro U
      rw [Bool.eq_iff_iff, List.any_eq_true, List.any_eq_true]
      simp only [h1]
    simp only [hany]
    refine ⟨(l2.filter (fun U => !l1.any (fun e => decide (U ⊂ e)))).map (fun U => (leftOf ord' l1' U, U)), (h2.filter _).map _, ?_⟩
    rw [List.forall₂_map_left_iff, List.forall₂_map_right_iff, List.forall₂_same]
    intro U _
    refine ⟨rfl, ?_⟩
    intro X
    simp only
    rw [mem_leftOf ord ho l1 h0, mem_leftOf ord' ho' l1' h0']
    simp only [h1]

theorem sublist_eq_of_toFinset {o x y : List α} (hn : o.Nodup) (hx : x.Sublist o) (hy : y.Sublist o) (h : x.toFinset = y.toFinset) : x = y := by
  have key : ∀ z : List α, z.Sublist o → z = o.filter (fun a => decide (a ∈ z)) := by
    intro z hz
    have hz2 : z.Sublist (o.filter (fun a => decide (a ∈ z))) := by
      have := hz.filter (fun a => decide (a ∈ z))
      rwa [List.filter_eq_self.2 (fun a ha => decide_eq_true ha)] at this
    refine hz2.eq_of_length_le ?_
    rw [← List.toFinset_card_of_nodup (hn.filter _), ← List.toFinset_card_of_nodup (hn.sublist hz)]
    refine Finset.card_le_card ?_
    intro a ha
    rw [List.mem_toFinset, List.mem_filter, decide_eq_true_eq] at ha
    exact List.mem_toFinset.2 ha.2
  rw [key x hx, key y hy]
  refine List.filter_congr ?_
  intro a _
  have e : a ∈ x ↔ a ∈ y := by rw [← List.mem_toFinset, h, List.mem_toFinset]
  exact decide_eq_decide.2 e

theorem patterns_same (ord ord' : Finset α → List α) (ho : OrderOk ord) (ho' : OrderOk ord') (b c : List (Finset α) × Finset α) (h : SameBorder b c) (n : ℕ) :
    SameRes List.Perm (bordersToPatterns ord b.1 b.2 n) (bordersToPatterns ord' c.1 c.2 n) := by
  have hmin : effectiveMinSize b.1 n = effectiveMinSize c.1 n := by
    unfold effectiveMinSize
    by_cases hn : n ≠ 0
    · rw [if_pos hn, if_pos hn]
    · rw [if_neg hn, if_neg hn]
      have e : (b.1.map Finset.card).min? = (c.1.map Finset.card).min? := by
        have hm : ∀ k, k ∈ b.1.map Finset.card ↔ k ∈ c.1.map Finset.card := by
          intro k; rw [List.mem_map, List.mem_map]; simp only [h.2]
        cases hb : (b.1.map Finset.card).min? with
        | none =>
          rw [List.min?_eq_none_iff] at hb
          rw [hb] at hm
          symm
          rw [List.min?_eq_none_iff, List.eq_nil_iff_forall_not_mem]
          intro k hk
          exact absurd ((hm k).2 hk) (by simp)
        | some k =>
          rw [List.min?_eq_some_iff] at hb
          symm
          rw [List.min?_eq_some_iff]
          exact ⟨(hm k).1 hb.1, fun j hj => hb.2 j ((hm j).2 hj)⟩
      rw [e]
  cases hk : effectiveMinSize c.1 n with
  | error e =>
    unfold bordersToPatterns
    rw [hmin, hk]
    rfl
  | ok k =>
    unfold bordersToPatterns
    rw [hmin, hk]
    simp only [SameRes]
    rw [h.1]
    refine List.Perm.flatMap_left _ ?_
    intro size _
    have hp : (ord c.2).Perm (ord' c.2) := by
      rw [List.perm_ext_iff_of_nodup (ho _).1 (ho' _).1]
      intro x; rw [(ho _).2, (ho' _).2]
    have hf : ∀ pat : Finset α, (b.1.any (fun e => decide (pat ⊆ e))) = c.1.any (fun e => decide (pat ⊆ e)) := by
      intro pat
      rw [Bool.eq_iff_iff, List.any_eq_true, List.any_eq_true]
      simp only [h.2]
    simp only [hf]
    refine List.Perm.filter _ ?_
    have hnd : ∀ o : List α, o.Nodup → ((o.sublistsLen size).map List.toFinset).Nodup := by
      intro o hn
      refine List.Nodup.map_on ?_ (List.nodup_sublistsLen size hn)
      intro x hx y hy hxy
      have hx := (List.mem_sublistsLen.1 hx).1
      have hy := (List.mem_sublistsLen.1 hy).1
      exact sublist_eq_of_toFinset hn hx hy hxy
    rw [List.perm_ext_iff_of_nodup (hnd _ (ho _).1) (hnd _ (ho' _).1)]
    have hmem : ∀ (o : List α), o.Nodup → ∀ pat, pat ∈ (o.sublistsLen size).map List.toFinset ↔ pat ⊆ o.toFinset ∧ pat.card = size := by
      intro o hn pat
      rw [List.mem_map]
      constructor
      · rintro ⟨l, hl, rfl⟩
        obtain ⟨h1, h2⟩ := List.mem_sublistsLen.1 hl
        exact ⟨fun x hx => List.mem_toFinset.2 (h1.subset (List.mem_toFinset.1 hx)), by rw [List.toFinset_card_of_nodup (hn.sublist h1), h2]⟩
      · rintro ⟨h1, h2⟩
        have e : (o.filter (fun x => decide (x ∈ pat))).toFinset = pat := by
          ext x
          rw [List.mem_toFinset, List.mem_filter, decide_eq_true_eq]
          exact ⟨fun h => h.2, fun h => ⟨List.mem_toFinset.1 (h1 h), h⟩⟩
        refine ⟨o.filter (fun x => decide (x ∈ pat)), List.mem_sublistsLen.2 ⟨List.filter_sublist, ?_⟩, e⟩
        rw [← List.toFinset_card_of_nodup (hn.filter _), e, h2]
    intro pat
    rw [hmem _ (ho _).1, hmem _ (ho' _).1]
    have : (ord c.2).toFinset = (ord' c.2).toFinset := List.toFinset_eq_of_perm _ _ hp
    rw [this]

theorem discover_cons (ord : Finset α → List α) (b : List (Finset α) × Finset α) (B : List (List (Finset α) × Finset α)) (n : ℕ) :
    discover ord (b :: B) n = match bordersToPatterns ord b.1 b.2 n with
      | .error e => .error e
      | .ok a => match discover ord B n with
        | .error e => .error e
        | .ok r => .ok (a ++ r) := by
  rw [discover]
  cases bordersToPatterns ord b.1 b.2 n with
  | error e => rfl
  | ok a => cases discover ord B n <;> rfl

theorem patterns_err (ord : Finset α → List α) (L : List (Finset α)) (R : Finset α) (n : ℕ) (e : Err) (h : bordersToPatterns ord L R n = .error e) : e = .valueError := by
  unfold bordersToPatterns effectiveMinSize at h
  by_cases hn : n ≠ 0
  · rw [if_pos hn] at h; cases h
  · rw [if_neg hn] at h
    cases hm : (L.map Finset.card).min? with
    | none => rw [hm] at h; injection h with h; exact h.symm
    | some k => rw [hm] at h; cases h

theorem discover_err (ord : Finset α → List α) (B : List (List (Finset α) × Finset α)) (n : ℕ) (e : Err) (h : discover ord B n = .error e) : e = .valueError := by
  induction B with
  | nil => cases h
  | cons b B ih =>
    rw [discover_cons] at h
    cases hb : bordersToPatterns ord b.1 b.2 n with
    | error e' => rw [hb] at h; injection h with h; exact h ▸ patterns_err ord b.1 b.2 n e' hb
    | ok a =>
      rw [hb] at h
      cases hB : discover ord B n with
      | error e' => rw [hB] at h ih; injection h with h; exact ih (by rw [h])
      | ok r => rw [hB] at h; cases h

theorem discover_perm (ord : Finset α → List α) (n : ℕ) {B B' : List (List (Finset α) × Finset α)} (h : B.Perm B') : SameRes List.Perm (discover ord B n) (discover ord B' n) := by
  induction h with
  | nil => exact List.Perm.refl _
  | cons b _ ih =>
    rw [discover_cons, discover_cons]
    cases bordersToPatterns ord b.1 b.2 n with
    | error e => rfl
    | ok a =>
      simp only
      revert ih
      cases discover ord _ n with
      | error e => cases discover ord _ n with
        | error e' => exact fun h => h
        | ok r => exact fun h => h.elim
      | ok r => cases discover ord _ n with
        | error e' => exact fun h => h.elim
        | ok r' => exact fun h => List.Perm.append_left a h
  | swap b c B =>
    rw [discover_cons, discover_cons, discover_cons, discover_cons]
    cases hb : bordersToPatterns ord b.1 b.2 n with
    | error e =>
      cases hc : bordersToPatterns ord c.1 c.2 n with
      | error e' => rw [patterns_err _ _ _ _ _ hb, patterns_err _ _ _ _ _ hc]; rfl
      | ok a => rfl
    | ok a =>
      cases hc : bordersToPatterns ord c.1 c.2 n with
      | error e' => rfl
      | ok a' =>
        cases discover ord B n with
        | error e => rfl
        | ok r =>
          simp only [SameRes]
          rw [← List.append_assoc, ← List.append_assoc]
          exact List.Perm.append_right r List.perm_append_comm
  | trans _ _ h1 h2 =>
    revert h1 h2
    cases discover ord _ n <;> cases discover ord _ n <;> cases discover ord _ n <;> simp only [SameRes] <;> intro h1 h2
    all_goals first
      | exact h1.trans h2
      | exact h1.elim
      | exact h2.elim

theorem discover_forall (ord ord' : Finset α → List α) (ho : OrderOk ord) (ho' : OrderOk ord') (n : ℕ) {B B' : List (List (Finset α) × Finset α)} (h : List.Forall₂ SameBorder B B') :
    SameRes List.Perm (discover ord B n) (discover ord' B' n) := by
  induction h with
  | nil => exact List.Perm.refl _
  | cons hbc _ ih =>
    rw [discover_cons, discover_cons]
    have hp := patterns_same ord ord' ho ho' _ _ hbc n
    revert hp ih
    cases bordersToPatterns ord _ _ n <;> cases bordersToPatterns ord' _ _ n <;> cases discover ord _ n <;> cases discover ord' _ n <;> simp only [SameRes] <;> intro h1 h2
    all_goals first
      | exact h2
      | exact h1
      | exact h2.elim
      | exact h1.elim
      | exact List.Perm.append h2 h1

theorem lcmMax_perm (m : ℚ) (ord ord' : Finset α → List α) (ho : OrderOk ord) (ho' : OrderOk ord') (D D' : List (List α)) (h : (D.map List.toFinset).Perm (D'.map List.toFinset)) :
    ((LCM.lcmMax m (-1) true ord D).map (fun r => r.itemset.toFinset)).Perm ((LCM.lcmMax m (-1) true ord' D').map (fun r => r.itemset.toFinset)) := by
  rw [List.perm_ext_iff_of_nodup (LCM.lcmMax_nodup m (-1) true ord ho D) (LCM.lcmMax_nodup m (-1) true ord' ho' D')]
  have hcard : ∀ Y, (tidsOf D Y).card = (tidsOf D' Y).card := by
    intro Y; rw [LCM.card_tidsOf, LCM.card_tidsOf]; exact (h.filter _).length_eq
  have hitems : itemsOf D = itemsOf D' := by
    have hE : ∀ (E : List (List α)) x, x ∈ itemsOf E ↔ ∃ t ∈ E.map List.toFinset, x ∈ t := by
      intro E x
      simp [itemsOf, List.mem_flatten]
    ext x
    rw [hE, hE]
    simp only [h.mem_iff]
  have hfreq : ∀ Y, Frequent D m Y ↔ Frequent D' m Y := by
    intro Y; unfold Frequent; rw [hitems, hcard]
  intro X
  have e1 := LCM.lcmMax_exact m true ord ho D X
  have e2 := LCM.lcmMax_exact m true ord' ho' D' X
  rw [List.mem_map, List.mem_map, e1, e2]
  unfold MaximalFrequent
  simp only [hfreq]

theorem fit_same (ord ord' : Finset α → List α) (ho : OrderOk ord) (ho' : OrderOk ord') (minSupp growth : ℚ) (D1 D2 D1' D2' : List (List α)) (h1 : (D1.map List.toFinset).Perm (D1'.map List.toFinset))
    (h2 : (D2.map List.toFinset).Perm (D2'.map List.toFinset)) : SameRes SameBorders (fit ord minSupp growth D1 D2) (fit ord' minSupp growth D1' D2') := by
  have l1 : D1.length = D1'.length := by simpa using h1.length_eq
  have l2 : D2.length = D2'.length := by simpa using h2.length_eq
  unfold fit
  by_cases hg : growth * minSupp < 0 ∨ 1 < growth * minSupp
  · rw [if_pos hg, if_pos hg]; rfl
  · rw [if_neg hg, if_neg hg]
    simp only
    rw [l1, l2]
    exact mbdl_same ord ord' ho ho' _ _ _ _ (fun X => (lcmMax_perm _ ord ord' ho ho' D1 D1' h1).mem_iff) (lcmMax_perm _ ord ord' ho ho' D2 D2' h2)

/-! ### The theorem -/

section Main

variable {β : Type*} [LinearOrder β]

/-- The same labelled transactions: the order of the transactions, and the order and repetition of items inside a transaction, are forgotten. -/
def SameData (D : List (List α)) (y : List β) (D' : List (List α)) (y' : List β) : Prop :=
  D.length = y.length ∧ D'.length = y'.length ∧ ((D.zip y).map (fun p => (p.1.toFinset, p.2))).Perm ((D'.zip y').map (fun p => (p.1.toFinset, p.2)))

theorem split_same (D : List (List α)) (y : List β) (D' : List (List α)) (y' : List β) (h : SameData D y D' y') :
    SameRes (fun a b => (a.1.map List.toFinset).Perm (b.1.map List.toFinset) ∧ (a.2.map List.toFinset).Perm (b.2.map List.toFinset)) (split D y) (split D' y') := by
  obtain ⟨hl, hl', hp⟩ := h
  have hy : y.Perm y' := by
    have := hp.map Prod.snd
    rw [List.map_map, List.map_map] at this
    have e : ∀ (D : List (List α)) (y : List β), D.length = y.length → (D.zip y).map (Prod.snd ∘ fun p => (p.1.toFinset, p.2)) = y := by
      intro D y h
      exact List.map_snd_zip (le_of_eq h.symm)
    rw [e D y hl, e D' y' hl'] at this
    exact this
  have hs : y.dedup.insertionSort (· ≤ ·) = y'.dedup.insertionSort (· ≤ ·) :=
    List.Perm.eq_of_pairwise (le := (· ≤ ·)) (fun a b _ _ h h' => le_antisymm h h') (List.pairwise_insertionSort _ _) (List.pairwise_insertionSort _ _)
      ((List.perm_insertionSort _ _).trans (hy.dedup.trans (List.perm_insertionSort _ _).symm))
  have hpart : ∀ a : β, ((((D.zip y).filter (fun p => decide (p.2 = a))).map Prod.fst).map List.toFinset).Perm ((((D'.zip y').filter (fun p => decide (p.2 = a))).map Prod.fst).map List.toFinset) := by
    intro a
    have := (hp.filter (fun q => decide (q.2 = a))).map Prod.fst
    rw [List.filter_map, List.filter_map, List.map_map, List.map_map] at this
    rw [List.map_map, List.map_map]
    exact this
  unfold split
  rw [hs]
  split
  · exact ⟨hpart _, hpart _⟩
  · rfl

/-- C118. Reordering the labelled transactions, reordering or repeating items inside them, or iterating over sets in another order, changes neither the exception raised, if any, nor the borders, nor, for any `min_size`, the emerging
patterns and how often each is listed. Only the order of the results may change. -/
theorem order_independent (ord ord' : Finset α → List α) (ho : OrderOk ord) (ho' : OrderOk ord') (minSupp growth : ℚ) (D : List (List α)) (y : List β) (D' : List (List α)) (y' : List β) (h : SameData D y D' y') (minSize : ℕ) :
    SameRes SameBorders (fitBy ord minSupp growth D y) (fitBy ord' minSupp growth D' y') ∧
      SameRes List.Perm (fitDiscover ord minSupp growth D y minSize) (fitDiscover ord' minSupp growth D' y' minSize) := by
  have hfit : SameRes SameBorders (fitBy ord minSupp growth D y) (fitBy ord' minSupp growth D' y') := by
    have hs := split_same D y D' y' h
    unfold fitBy
    revert hs
    cases split D y with
    | error e =>
      cases split D' y' with
      | error e' => exact fun h => h
      | ok b => exact fun h => h.elim
    | ok a =>
      cases split D' y' with
      | error e' => exact fun h => h.elim
      | ok b => exact fun h => fit_same ord ord' ho ho' minSupp growth _ _ _ _ h.1 h.2
  refine ⟨hfit, ?_⟩
  unfold fitDiscover
  revert hfit
  cases fitBy ord minSupp growth D y with
  | error e =>
    cases fitBy ord' minSupp growth D' y' with
    | error e' => exact fun h => h
    | ok b => exact fun h => h.elim
  | ok B =>
    cases fitBy ord' minSupp growth D' y' with
    | error e' => exact fun h => h.elim
    | ok B' =>
      rintro ⟨B0, hp, hf⟩
      have h1 := discover_forall ord ord' ho ho' minSize hf
      have h2 := discover_perm ord' minSize hp
      simp only
      revert h1 h2
      cases discover ord B minSize <;> cases discover ord' B0 minSize <;> cases discover ord' B' minSize <;> simp only [SameRes] <;> intro h1 h2
      all_goals first
        | exact h1.trans h2
        | exact h1.elim
        | exact h2.elim

end Main

/-- Reordered transactions, reordered and repeated items. -/
example : SameData [[1, 2, 3], [1, 2, 3], [1, 2, 3, 4]] [0, 0, 1] [[4, 3, 2, 1], [3, 1, 2, 1], [1, 2, 3]] [1, 0, 0] := by
  refine ⟨rfl, rfl, ?_⟩
  decide

/-- On these data there is a border, so the theorem speaks about results. -/
example : fitBy sortSet (1 / 2) 2 [[1, 2, 3], [1, 2, 3], [1, 2, 3, 4]] [0, 0, 1] = .ok [([{4}], {1, 2, 3, 4})] := by
  have : split [[1, 2, 3], [1, 2, 3], [1, 2, 3, 4]] [0, 0, 1] = .ok ([[1, 2, 3], [1, 2, 3]], [[1, 2, 3, 4]]) := by decide
  unfold fitBy
  rw [this]
  exact witness_fit

end Verif.Border
