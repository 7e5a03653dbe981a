import Verif.Border.Model
import Verif.LCM.Props
import Mathlib.Tactic.Linarith
import Mathlib.Tactic.NormNum

/-!
# C24-C26: borders and emerging patterns
-/

set_option autoImplicit false
set_option linter.unusedSectionVars false

namespace Verif.Border

open Verif.LCM (OrderOk Frequent tidsOf itemsOf MaximalFrequent)

variable {α : Type*} [LinearOrder α]

/-- `Y` is contained in no member of `S`. -/
def Avoids (S : List (Finset α)) (Y : Finset α) : Prop := ∀ s ∈ S, ¬ Y ⊆ s

/-- `Y` lies in the border `[L, {U}]`. -/
def InBorder (L : List (Finset α)) (U Y : Finset α) : Prop := Y ⊆ U ∧ ∃ X ∈ L, X ⊆ Y

/-- Invariant of the loop of `border_diff` after processing `S`. -/
structure Inv (U : Finset α) (S : List (Finset α)) (L : List (Finset α)) : Prop where
  sub : ∀ X ∈ L, X ⊆ U
  avoids : ∀ X ∈ L, Avoids S X
  cover : ∀ Y ⊆ U, Avoids S Y → ∃ X ∈ L, X ⊆ Y
  anti : ∀ X ∈ L, ∀ X' ∈ L, ¬ X' ⊂ X

theorem exists_minimal_mem (l : List (Finset α)) (X : Finset α) (h : X ∈ l) :
    ∃ M ∈ Filter.filterMinimal l, M ⊆ X := by
  by_contra hcon
  have hstep : ∀ n, ∃ Z ∈ l, Z ⊆ X ∧ Z.card + n ≤ X.card := by
    intro n
    induction n with
    | zero => exact ⟨X, h, Finset.Subset.refl _, le_rfl⟩
    | succ n ih =>
      obtain ⟨Z, hZ, hZX, hn⟩ := ih
      by_contra hno
      refine hcon ⟨Z, ?_, hZX⟩
      rw [(Filter.filterMinimal_exact l).mem_iff, List.mem_filter]
      refine ⟨hZ, decide_eq_true (fun Y hY hsub => hno ⟨Y, hY, hsub.1.trans hZX, ?_⟩)⟩
      have := Finset.card_lt_card hsub
      omega
  obtain ⟨Z, _, _, hn⟩ := hstep (X.card + 1)
  omega

theorem mem_of_filterMinimal {l : List (Finset α)} {X : Finset α} (h : X ∈ Filter.filterMinimal l) :
    X ∈ l ∧ ∀ Y ∈ l, ¬ Y ⊂ X := by
  rw [(Filter.filterMinimal_exact l).mem_iff, List.mem_filter] at h
  exact ⟨h.1, of_decide_eq_true h.2⟩

theorem borderLoop_inv (ord : Finset α → List α) (ho : OrderOk ord) (U : Finset α) (todo : List (Finset α))
    (S L : List (Finset α)) (h : Inv U S L) : Inv U (S ++ todo) (borderLoop ord U L todo) := by
  induction todo generalizing S L with
  | nil => simpa [borderLoop] using h
  | cons s todo ih =>
    have hmem : ∀ Z, Z ∈ (ord (U \ s)).flatMap (fun x => L.map (fun X => X ∪ {x})) ↔
        ∃ x, x ∈ U ∧ x ∉ s ∧ ∃ X ∈ L, Z = X ∪ {x} := by
      intro Z
      rw [List.mem_flatMap]
      constructor
      · rintro ⟨x, hx, hZ⟩
        rw [(ho _).2, Finset.mem_sdiff] at hx
        obtain ⟨X, hX, rfl⟩ := List.mem_map.1 hZ
        exact ⟨x, hx.1, hx.2, X, hX, rfl⟩
      · rintro ⟨x, hxU, hxs, X, hX, rfl⟩
        exact ⟨x, ((ho _).2 x).2 (Finset.mem_sdiff.2 ⟨hxU, hxs⟩), List.mem_map.2 ⟨X, hX, rfl⟩⟩
    have hnew : Inv U (S ++ [s])
        (Filter.filterMinimal ((ord (U \ s)).flatMap (fun x => L.map (fun X => X ∪ {x})))) := by
      constructor
      · intro Z hZ
        obtain ⟨x, hxU, _, X, hX, rfl⟩ := (hmem Z).1 (mem_of_filterMinimal hZ).1
        exact Finset.union_subset (h.sub X hX) (Finset.singleton_subset_iff.2 hxU)
      · intro Z hZ t ht hsub
        obtain ⟨x, hxU, hxs, X, hX, rfl⟩ := (hmem Z).1 (mem_of_filterMinimal hZ).1
        rcases List.mem_append.1 ht with ht | ht
        · exact h.avoids X hX t ht (Finset.subset_union_left.trans hsub)
        · rw [List.mem_singleton] at ht; subst ht
          exact hxs (hsub (Finset.mem_union_right _ (Finset.mem_singleton_self x)))
      · intro Y hYU hav
        obtain ⟨X, hX, hXY⟩ := h.cover Y hYU (fun t ht => hav t (List.mem_append_left _ ht))
        obtain ⟨x, hxY, hxs⟩ := Finset.not_subset.1 (hav s (List.mem_append_right _ (List.mem_singleton_self s)))
        obtain ⟨M, hM, hMX⟩ := exists_minimal_mem _ (X ∪ {x}) ((hmem _).2 ⟨x, hYU hxY, hxs, X, hX, rfl⟩)
        exact ⟨M, hM, hMX.trans (Finset.union_subset hXY (Finset.singleton_subset_iff.2 hxY))⟩
      · intro X hX X' hX'
        exact (mem_of_filterMinimal hX).2 X' (mem_of_filterMinimal hX').1
    have := ih (S ++ [s]) _ hnew
    rw [List.append_assoc, List.singleton_append] at this
    exact this

theorem borderDiff_inv (ord : Finset α → List α) (ho : OrderOk ord) (U : Finset α) (S L : List (Finset α))
    (h : borderDiff ord U S = .ok L) : Inv U S L := by
  cases S with
  | nil => simp [borderDiff] at h
  | cons s S =>
    simp only [borderDiff, Except.ok.injEq] at h
    subst h
    refine borderLoop_inv ord ho U S [s] _ ?_
    have hmem : ∀ X, X ∈ (ord (U \ s)).map (fun x => ({x} : Finset α)) ↔ ∃ x, x ∈ U ∧ x ∉ s ∧ X = {x} := by
      intro X
      rw [List.mem_map]
      constructor
      · rintro ⟨x, hx, rfl⟩
        rw [(ho _).2, Finset.mem_sdiff] at hx
        exact ⟨x, hx.1, hx.2, rfl⟩
      · rintro ⟨x, h1, h2, rfl⟩
        exact ⟨x, ((ho _).2 x).2 (Finset.mem_sdiff.2 ⟨h1, h2⟩), rfl⟩
    constructor
    · intro X hX
      obtain ⟨x, hxU, _, rfl⟩ := (hmem X).1 hX
      exact Finset.singleton_subset_iff.2 hxU
    · intro X hX t ht hsub
      obtain ⟨x, _, hxs, rfl⟩ := (hmem X).1 hX
      rw [List.mem_singleton] at ht; subst ht
      exact hxs (Finset.singleton_subset_iff.1 hsub)
    · intro Y hYU hav
      obtain ⟨x, hxY, hxs⟩ := Finset.not_subset.1 (hav s (List.mem_singleton_self s))
      exact ⟨{x}, (hmem _).2 ⟨x, hYU hxY, hxs, rfl⟩, Finset.singleton_subset_iff.2 hxY⟩
    · intro X hX X' hX' hsub
      obtain ⟨x, _, _, rfl⟩ := (hmem X).1 hX
      obtain ⟨x', _, _, rfl⟩ := (hmem X').1 hX'
      have := Finset.card_lt_card hsub
      simp at this

/-- C24. `border_diff` succeeds on every non-empty list and raises `IndexError` on the empty one. -/
theorem borderDiff_total (ord : Finset α → List α) (U : Finset α) (S : List (Finset α)) :
    (S ≠ [] → ∃ L, borderDiff ord U S = .ok L) ∧ borderDiff ord U [] = .error .indexError := by
  refine ⟨fun h => ?_, rfl⟩
  cases S with
  | nil => exact absurd rfl h
  | cons s S => exact ⟨_, rfl⟩

/-- C24. A subset of `U` lies above a member of the returned left border iff it is contained in no member of `S`. -/
theorem borderDiff_border (ord : Finset α → List α) (ho : OrderOk ord) (U : Finset α) (S L : List (Finset α))
    (h : borderDiff ord U S = .ok L) (Y : Finset α) :
    InBorder L U Y ↔ Y ⊆ U ∧ ∀ s ∈ S, ¬ Y ⊆ s := by
  have hinv := borderDiff_inv ord ho U S L h
  constructor
  · rintro ⟨hYU, X, hX, hXY⟩
    exact ⟨hYU, fun s hs hsub => hinv.avoids X hX s hs (hXY.trans hsub)⟩
  · rintro ⟨hYU, hav⟩
    exact ⟨hYU, hinv.cover Y hYU hav⟩

/-- C24. The members of the left border are exactly the minimal subsets of `U` contained in no member of `S`. -/
theorem borderDiff_minimal (ord : Finset α → List α) (ho : OrderOk ord) (U : Finset α) (S L : List (Finset α))
    (h : borderDiff ord U S = .ok L) (X : Finset α) :
    X ∈ L ↔ X ⊆ U ∧ (∀ s ∈ S, ¬ X ⊆ s) ∧ ∀ Y, Y ⊂ X → ∃ s ∈ S, Y ⊆ s := by
  have hinv := borderDiff_inv ord ho U S L h
  constructor
  · intro hX
    refine ⟨hinv.sub X hX, hinv.avoids X hX, fun Y hYX => ?_⟩
    by_contra hno
    obtain ⟨X', hX', hsub⟩ := hinv.cover Y (hYX.1.trans (hinv.sub X hX)) (fun s hs hYs => hno ⟨s, hs, hYs⟩)
    exact hinv.anti X hX X' hX' (lt_of_le_of_lt hsub hYX)
  · rintro ⟨hXU, hav, hmin⟩
    obtain ⟨X', hX', hsub⟩ := hinv.cover X hXU hav
    by_cases he : X' = X
    · rw [← he]; exact hX'
    · obtain ⟨s, hs, hX's⟩ := hmin X' (hsub.ssubset_of_ne he)
      exact absurd hX's (hinv.avoids X' hX' s hs)

omit [LinearOrder α] in
theorem card_le_sum (l : List (Finset α)) (Z : Finset α) (hZ : Z ∈ l) : Z.card ≤ (l.map Finset.card).sum := by
  induction l with
  | nil => simp at hZ
  | cons a l ih =>
    rw [List.map_cons, List.sum_cons]
    rcases List.mem_cons.1 hZ with rfl | hZ
    · omega
    · have := ih hZ; omega

theorem subset_filterMaximal_iff (l : List (Finset α)) (Y : Finset α) :
    (∀ s ∈ Filter.filterMaximal l, ¬ Y ⊆ s) ↔ ∀ s ∈ l, ¬ Y ⊆ s := by
  constructor
  · intro h s hs hYs
    have hstep : ∀ n, ∃ Z ∈ l, s ⊆ Z ∧ n ≤ Z.card := by
      intro n
      induction n with
      | zero => exact ⟨s, hs, Finset.Subset.refl _, Nat.zero_le _⟩
      | succ n ih =>
        obtain ⟨Z, hZ, hsZ, hn⟩ := ih
        by_contra hno
        refine h Z ?_ (hYs.trans hsZ)
        rw [(Filter.filterMaximal_exact l).mem_iff, List.mem_filter]
        refine ⟨hZ, decide_eq_true (fun W hW hsub => hno ⟨W, hW, hsZ.trans hsub.1, ?_⟩)⟩
        have := Finset.card_lt_card hsub
        omega
    obtain ⟨Z, hZ, _, hn⟩ := hstep ((l.map Finset.card).sum + 1)
    have := card_le_sum l Z hZ
    omega
  · intro h s hs
    rw [(Filter.filterMaximal_exact l).mem_iff, List.mem_filter] at hs
    exact h s hs.1

/-- What `mbdllborder` returns: for every non-skipped member of the second collection, one border whose content is the
subsets contained in no member of the first collection. -/
theorem mbdllborder_spec (ord : Finset α → List α) (ho : OrderOk ord) (isets1 isets2 : List (Finset α))
    (B : List (List (Finset α) × Finset α)) (h : mbdllborder ord isets1 isets2 = .ok B) :
    (∀ b ∈ B, b.2 ∈ isets2 ∧ ∀ Y, InBorder b.1 b.2 Y ↔ Y ⊆ b.2 ∧ ∀ e ∈ isets1, ¬ Y ⊆ e) ∧
    (∀ U ∈ isets2, (∀ e ∈ isets1, ¬ U ⊂ e) → ∃ b ∈ B, b.2 = U) := by
  induction isets2 generalizing B with
  | nil =>
    simp only [mbdllborder, Except.ok.injEq] at h
    subst h
    simp
  | cons iset isets2 ih =>
    unfold mbdllborder at h
    by_cases hskip : isets1.any (fun e => decide (iset ⊂ e)) = true
    · rw [if_pos hskip] at h
      obtain ⟨h1, h2⟩ := ih B h
      refine ⟨fun b hb => ⟨List.mem_cons_of_mem _ (h1 b hb).1, (h1 b hb).2⟩, ?_⟩
      intro U hU hno
      rcases List.mem_cons.1 hU with rfl | hU
      · obtain ⟨e, he, hlt⟩ := List.any_eq_true.1 hskip
        exact absurd (of_decide_eq_true hlt) (hno e he)
      · exact h2 U hU hno
    · rw [if_neg hskip] at h
      cases hd : borderDiff ord iset (Filter.filterMaximal (isets1.map (fun e => iset ∩ e))) with
      | error e => rw [hd] at h; cases h
      | ok diff =>
        cases hr : mbdllborder ord isets1 isets2 with
        | error e => rw [hd, hr] at h; cases h
        | ok rest =>
          rw [hd, hr] at h
          have hB : B = (diff, iset) :: rest := (Except.ok.inj h).symm
          subst hB
          obtain ⟨h1, h2⟩ := ih rest hr
          refine ⟨?_, ?_⟩
          · intro b hb
            rcases List.mem_cons.1 hb with rfl | hb
            · refine ⟨List.mem_cons_self, fun Y => ?_⟩
              rw [borderDiff_border ord ho _ _ _ hd Y, subset_filterMaximal_iff]
              simp only [List.mem_map, forall_exists_index, and_imp, forall_apply_eq_imp_iff₂]
              constructor
              · rintro ⟨hYU, hno⟩
                exact ⟨hYU, fun e he hYe => hno e he (Finset.subset_inter hYU hYe)⟩
              · rintro ⟨hYU, hno⟩
                exact ⟨hYU, fun e he hYe => hno e he (hYe.trans Finset.inter_subset_right)⟩
            · exact ⟨List.mem_cons_of_mem _ (h1 b hb).1, (h1 b hb).2⟩
          · intro U hU hno
            rcases List.mem_cons.1 hU with rfl | hU
            · exact ⟨_, List.mem_cons_self, rfl⟩
            · obtain ⟨b, hb, he⟩ := h2 U hU hno
              exact ⟨b, List.mem_cons_of_mem _ hb, he⟩

theorem mbdllborder_anti (ord : Finset α → List α) (ho : OrderOk ord) (isets1 isets2 : List (Finset α))
    (B : List (List (Finset α) × Finset α)) (h : mbdllborder ord isets1 isets2 = .ok B) :
    ∀ b ∈ B, ∀ X ∈ b.1, ∀ X' ∈ b.1, ¬ X' ⊂ X := by
  induction isets2 generalizing B with
  | nil =>
    simp only [mbdllborder, Except.ok.injEq] at h
    subst h
    simp
  | cons iset isets2 ih =>
    unfold mbdllborder at h
    by_cases hskip : isets1.any (fun e => decide (iset ⊂ e)) = true
    · rw [if_pos hskip] at h
      exact ih B h
    · rw [if_neg hskip] at h
      cases hd : borderDiff ord iset (Filter.filterMaximal (isets1.map (fun e => iset ∩ e))) with
      | error e => rw [hd] at h; cases h
      | ok diff =>
        cases hr : mbdllborder ord isets1 isets2 with
        | error e => rw [hd, hr] at h; cases h
        | ok rest =>
          rw [hd, hr] at h
          have hB : B = (diff, iset) :: rest := (Except.ok.inj h).symm
          subst hB
          intro b hb
          rcases List.mem_cons.1 hb with rfl | hb
          · exact (borderDiff_inv ord ho _ _ _ hd).anti
          · exact ih rest hr b hb

/-- The frequent itemsets are the non-empty subsets of the itemsets returned by LCMMax. -/
theorem frequent_iff_le_max (ord : Finset α → List α) (ho : OrderOk ord) (m : ℚ) (D : List (List α)) (Y : Finset α) :
    (Y.Nonempty ∧ ∃ e ∈ (LCM.lcmMax m (-1) true ord D).map (fun r => r.itemset.toFinset), Y ⊆ e) ↔ Frequent D m Y := by
  have hmax : ∀ e, e ∈ (LCM.lcmMax m (-1) true ord D).map (fun r => r.itemset.toFinset) ↔ MaximalFrequent D m e := by
    intro e
    rw [← LCM.lcmMax_exact m true ord ho D e, List.mem_map]
  constructor
  · rintro ⟨hne, e, he, hsub⟩
    have := ((hmax e).1 he).1
    exact ⟨hne, hsub.trans this.2.1, le_trans this.2.2
      (by exact_mod_cast Finset.card_le_card (LCM.tidsOf_mono D hsub))⟩
  · intro h
    obtain ⟨Z, hYZ, hZ⟩ := LCM.exists_maximal (LCM.fit_spec m D) h
    exact ⟨h.1, Z, (hmax Z).2 hZ, hYZ⟩

/-- C25. After a successful `fit`, an itemset lies in one of the borders iff it is frequent in the second collection at
the raised threshold and not frequent in the first one. -/
theorem fit_borders_partial (ord : Finset α → List α) (ho : OrderOk ord) (minSupp growth : ℚ) (D1 D2 : List (List α))
    (B : List (List (Finset α) × Finset α)) (h : fit ord minSupp growth D1 D2 = .ok B) (Y : Finset α) (hY : Y.Nonempty) :
    (∃ b ∈ B, InBorder b.1 b.2 Y) ↔
      Frequent D2 (growth * minSupp * D2.length) Y ∧ ¬ Frequent D1 (minSupp * D1.length) Y := by
  unfold fit at h
  split at h
  · cases h
  · obtain ⟨h1, h2⟩ := mbdllborder_spec ord ho _ _ B h
    rw [← frequent_iff_le_max ord ho, ← frequent_iff_le_max ord ho]
    constructor
    · rintro ⟨b, hb, hin⟩
      have hin' := ((h1 b hb).2 Y).1 hin
      exact ⟨⟨hY, b.2, (h1 b hb).1, hin'.1⟩, fun ⟨_, e, he, hsub⟩ => hin'.2 e he hsub⟩
    · rintro ⟨⟨_, U, hU, hYU⟩, hno⟩
      have hno' : ∀ e ∈ (LCM.lcmMax (minSupp * D1.length) (-1) true ord D1).map (fun r => r.itemset.toFinset),
          ¬ Y ⊆ e := fun e he hsub => hno ⟨hY, e, he, hsub⟩
      obtain ⟨b, hb, rfl⟩ := h2 U hU (fun e he hlt => hno' e he (hYU.trans hlt.1))
      exact ⟨b, hb, ((h1 b hb).2 Y).2 ⟨hYU, hno'⟩⟩

theorem filterMaximal_ne_nil (l : List (Finset α)) (h : l ≠ []) : Filter.filterMaximal l ≠ [] := by
  cases l with
  | nil => exact absurd rfl h
  | cons a l =>
    intro he
    have := (subset_filterMaximal_iff (a :: l) a).1 (by rw [he]; simp) a List.mem_cons_self
    exact this (Finset.Subset.refl _)

theorem mbdllborder_total (ord : Finset α → List α) (isets1 isets2 : List (Finset α)) (h : isets1 ≠ []) :
    ∃ B, mbdllborder ord isets1 isets2 = .ok B := by
  induction isets2 with
  | nil => exact ⟨[], rfl⟩
  | cons iset isets2 ih =>
    obtain ⟨B, hB⟩ := ih
    unfold mbdllborder
    by_cases hskip : isets1.any (fun e => decide (iset ⊂ e)) = true
    · rw [if_pos hskip]; exact ⟨B, hB⟩
    · rw [if_neg hskip]
      obtain ⟨L, hL⟩ := (borderDiff_total ord iset (Filter.filterMaximal (isets1.map (fun e => iset ∩ e)))).1
        (filterMaximal_ne_nil _ (by simpa using h))
      rw [hL, hB]
      exact ⟨_, rfl⟩

/-- C25 (when it succeeds). `fit` succeeds when the raised threshold is at most 1 and the first collection has a frequent
item. -/
theorem fit_total (ord : Finset α → List α) (ho : OrderOk ord) (minSupp growth : ℚ) (D1 D2 : List (List α))
    (h0 : 0 ≤ growth * minSupp) (h1 : growth * minSupp ≤ 1) (hne : ∃ Y, Frequent D1 (minSupp * D1.length) Y) :
    ∃ B, fit ord minSupp growth D1 D2 = .ok B := by
  unfold fit
  rw [if_neg (by rintro (h | h) <;> linarith)]
  apply mbdllborder_total
  obtain ⟨Y, hY⟩ := hne
  obtain ⟨_, e, he, _⟩ := (frequent_iff_le_max ord ho _ D1 Y).2 hY
  intro hnil
  rw [hnil] at he
  simp at he

/-- C25, violation. When no itemset is frequent in the first collection while the second has one, `fit` raises
`IndexError` although every frequent itemset of the second collection is then emerging. -/
theorem fit_indexError :
    fit sortSet (1 / 2) 2 [[1], [2], [3]] [[1, 2], [1, 2]] = .error .indexError ∧
      Frequent [[1, 2], [1, 2]] ((2 : ℚ) * (1 / 2) * 2) {1, 2} ∧
      ∀ Y, ¬ Frequent [[1], [2], [3]] ((1 / 2 : ℚ) * 3) Y := by
  refine ⟨?_, ?_, ?_⟩
  · have h1 : ¬ ((2 : ℚ) * (1 / 2) < 0 ∨ 1 < (2 : ℚ) * (1 / 2)) := by norm_num
    unfold fit
    rw [if_neg h1]
    have e1 : LCM.lcmMax ((1 / 2 : ℚ) * ([[1], [2], [3]] : List (List ℕ)).length) (-1) true sortSet [[1], [2], [3]] = [] := by
      rw [List.eq_nil_iff_forall_not_mem]
      intro r hr
      have hrow := LCM.lcmMax_rows _ _ _ _ LCM.orderOk_sort _ r hr
      obtain ⟨x, hx⟩ := hrow.2.1.1.1
      have hf := hrow.2.1.1.2.2
      have hx1 := hrow.2.1.1.2.1 hx
      have hle := Finset.card_le_card (LCM.tidsOf_mono [[1], [2], [3]] (Finset.singleton_subset_iff.2 hx))
      have h1 : ∀ x ∈ itemsOf [[1], [2], [3]], (tidsOf [[1], [2], [3]] {x}).card ≤ 1 := by decide
      have h2 := hle.trans (h1 x hx1)
      have h3 : ((tidsOf [[1], [2], [3]] r.itemset.toFinset).card : ℚ) ≤ 1 := by exact_mod_cast h2
      norm_num at hf
      linarith
    have e2 : (2 : ℚ) * (1 / 2) * (([[1, 2], [1, 2]] : List (List ℕ)).length : ℕ) = 2 := by norm_num
    simp only [e1, e2]
    decide
  · refine ⟨by decide, by decide, ?_⟩
    have : (tidsOf [[1, 2], [1, 2]] ({1, 2} : Finset ℕ)).card = 2 := by decide
    rw [this]; norm_num
  · rintro Y ⟨⟨x, hx⟩, hsub, hf⟩
    have hle := Finset.card_le_card (LCM.tidsOf_mono [[1], [2], [3]] (Finset.singleton_subset_iff.2 hx))
    have h1 : ∀ x ∈ itemsOf [[1], [2], [3]], (tidsOf [[1], [2], [3]] {x}).card ≤ 1 := by decide
    have h2 := hle.trans (h1 x (hsub hx))
    have h3 : ((tidsOf [[1], [2], [3]] Y).card : ℚ) ≤ 1 := by exact_mod_cast h2
    norm_num at hf
    linarith

theorem mem_bordersToPatterns (ord : Finset α → List α) (ho : OrderOk ord) (left : List (Finset α)) (right : Finset α)
    (minSize k : ℕ) (hk : effectiveMinSize left minSize = .ok k) (P : List (Finset α))
    (h : bordersToPatterns ord left right minSize = .ok P) (pat : Finset α) :
    pat ∈ P ↔ pat ⊆ right ∧ k ≤ pat.card ∧ pat.card < right.card ∧ ∀ e ∈ left, ¬ pat ⊆ e := by
  unfold bordersToPatterns at h
  rw [hk] at h
  simp only [Except.ok.injEq] at h
  subst h
  simp only [List.mem_flatMap, List.mem_reverse, List.mem_filter, List.mem_range, List.mem_map,
    List.mem_sublistsLen, decide_eq_true_eq]
  have hnd := (ho right).1
  have hmem := (ho right).2
  constructor
  · rintro ⟨size, ⟨hlt, hle⟩, ⟨l, ⟨hsub, hlen⟩, rfl⟩, hno⟩
    have hcard : l.toFinset.card = size := by
      rw [List.toFinset_card_of_nodup (hnd.sublist hsub), hlen]
    refine ⟨?_, hcard ▸ hle, hcard ▸ hlt, ?_⟩
    · intro x hx
      exact (hmem x).1 (hsub.subset (List.mem_toFinset.1 hx))
    · intro e he hpe
      exact hno (List.any_eq_true.2 ⟨e, he, decide_eq_true hpe⟩)
  · rintro ⟨hsub, hle, hlt, hno⟩
    refine ⟨pat.card, ⟨hlt, hle⟩, ⟨(ord right).filter (fun x => x ∈ pat), ⟨List.filter_sublist, ?_⟩, ?_⟩, ?_⟩
    · rw [← List.toFinset_card_of_nodup (hnd.filter _)]
      congr 1
      ext x
      rw [List.mem_toFinset, List.mem_filter, hmem, decide_eq_true_eq]
      exact ⟨fun h => h.2, fun h => ⟨hsub h, h⟩⟩
    · ext x
      rw [List.mem_toFinset, List.mem_filter, hmem, decide_eq_true_eq]
      exact ⟨fun h => h.2, fun h => ⟨hsub h, h⟩⟩
    · intro h
      obtain ⟨e, he, hpe⟩ := List.any_eq_true.1 h
      exact hno e he (of_decide_eq_true hpe)

/-- C26, what is really returned by `discover(min_size)` for `min_size >= 1`: the strict subsets of the right borders with
at least `min_size` items that are included in no member of the left border. -/
theorem discover_exact (ord : Finset α → List α) (ho : OrderOk ord) (B : List (List (Finset α) × Finset α))
    (minSize : ℕ) (hpos : minSize ≠ 0) :
    ∃ P, discover ord B minSize = .ok P ∧ ∀ pat, pat ∈ P ↔
      ∃ b ∈ B, pat ⊂ b.2 ∧ minSize ≤ pat.card ∧ ∀ e ∈ b.1, ¬ pat ⊆ e := by
  induction B with
  | nil => exact ⟨[], rfl, by simp⟩
  | cons b B ih =>
    obtain ⟨rest, hrest, hmem⟩ := ih
    obtain ⟨L, R⟩ := b
    have hk : effectiveMinSize L minSize = .ok minSize := by unfold effectiveMinSize; rw [if_pos hpos]
    obtain ⟨a, ha⟩ : ∃ a, bordersToPatterns ord L R minSize = .ok a := by
      unfold bordersToPatterns; rw [hk]; exact ⟨_, rfl⟩
    refine ⟨a ++ rest, ?_, fun pat => ?_⟩
    · unfold discover; rw [ha, hrest]; rfl
    · rw [List.mem_append, mem_bordersToPatterns ord ho L R minSize minSize hk a ha, hmem]
      have hss : pat ⊂ R ↔ pat ⊆ R ∧ pat.card < R.card := by
        constructor
        · intro h; exact ⟨h.1, Finset.card_lt_card h⟩
        · rintro ⟨h1, h2⟩
          exact h1.ssubset_of_ne (fun h => by rw [h] at h2; exact absurd h2 (lt_irrefl _))
      simp only [List.mem_cons, exists_eq_or_imp, hss]
      tauto

/-- C26, the part that holds. Every pattern returned is frequent in the second collection at the raised threshold, and
every emerging itemset (frequent in the second collection at the raised threshold and not in the first one) of at least
`min_size` items that is neither the right end of a border nor a minimal element of the left one is returned. What is
missing: the returned patterns need not be emerging (`discover_not_emerging`), and the ends of the borders are never
returned (`discover_misses`). -/
theorem discover_emerging_partial (ord : Finset α → List α) (ho : OrderOk ord) (minSupp growth : ℚ)
    (D1 D2 : List (List α)) (B : List (List (Finset α) × Finset α)) (h : fit ord minSupp growth D1 D2 = .ok B)
    (minSize : ℕ) (hpos : minSize ≠ 0) :
    ∃ P, discover ord B minSize = .ok P ∧
      (∀ pat ∈ P, Frequent D2 (growth * minSupp * D2.length) pat) ∧
      (∀ b ∈ B, ∀ pat, pat ⊂ b.2 → minSize ≤ pat.card → (∃ X ∈ b.1, X ⊂ pat) → pat ∈ P) := by
  obtain ⟨P, hP, hmem⟩ := discover_exact ord ho B minSize hpos
  have hB := h
  unfold fit at hB
  split at hB
  · cases hB
  · obtain ⟨h1, h2⟩ := mbdllborder_spec ord ho _ _ B hB
    refine ⟨P, hP, ?_, ?_⟩
    · intro pat hpat
      obtain ⟨b, hb, hsub, hcard, _⟩ := (hmem pat).1 hpat
      rw [← frequent_iff_le_max ord ho]
      exact ⟨Finset.card_pos.1 (by omega), b.2, (h1 b hb).1, hsub.1⟩
    · intro b hb pat hsub hcard hX
      refine (hmem pat).2 ⟨b, hb, hsub, hcard, fun e he hpe => ?_⟩
      obtain ⟨X, hX, hXp⟩ := hX
      have hXe : X ⊂ e := lt_of_lt_of_le hXp hpe
      have hanti := mbdllborder_anti ord ho _ _ B hB b hb
      exact hanti e he X hX hXe

theorem witness_fit : fit sortSet (1 / 2) 2 [[1, 2, 3], [1, 2, 3]] [[1, 2, 3, 4]] = .ok [([{4}], {1, 2, 3, 4})] := by
  have h1 : ¬ ((2 : ℚ) * (1 / 2) < 0 ∨ 1 < (2 : ℚ) * (1 / 2)) := by norm_num
  have e1 : (1 / 2 : ℚ) * (([[1, 2, 3], [1, 2, 3]] : List (List ℕ)).length : ℕ) = 1 := by norm_num
  have e2 : (2 : ℚ) * (1 / 2) * (([[1, 2, 3, 4]] : List (List ℕ)).length : ℕ) = 1 := by norm_num
  unfold fit
  rw [if_neg h1, e1, e2]
  decide

/-- C26, violation. With minimum support 1/2 and growth rate 2, the pattern {1, 2, 3} is returned although it occurs in
every transaction of both collections (ratio 1), so it is not emerging and not in the border. -/
theorem discover_not_emerging :
    ∃ B P, fit sortSet (1 / 2) 2 [[1, 2, 3], [1, 2, 3]] [[1, 2, 3, 4]] = .ok B ∧ discover sortSet B 3 = .ok P ∧
      ({1, 2, 3} : Finset ℕ) ∈ P ∧ (¬ ∃ b ∈ B, InBorder b.1 b.2 ({1, 2, 3} : Finset ℕ)) ∧
      (tidsOf [[1, 2, 3], [1, 2, 3]] ({1, 2, 3} : Finset ℕ)).card = 2 ∧
      (tidsOf [[1, 2, 3, 4]] ({1, 2, 3} : Finset ℕ)).card = 1 := by
  obtain ⟨P, hP, hmem⟩ := discover_exact sortSet LCM.orderOk_sort [([{4}], ({1, 2, 3, 4} : Finset ℕ))] 3 (by decide)
  refine ⟨_, P, witness_fit, hP, (hmem _).2 ⟨_, List.mem_singleton_self _, by decide, by decide, by decide⟩, ?_,
    by decide, by decide⟩
  rintro ⟨b, hb, _, X, hX, hsub⟩
  rw [List.mem_singleton] at hb
  subst hb
  rw [List.mem_singleton] at hX
  subst hX
  revert hsub
  decide

/-- C26, violation. In the same run the emerging itemset {1, 2, 3, 4} (support 0 in the first collection, 1 in the second)
is not returned. -/
theorem discover_misses :
    ∃ B P, fit sortSet (1 / 2) 2 [[1, 2, 3], [1, 2, 3]] [[1, 2, 3, 4]] = .ok B ∧ discover sortSet B 3 = .ok P ∧
      ({1, 2, 3, 4} : Finset ℕ) ∉ P ∧ ∃ b ∈ B, InBorder b.1 b.2 ({1, 2, 3, 4} : Finset ℕ) := by
  obtain ⟨P, hP, hmem⟩ := discover_exact sortSet LCM.orderOk_sort [([{4}], ({1, 2, 3, 4} : Finset ℕ))] 3 (by decide)
  refine ⟨_, P, witness_fit, hP, fun h => ?_, _, List.mem_singleton_self _, by decide, {4}, by decide, by decide⟩
  obtain ⟨b, hb, hss, _⟩ := (hmem _).1 h
  rw [List.mem_singleton] at hb
  subst hb
  exact absurd hss (by decide)

/-- C26, the default size. With `min_size` 0 (or `None`) the size bound of a border is the smallest size in its left part: a strict subset of the
right part included in no left member is returned iff some left member is not larger. An empty left part raises. -/
theorem default_size (ord : Finset α → List α) (ho : OrderOk ord) (left : List (Finset α)) (right : Finset α) :
    (left = [] → bordersToPatterns ord left right 0 = .error .valueError) ∧
    (left ≠ [] → ∃ P, bordersToPatterns ord left right 0 = .ok P ∧ ∀ pat, pat ∈ P ↔
      pat ⊆ right ∧ (∃ e ∈ left, e.card ≤ pat.card) ∧ pat.card < right.card ∧ ∀ e ∈ left, ¬ pat ⊆ e) := by
  constructor
  · rintro rfl
    rfl
  · intro hne
    obtain ⟨k, hk⟩ : ∃ k, (left.map Finset.card).min? = some k := by
      cases h : (left.map Finset.card).min? with
      | none => rw [List.min?_eq_none_iff, List.map_eq_nil_iff] at h; exact absurd h hne
      | some k => exact ⟨k, rfl⟩
    have he : effectiveMinSize left 0 = .ok k := by
      unfold effectiveMinSize
      rw [if_neg (by simp), hk]
    obtain ⟨P, hP⟩ : ∃ P, bordersToPatterns ord left right 0 = .ok P := by
      unfold bordersToPatterns; rw [he]; exact ⟨_, rfl⟩
    refine ⟨P, hP, fun pat => ?_⟩
    rw [mem_bordersToPatterns ord ho left right 0 k he P hP]
    have hmin : k ≤ pat.card ↔ ∃ e ∈ left, e.card ≤ pat.card := by
      obtain ⟨h1, h2⟩ := List.min?_eq_some_iff.1 hk
      obtain ⟨e, hel, hek⟩ := List.mem_map.1 h1
      constructor
      · intro h
        exact ⟨e, hel, hek.trans_le h⟩
      · rintro ⟨e', he', hle⟩
        exact (h2 _ (List.mem_map_of_mem he')).trans hle
    rw [hmin]

/-- The smallest size on the left is 1: pairs are returned although another left member has two items. -/
example : (bordersToPatterns sortSet [{4}, {1, 2}] ({1, 2, 3, 4} : Finset ℕ) 0).toOption.map (fun l => decide (({2, 3} : Finset ℕ) ∈ l)) = some true := by decide

/-- C25, the two collections. When `y` has exactly two labels, the first collection holds the transactions of the smaller label, the second those
of the larger one, in order; with another number of labels the call fails. -/
theorem split_correct {β : Type*} [LinearOrder β] (D : List (List α)) (y : List β) :
    (∀ D1 D2, split D y = .ok (D1, D2) ↔ ∃ a b, a < b ∧ (∀ z, z ∈ y ↔ z = a ∨ z = b) ∧
      D1 = (D.zip y).filterMap (fun p => if p.2 = a then some p.1 else none) ∧ D2 = (D.zip y).filterMap (fun p => if p.2 = b then some p.1 else none)) ∧
    (y.toFinset.card ≠ 2 ↔ split D y = .error .assertionError) := by
  have hf : ∀ a : β, ((D.zip y).filter (fun p => p.2 = a)).map Prod.fst = (D.zip y).filterMap (fun p => if p.2 = a then some p.1 else none) := by
    intro a
    induction D.zip y with
    | nil => rfl
    | cons x t ih =>
      by_cases h : x.2 = a
      · simp [h] at ih ⊢; exact ih
      · simp [h] at ih ⊢; exact ih
  have hp : (y.dedup.insertionSort (· ≤ ·)).Perm y.dedup := List.perm_insertionSort _ _
  have hs : (y.dedup.insertionSort (· ≤ ·)).Pairwise (· ≤ ·) := List.pairwise_insertionSort _ _
  have hn : (y.dedup.insertionSort (· ≤ ·)).Nodup := hp.nodup_iff.2 (List.nodup_dedup y)
  have hm : ∀ z, z ∈ y.dedup.insertionSort (· ≤ ·) ↔ z ∈ y := fun z => by rw [hp.mem_iff, List.mem_dedup]
  have hc : (y.dedup.insertionSort (· ≤ ·)).length = y.toFinset.card := by rw [hp.length_eq, List.card_toFinset]
  unfold split
  obtain ⟨l, hl⟩ : ∃ l, l = y.dedup.insertionSort (· ≤ ·) := ⟨_, rfl⟩
  rw [← hl] at hs hn hm hc ⊢
  clear hl hp
  match l, hs, hn, hm, hc with
  | [], _, _, hm, hc =>
    refine ⟨fun D1 D2 => ⟨fun h => (by cases h), ?_⟩, ⟨fun _ => rfl, fun _ => by rw [← hc]; simp⟩⟩
    rintro ⟨a, b, _, h, _⟩
    exact absurd ((hm a).2 ((h a).2 (Or.inl rfl))) (by simp)
  | [x], _, _, hm, hc =>
    refine ⟨fun D1 D2 => ⟨fun h => (by cases h), ?_⟩, ⟨fun _ => rfl, fun _ => by rw [← hc]; simp⟩⟩
    rintro ⟨a, b, hab, h, _⟩
    have h1 := (hm a).2 ((h a).2 (Or.inl rfl))
    have h2 := (hm b).2 ((h b).2 (Or.inr rfl))
    simp only [List.mem_singleton] at h1 h2
    exact absurd hab (by rw [h1, h2]; exact lt_irrefl _)
  | [x, z], hs, hn, hm, hc =>
    have hxz : x < z := by
      have h1 : x ≤ z := by simpa using hs
      have h2 : x ≠ z := by simpa using hn
      exact lt_of_le_of_ne h1 h2
    refine ⟨fun D1 D2 => ⟨fun h => ?_, ?_⟩, ⟨fun h => absurd hc.symm (by simpa using h), fun h => by cases h⟩⟩
    · simp only [Except.ok.injEq, Prod.mk.injEq] at h
      exact ⟨x, z, hxz, fun w => by rw [← hm w]; simp, by rw [← hf]; exact h.1.symm, by rw [← hf]; exact h.2.symm⟩
    · rintro ⟨a, b, hab, h, h1, h2⟩
      have ha := (hm a).2 ((h a).2 (Or.inl rfl))
      have hb := (hm b).2 ((h b).2 (Or.inr rfl))
      simp only [List.mem_cons, List.not_mem_nil, or_false] at ha hb
      have hax : a = x ∧ b = z := by
        rcases ha with rfl | rfl <;> rcases hb with rfl | rfl
        · exact absurd hab (lt_irrefl _)
        · exact ⟨rfl, rfl⟩
        · exact absurd hab (lt_asymm hxz)
        · exact absurd hab (lt_irrefl _)
      rw [h1, h2, hax.1, hax.2, ← hf, ← hf]
  | x :: z :: w :: t, hs, hn, hm, hc =>
    refine ⟨fun D1 D2 => ⟨fun h => (by cases h), ?_⟩, ⟨fun _ => rfl, fun _ => by rw [← hc]; simp⟩⟩
    rintro ⟨a, b, _, h, _⟩
    have h1 := (h x).1 ((hm x).1 (by simp))
    have h2 := (h z).1 ((hm z).1 (by simp))
    have h3 := (h w).1 ((hm w).1 (by simp))
    simp only [List.nodup_cons, List.mem_cons, not_or] at hn
    obtain ⟨⟨n1, n2, _⟩, ⟨n3, _⟩, _⟩ := hn
    rcases h1 with rfl | rfl <;> rcases h2 with rfl | rfl <;> rcases h3 with rfl | rfl <;> simp_all

example : split [[1, 2], [3], [4]] [1, 0, 1] = .ok ([[3]], [[1, 2], [4]]) := by rfl

/-- A border difference with two members to avoid. -/
example : (borderDiff sortSet ({1, 2, 3, 4} : Finset ℕ) [{1, 2}, {2, 3}]).toOption.map (List.map sortSet) =
    some [[4], [1, 3]] := by decide

end Verif.Border
