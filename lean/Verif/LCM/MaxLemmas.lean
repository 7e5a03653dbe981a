import Verif.LCM.Lemmas
import Verif.Filter.Props

/-! Lemmas on `LCMMax._inner`. -/

set_option autoImplicit false

set_option linter.unusedSectionVars false

namespace Verif.LCM

variable {α : Type*} [LinearOrder α]

/-- `innerMax` before rendering. -/
def coreMax (F : Fitted α) (m : ℚ) : ℕ → Finset ℕ → Finset ℕ → ℕ → List (Finset ℕ × Finset ℕ)
  | 0, _, _, _ => []
  | fuel + 1, p, tids, limit =>
    if Ok F p tids limit then
      let freq := (candidates F (p ∪ cl F tids) limit).filter (fun l => m ≤ ((tids ∩ F.ids l).card : ℚ))
      freq.flatMap (fun l => coreMax F m fuel (p ∪ cl F tids) (tids ∩ F.ids l) l) ++
        (if freq = [] then [(p ∪ cl F tids, tids)] else [])
    else []

theorem innerMax_eq_coreMax (F : Fitted α) (m : ℚ) (fuel : ℕ) (p tids : Finset ℕ) (limit : ℕ) :
    innerMax F m fuel p tids limit = (coreMax F m fuel p tids limit).map (fun c => ⟨its F c.1, c.2⟩) := by
  induction fuel generalizing p tids limit with
  | zero => rfl
  | succ fuel ih =>
    unfold innerMax coreMax
    by_cases hok : Ok F p tids limit
    · have h1 := (head?_cpList F p tids limit).2 hok
      simp only [h1, if_true, pPrime_eq F p tids limit hok, if_pos hok, ih]
      rw [List.map_append, List.map_flatMap]
      congr 1
      split <;> rfl
    · rw [if_neg hok]
      cases hm : (cpList F p tids).head? with
      | none => simp only [hm]; rfl
      | some k =>
        have hk : k ≠ limit := by
          rintro rfl
          exact hok ((head?_cpList F p tids _).1 hm)
        simp only [hm, if_neg hk]; rfl

theorem flatMap_ite {β γ : Type*} (l : List β) (c : β → Prop) [DecidablePred c] (f : β → List γ) :
    l.flatMap (fun x => if c x then f x else []) = (l.filter (fun x => c x)).flatMap f := by
  induction l with
  | nil => rfl
  | cons a l ih =>
    rw [List.flatMap_cons, List.filter_cons, ih]
    by_cases h : c a <;> simp [h]

theorem flatMap_subperm {β γ : Type*} (l : List β) (f g : β → List γ) (h : ∀ x ∈ l, (f x).Subperm (g x)) :
    (l.flatMap f).Subperm (l.flatMap g) := by
  induction l with
  | nil => exact List.Subperm.refl _
  | cons a l ih =>
    rw [List.flatMap_cons, List.flatMap_cons]
    exact (h a List.mem_cons_self).append (ih (fun x hx => h x (List.mem_cons_of_mem _ hx)))

theorem coreMax_subperm (F : Fitted α) (m : ℚ) (fuel : ℕ) (p S : Finset ℕ) (limit : ℕ) :
    (coreMax F m fuel p S limit).Subperm (core F m fuel p S limit) := by
  induction fuel generalizing p S limit with
  | zero => exact List.Subperm.refl _
  | succ fuel ih =>
    unfold coreMax core
    by_cases hok : Ok F p S limit
    · simp only [if_pos hok]
      rw [flatMap_ite _ (fun l => m ≤ ((S ∩ F.ids l).card : ℚ))]
      set freq := (candidates F (p ∪ cl F S) limit).filter (fun l => decide (m ≤ ((S ∩ F.ids l).card : ℚ)))
      have h1 := flatMap_subperm freq (fun l => coreMax F m fuel (p ∪ cl F S) (S ∩ F.ids l) l)
        (fun l => core F m fuel (p ∪ cl F S) (S ∩ F.ids l) l) (fun l _ => ih _ _ _)
      have h2 : (if freq = [] then [(p ∪ cl F S, S)] else []).Subperm [(p ∪ cl F S, S)] := by
        split
        · exact List.Subperm.refl _
        · exact List.nil_subperm
      exact (h1.append h2).trans (List.perm_append_singleton _ _).subperm
    · rw [if_neg hok, if_neg hok]

theorem mem_coreMax_complete (F : Fitted α) (m : ℚ) (fuel : ℕ) (p S : Finset ℕ) (limit : ℕ) (h : Pre F m p S limit)
    (hfuel : limit < fuel) (C t : Finset ℕ) (hb : Below F m p limit C t)
    (hmax : ∀ l < F.tids.length, l ∉ C → ¬ m ≤ ((t ∩ F.ids l).card : ℚ)) :
    (C, t) ∈ coreMax F m fuel p S limit := by
  induction fuel generalizing p S limit with
  | zero => exact absurd hfuel (Nat.not_lt_zero _)
  | succ fuel ih =>
    unfold coreMax
    have hok := hb.ok h
    simp only [if_pos hok, h.union]
    rw [List.mem_append, List.mem_flatMap]
    rcases below_cases h hb with ⟨h1, h2⟩ | ⟨l, h1, h2, h3, h4, h5⟩
    · right
      have : (candidates F (cl F S) limit).filter (fun l => decide (m ≤ ((S ∩ F.ids l).card : ℚ))) = [] := by
        rw [List.filter_eq_nil_iff]
        intro l hl
        have hl := (mem_candidates _ _ _ _).1 hl
        rw [decide_eq_true_eq, ← h2]
        exact hmax l hl.1 (h1 ▸ hl.2.1)
      rw [if_pos this, h1, h2]
      exact List.mem_singleton_self _
    · left
      refine ⟨l, List.mem_filter.2 ⟨(mem_candidates F (cl F S) limit l).2 ⟨h1, h2, h3⟩, by simpa using h4⟩, ?_⟩
      exact ih _ _ _ (h.child h1 h2 h4) (by omega) h5

/-- All roots of `LCMMax`. -/
def coreMaxAll (F : Fitted α) (m : ℚ) : List (Finset ℕ × Finset ℕ) :=
  (List.range F.tids.length).flatMap (fun i => coreMax F m (i + 1) ∅ (F.ids i) i)

theorem coreMaxAll_subperm (F : Fitted α) (m : ℚ) : (coreMaxAll F m).Subperm (coreAll F m) :=
  flatMap_subperm _ _ _ (fun _ _ => coreMax_subperm _ _ _ _ _ _)

theorem mem_coreMaxAll_complete {F : Fitted α} {m : ℚ} (hF : AllFrequent F m) (C t : Finset ℕ)
    (hne : C.Nonempty) (hc : ClosedIdx F m C t)
    (hmax : ∀ l < F.tids.length, l ∉ C → ¬ m ≤ ((t ∩ F.ids l).card : ℚ)) :
    (C, t) ∈ coreMaxAll F m := by
  unfold coreMaxAll
  rw [List.mem_flatMap]
  have hmem := Finset.max'_mem C hne
  have hi : C.max' hne < F.tids.length := ((mem_cl _ _ _).1 (hc.2.1.subset hmem)).1
  exact ⟨C.max' hne, List.mem_range.2 hi, mem_coreMax_complete F m _ _ _ _ (pre_root hF hi) (Nat.lt_succ_self _) C t
    ⟨hc, by simp, hmem, fun i hi _ => Finset.le_max' _ _ hi⟩ hmax⟩

/-- The rows before the maximality filter of `transform`. -/
def rawMax (F : Fitted α) (m : ℚ) : List (MaxRow α) :=
  (List.range F.tids.length).flatMap (fun i => innerMax F m (i + 1) ∅ (F.ids i) i)

theorem transformMax_eq (F : Fitted α) (m : ℚ) (k : ℤ) (lex : Bool) (so : Finset α → List α) :
    transformMax F m k lex so =
      (if k ≠ -1 then ((rawMax F m).filter (fun r => decide (r.itemset ∈
          Filter.filterMaximal ((rawMax F m).map MaxRow.itemset)))).filter (fun r => (r.itemset.card : ℤ) ≤ k)
        else (rawMax F m).filter (fun r => decide (r.itemset ∈
          Filter.filterMaximal ((rawMax F m).map MaxRow.itemset)))).map (fun r =>
      { itemset := if lex then (so r.itemset).insertionSort (· ≤ ·) else so r.itemset
        support := r.tids.card
        tids := r.tids }) := by
  unfold transformMax rawMax
  rfl

theorem rawMax_eq (F : Fitted α) (m : ℚ) :
    rawMax F m = (coreMaxAll F m).map (fun c => ⟨its F c.1, c.2⟩) := by
  unfold rawMax coreMaxAll
  rw [List.map_flatMap]
  congr 1
  funext i
  exact innerMax_eq_coreMax F m _ _ _ _

section
variable {m : ℚ} {D : List (List α)} {F : Fitted α} (hF : FitSpec m D F)
include hF

theorem rawMax_sound {r : MaxRow α} (hr : r ∈ rawMax F m) :
    Frequent D m r.itemset ∧ r.tids = tidsOf D r.itemset := by
  rw [rawMax_eq, List.mem_map] at hr
  obtain ⟨⟨C, t⟩, hc, rfl⟩ := hr
  have := (mem_coreAll hF.allFrequent C t).1 ((coreMaxAll_subperm F m).subset hc)
  have hs := hF.sound this.1 this.2
  exact ⟨hs.1, hs.2.2⟩

theorem rawMax_nodup : ((rawMax F m).map MaxRow.itemset).Nodup := by
  rw [rawMax_eq, List.map_map]
  have hnd : ((coreMaxAll F m).map Prod.fst).Nodup := by
    obtain ⟨l, hp, hs⟩ := coreMaxAll_subperm F m
    exact ((hp.map Prod.fst).nodup_iff).1 ((nodup_coreAll hF.allFrequent).sublist (hs.map Prod.fst))
  have : (MaxRow.itemset ∘ fun c : Finset ℕ × Finset ℕ => (⟨its F c.1, c.2⟩ : MaxRow α)) = its F ∘ Prod.fst := rfl
  rw [this, ← List.map_map]
  refine List.Nodup.map_on ?_ hnd
  intro C1 h1 C2 h2 he
  have hlt : ∀ C, C ∈ (coreMaxAll F m).map Prod.fst → ∀ i ∈ C, i < F.tids.length := by
    intro C hC
    obtain ⟨⟨C', t⟩, hc, rfl⟩ := List.mem_map.1 hC
    exact ClosedIdx.lt hF ((mem_coreAll hF.allFrequent C' t).1 ((coreMaxAll_subperm F m).subset hc)).2
  exact hF.its_inj (hlt C1 h1) (hlt C2 h2) he

theorem maximal_closed {X : Finset α} (h : MaximalFrequent D m X) : Closed D X := by
  rw [closed_iff D X h.1.2.1]
  intro y hy hsub
  by_contra hn
  refine h.2 (insert y X) (Finset.ssubset_insert hn) ⟨Finset.insert_nonempty _ _,
    Finset.insert_subset hy h.1.2.1, le_trans h.1.2.2 ?_⟩
  have : tidsOf D X ⊆ tidsOf D (insert y X) := by
    intro t ht
    have h1 := hsub ht
    unfold tidsOf at ht h1 ⊢
    rw [Finset.mem_filter] at ht h1 ⊢
    refine ⟨ht.1, fun x hx => ?_⟩
    rcases Finset.mem_insert.1 hx with rfl | hx
    · exact h1.2 x (Finset.mem_singleton_self x)
    · exact ht.2 x hx
  exact_mod_cast Finset.card_le_card this

theorem rawMax_complete {X : Finset α} (h : MaximalFrequent D m X) :
    (⟨X, tidsOf D X⟩ : MaxRow α) ∈ rawMax F m := by
  rw [rawMax_eq, List.mem_map]
  refine ⟨(idx F X, tidsOf D X), ?_, by simp [hF.its_idx h.1]⟩
  refine mem_coreMaxAll_complete hF.allFrequent _ _ (hF.idx_nonempty h.1)
    (hF.complete h.1 (maximal_closed hF h)) ?_
  intro l hl hlX hle
  obtain ⟨y, hy⟩ := hF.get hl
  have hyX : y ∉ X := fun hyX => hlX ((mem_idx _ _ _).2 ⟨hl, y, hyX, hy⟩)
  refine h.2 (insert y X) (Finset.ssubset_insert hyX) ⟨Finset.insert_nonempty _ _,
    Finset.insert_subset ((hF.mem y).1 (List.mem_of_getElem? hy)).1 h.1.2.1, le_trans hle ?_⟩
  have : tidsOf D X ∩ F.ids l ⊆ tidsOf D (insert y X) := by
    intro t ht
    rw [Finset.mem_inter, hF.ids l y hy, mem_tidsOf_singleton] at ht
    rw [mem_tidsOf D _ (Finset.insert_nonempty _ _)]
    intro x hx
    rcases Finset.mem_insert.1 hx with rfl | hx
    · exact ht.2
    · exact (mem_tidsOf D X h.1.1 t).1 ht.1 x hx
  exact_mod_cast Finset.card_le_card this

/-- Every frequent itemset is included in a maximal frequent one. -/
theorem exists_maximal {X : Finset α} (h : Frequent D m X) : ∃ Z, X ⊆ Z ∧ MaximalFrequent D m Z := by
  by_contra hcon
  have hstep : ∀ n, ∃ Z, X ⊆ Z ∧ Frequent D m Z ∧ n ≤ Z.card := by
    intro n
    induction n with
    | zero => exact ⟨X, Finset.Subset.refl _, h, Nat.zero_le _⟩
    | succ n ih =>
      obtain ⟨Z, hXZ, hZ, hn⟩ := ih
      by_contra hno
      refine hcon ⟨Z, hXZ, hZ, fun Y hZY hY => hno ⟨Y, hXZ.trans hZY.1, hY, ?_⟩⟩
      have := Finset.card_lt_card hZY
      omega
  obtain ⟨Z, _, hZ, hn⟩ := hstep ((itemsOf D).card + 1)
  have := Finset.card_le_card hZ.2.1
  omega

/-- After the maximality filter exactly the maximal frequent itemsets remain. -/
theorem rawMax_filter {X : Finset α} (hX : X ∈ (rawMax F m).map MaxRow.itemset) :
    X ∈ Filter.filterMaximal ((rawMax F m).map MaxRow.itemset) ↔ MaximalFrequent D m X := by
  rw [(Filter.filterMaximal_exact _).mem_iff, List.mem_filter, decide_eq_true_eq]
  constructor
  · rintro ⟨_, hno⟩
    obtain ⟨r, hr, rfl⟩ := List.mem_map.1 hX
    obtain ⟨Z, hXZ, hZ⟩ := exists_maximal hF (rawMax_sound hF hr).1
    have hZr : Z ∈ (rawMax F m).map MaxRow.itemset := List.mem_map.2 ⟨_, rawMax_complete hF hZ, rfl⟩
    have : r.itemset = Z := by
      by_contra hne
      exact hno Z hZr (hXZ.ssubset_of_ne hne)
    rw [this]; exact hZ
  · intro hmax
    refine ⟨hX, fun Y hY hsub => ?_⟩
    obtain ⟨r, hr, rfl⟩ := List.mem_map.1 hY
    exact hmax.2 _ hsub (rawMax_sound hF hr).1

end

end Verif.LCM
