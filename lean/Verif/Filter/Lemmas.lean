import Verif.Filter.Model
import Verif.Filter.Spec

set_option autoImplicit false

set_option linter.unusedSectionVars false

namespace Verif.Filter

variable {α : Type*} [DecidableEq α]

theorem sortedAdd_perm (x : Finset α) (l : List (Finset α)) : (sortedAdd x l).Perm (x :: l) := by
  induction l with
  | nil => exact List.Perm.refl _
  | cons y ys ih =>
    unfold sortedAdd
    split
    · exact List.Perm.refl _
    · exact (ih.cons y).trans (List.Perm.swap x y ys)

theorem mem_sortedAdd (x y : Finset α) (l : List (Finset α)) : y ∈ sortedAdd x l ↔ y = x ∨ y ∈ l := by
  rw [(sortedAdd_perm x l).mem_iff, List.mem_cons]

theorem sortedAdd_sorted (x : Finset α) (l : List (Finset α))
    (h : l.Pairwise (fun a b => a.card ≤ b.card)) :
    (sortedAdd x l).Pairwise (fun a b => a.card ≤ b.card) := by
  induction l with
  | nil => simp [sortedAdd]
  | cons y ys ih =>
    rw [List.pairwise_cons] at h
    unfold sortedAdd
    split
    next hlt =>
      refine List.pairwise_cons.2 ⟨?_, List.pairwise_cons.2 h⟩
      intro z hz
      rcases List.mem_cons.1 hz with rfl | hz
      · exact le_of_lt hlt
      · exact le_trans (le_of_lt hlt) (h.1 z hz)
    next hlt =>
      refine List.pairwise_cons.2 ⟨?_, ih h.2⟩
      intro z hz
      rcases (mem_sortedAdd x z ys).1 hz with rfl | hz
      · exact not_lt.1 hlt
      · exact h.1 z hz

/-- Invariant of both filters: `acc` holds the members of `s` dominated by no member of `s`, and every other
member of `s` is dominated by a member of `acc`. -/
def Inv (dom : Finset α → Finset α → Prop) [DecidableRel dom] (s acc : List (Finset α)) : Prop :=
  acc.Perm (s.filter (fun x => decide (∀ y ∈ s, ¬ dom y x))) ∧
    (∀ x ∈ s, x ∈ acc ∨ ∃ e ∈ acc, dom e x) ∧ acc.Pairwise (fun a b => a.card ≤ b.card)

theorem inv_step (dom : Finset α → Finset α → Prop) [DecidableRel dom]
    (htrans : ∀ a b c, dom a b → dom b c → dom a c) (hirr : ∀ a, ¬ dom a a)
    (s acc : List (Finset α)) (x : Finset α) (hlate : ∀ y ∈ s, ¬ dom x y) (h : Inv dom s acc)
    (step : List (Finset α) → Finset α → List (Finset α))
    (hstep : step acc x = if ∃ e ∈ acc, dom e x then acc else sortedAdd x acc) :
    Inv dom (s ++ [x]) (step acc x) := by
  obtain ⟨hp, hd, hs⟩ := h
  have hmem : ∀ e, e ∈ acc → e ∈ s := fun e he => (List.mem_filter.1 (hp.mem_iff.1 he)).1
  have hdomiff : (∃ e ∈ acc, dom e x) ↔ ∃ e ∈ s, dom e x := by
    constructor
    · rintro ⟨e, he, hx⟩; exact ⟨e, hmem e he, hx⟩
    · rintro ⟨e, he, hx⟩
      rcases hd e he with h | ⟨e', he', hee⟩
      · exact ⟨e, h, hx⟩
      · exact ⟨e', he', htrans _ _ _ hee hx⟩
  have hfilter : s.filter (fun z => decide (∀ y ∈ s ++ [x], ¬ dom y z))
      = s.filter (fun z => decide (∀ y ∈ s, ¬ dom y z)) := by
    apply List.filter_congr
    intro z hz
    simp only [List.mem_append, List.mem_singleton, decide_eq_decide]
    constructor
    · intro h y hy; exact h y (Or.inl hy)
    · rintro h y (hy | rfl)
      · exact h y hy
      · exact hlate z hz
  rw [hstep]
  by_cases hdom : ∃ e ∈ acc, dom e x
  · rw [if_pos hdom]
    refine ⟨?_, ?_, hs⟩
    · rw [List.filter_append, hfilter]
      have : [x].filter (fun z => decide (∀ y ∈ s ++ [x], ¬ dom y z)) = [] := by
        obtain ⟨e, he, hx⟩ := hdomiff.1 hdom
        simp only [List.filter_eq_nil_iff, List.mem_singleton, decide_eq_true_eq]
        rintro a rfl hall
        exact hall e (List.mem_append_left _ he) hx
      rw [this, List.append_nil]
      exact hp
    · intro z hz
      rcases List.mem_append.1 hz with hz | hz
      · exact hd z hz
      · rw [List.mem_singleton] at hz; subst hz; exact Or.inr hdom
  · rw [if_neg hdom]
    refine ⟨?_, ?_, sortedAdd_sorted x acc hs⟩
    · rw [List.filter_append, hfilter]
      have : [x].filter (fun z => decide (∀ y ∈ s ++ [x], ¬ dom y z)) = [x] := by
        simp only [List.filter_eq_self, List.mem_singleton, decide_eq_true_eq]
        rintro a rfl y hy hya
        rcases List.mem_append.1 hy with hy | hy
        · exact hdom (hdomiff.2 ⟨y, hy, hya⟩)
        · rw [List.mem_singleton] at hy; subst hy; exact hirr _ hya
      rw [this]
      exact (sortedAdd_perm x acc).trans ((hp.cons x).trans
        (List.perm_append_singleton x _).symm)
    · intro z hz
      rcases List.mem_append.1 hz with hz | hz
      · rcases hd z hz with h | ⟨e, he, hez⟩
        · exact Or.inl ((mem_sortedAdd x z acc).2 (Or.inr h))
        · exact Or.inr ⟨e, (mem_sortedAdd x e acc).2 (Or.inr he), hez⟩
      · rw [List.mem_singleton] at hz; subst hz
        exact Or.inl ((mem_sortedAdd _ _ acc).2 (Or.inl rfl))

theorem inv_foldl (dom : Finset α → Finset α → Prop) [DecidableRel dom]
    (htrans : ∀ a b c, dom a b → dom b c → dom a c) (hirr : ∀ a, ¬ dom a a)
    (step : List (Finset α) → Finset α → List (Finset α))
    (hstep : ∀ acc x, step acc x = if ∃ e ∈ acc, dom e x then acc else sortedAdd x acc)
    (todo s acc : List (Finset α)) (h : Inv dom s acc)
    (hlate : (s ++ todo).Pairwise (fun a b => ¬ dom b a)) :
    Inv dom (s ++ todo) (todo.foldl step acc) := by
  induction todo generalizing s acc with
  | nil => simpa using h
  | cons x t ih =>
    have hx : ∀ y ∈ s, ¬ dom x y := by
      intro y hy
      exact (List.pairwise_append.1 hlate).2.2 y hy x (List.mem_cons_self)
    have := ih (s ++ [x]) (step acc x)
      (inv_step dom htrans hirr s acc x hx h step (hstep acc x)) (by simpa using hlate)
    simpa using this

theorem maximalStep_eq (acc : List (Finset α)) (x : Finset α) :
    maximalStep acc x = if ∃ e ∈ acc, x ⊂ e then acc else sortedAdd x acc := by
  unfold maximalStep
  have : ((acc.filter (fun e => x.card ≤ e.card)).any (fun e => x ⊂ e)) = true ↔ ∃ e ∈ acc, x ⊂ e := by
    simp only [List.any_eq_true, List.mem_filter, decide_eq_true_eq]
    constructor
    · rintro ⟨e, ⟨he, _⟩, h⟩; exact ⟨e, he, h⟩
    · rintro ⟨e, he, h⟩; exact ⟨e, ⟨he, Finset.card_le_card h.1⟩, h⟩
  simp only [this]

theorem minimalStep_eq (acc : List (Finset α)) (x : Finset α) :
    minimalStep acc x = if ∃ e ∈ acc, e ⊂ x then acc else sortedAdd x acc := by
  unfold minimalStep
  have : ((acc.filter (fun e => e.card ≤ x.card)).any (fun e => e ⊂ x)) = true ↔ ∃ e ∈ acc, e ⊂ x := by
    simp only [List.any_eq_true, List.mem_filter, decide_eq_true_eq]
    constructor
    · rintro ⟨e, ⟨he, _⟩, h⟩; exact ⟨e, he, h⟩
    · rintro ⟨e, he, h⟩; exact ⟨e, ⟨he, Finset.card_le_card h.1⟩, h⟩
  simp only [this]

theorem filterMaximal_inv (l : List (Finset α)) :
    Inv (fun e x => x ⊂ e) (l.insertionSort (fun a b => b.card ≤ a.card)) (filterMaximal l) := by
  have : IsTrans (Finset α) (fun a b => b.card ≤ a.card) := ⟨fun _ _ _ h1 h2 => le_trans h2 h1⟩
  have : Std.Total (α := Finset α) (fun a b => b.card ≤ a.card) := ⟨fun a b => le_total b.card a.card⟩
  have h := inv_foldl (fun e x : Finset α => x ⊂ e) (fun _ _ _ h1 h2 => h2.trans h1) (fun _ h => ssubset_irrefl _ h)
    maximalStep maximalStep_eq (l.insertionSort (fun a b => b.card ≤ a.card)) [] []
    ⟨by simp, by simp, by simp⟩
    (by
      rw [List.nil_append]
      refine (List.pairwise_insertionSort (fun a b : Finset α => b.card ≤ a.card) l).imp ?_
      intro a b hab hsub
      exact absurd (Finset.card_lt_card hsub) (not_lt.2 hab))
  exact h

theorem filterMinimal_inv (l : List (Finset α)) :
    Inv (fun e x => e ⊂ x) (l.insertionSort (fun a b => a.card ≤ b.card)) (filterMinimal l) := by
  have : IsTrans (Finset α) (fun a b => a.card ≤ b.card) := ⟨fun _ _ _ h1 h2 => le_trans h1 h2⟩
  have : Std.Total (α := Finset α) (fun a b => a.card ≤ b.card) := ⟨fun a b => le_total a.card b.card⟩
  have h := inv_foldl (fun e x : Finset α => e ⊂ x) (fun _ _ _ h1 h2 => h1.trans h2) (fun _ h => ssubset_irrefl _ h)
    minimalStep minimalStep_eq (l.insertionSort (fun a b => a.card ≤ b.card)) [] []
    ⟨by simp, by simp, by simp⟩
    (by
      rw [List.nil_append]
      refine (List.pairwise_insertionSort (fun a b : Finset α => a.card ≤ b.card) l).imp ?_
      intro a b hab hsub
      exact absurd (Finset.card_lt_card hsub) (not_lt.2 hab))
  exact h

end Verif.Filter
