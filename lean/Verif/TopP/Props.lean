import Verif.TopP.Model
import Mathlib.Tactic.Linarith

/-!
# The best entries of an ordered list: properties (C171)
-/

set_option autoImplicit false
set_option linter.unusedSectionVars false

namespace Verif.TopP

/-! ### Specification -/

/-- The entries at positions `i` and `j` exist and have the same key. -/
def SameKey (l : List (ℤ × ℤ)) (i j : ℕ) : Prop := ∃ a b, l[i]? = some a ∧ l[j]? = some b ∧ a.1 = b.1

/-- The distance of the numbers of the entries at two positions. -/
def dist (l : List (ℤ × ℤ)) (i j : ℕ) : ℤ := |(l.getD i (0, 0)).2 - (l.getD j (0, 0)).2|

/-! ### Lemmas -/

theorem key_eq (l : List (ℤ × ℤ)) (i : ℕ) (h : i < l.length) : key l i = (l[i]).1 := by
  unfold key
  rw [List.getD_eq_getElem?_getD, List.getElem?_eq_getElem h]
  rfl

theorem sameKey_iff (l : List (ℤ × ℤ)) (i j : ℕ) : SameKey l i j ↔ i < l.length ∧ j < l.length ∧ key l i = key l j := by
  constructor
  · rintro ⟨a, b, ha, hb, hab⟩
    obtain ⟨hi, rfl⟩ := List.getElem?_eq_some_iff.1 ha
    obtain ⟨hj, rfl⟩ := List.getElem?_eq_some_iff.1 hb
    exact ⟨hi, hj, by rw [key_eq l i hi, key_eq l j hj, hab]⟩
  · rintro ⟨hi, hj, h⟩
    rw [key_eq l i hi, key_eq l j hj] at h
    exact ⟨_, _, List.getElem?_eq_getElem hi, List.getElem?_eq_getElem hj, h⟩

theorem lastTie_spec (l : List (ℤ × ℤ)) (n : ℕ) (hn : n < l.length) :
    n ≤ lastTie l n ∧ lastTie l n < l.length ∧ (∀ i, n ≤ i → i ≤ lastTie l n → key l i = key l n) ∧
    (lastTie l n + 1 < l.length → key l (lastTie l n + 1) ≠ key l n) := by
  induction hk : l.length - n using Nat.strong_induction_on generalizing n with
  | _ k ih =>
    rw [lastTie]
    split
    · next h =>
      obtain ⟨h1, h2, h3, h4⟩ := ih (l.length - (n + 1)) (by omega) (n + 1) h.1 rfl
      refine ⟨by omega, h2, fun i hi hi' => ?_, fun h5 => by rw [h.2]; exact h4 h5⟩
      by_cases hin : i = n
      · rw [hin]
      · rw [h3 i (by omega) hi', h.2]
    · next h =>
      refine ⟨le_rfl, hn, fun i hi hi' => by rw [Nat.le_antisymm hi' hi], fun h5 h6 => h ⟨h5, h6.symm⟩⟩

/-! ### C171 -/

/-- C171, no tie: when the third entry does not have the key of the second, the first two are returned, with -1. -/
theorem top_two (l : List (ℤ × ℤ)) (h : ¬ SameKey l 1 2) : getTopP l = (0, 1, -1) := by
  unfold getTopP
  rw [if_neg]
  rintro ⟨h1, h2⟩
  exact h ((sameKey_iff l 1 2).2 ⟨by omega, h1, h2⟩)

/-- C171, ties: when the second entry has the key of the third, the second entry and the last one of the run of entries with this key are returned after the first, the one farther from the first in front; at equal distance the second entry. -/
theorem top_ties (l : List (ℤ × ℤ)) (h : SameKey l 1 2) :
    ∃ n : ℕ, 2 ≤ n ∧ n < l.length ∧ (∀ i, 1 ≤ i → i ≤ n → SameKey l 1 i) ∧ ¬ SameKey l 1 (n + 1) ∧
      (dist l 0 n ≤ dist l 0 1 → getTopP l = (0, 1, (n : ℤ))) ∧ (dist l 0 1 < dist l 0 n → getTopP l = (0, (n : ℤ), 1)) := by
  obtain ⟨h1, h2, h3⟩ := (sameKey_iff l 1 2).1 h
  obtain ⟨h4, h5, h6, h7⟩ := lastTie_spec l 2 h2
  refine ⟨lastTie l 2, h4, h5, fun i hi hi' => ?_, fun hc => ?_, fun hd => ?_, fun hd => ?_⟩
  · refine (sameKey_iff l 1 i).2 ⟨h1, by omega, ?_⟩
    by_cases hi1 : i = 1
    · rw [hi1]
    · rw [h3, h6 i (by omega) hi']
  · obtain ⟨_, h8, h9⟩ := (sameKey_iff l 1 _).1 hc
    exact h7 h8 (by rw [← h9, h3])
  · unfold getTopP
    rw [if_pos ⟨h2, h3⟩]
    simp only
    rw [if_neg (by unfold dist at hd; unfold num; omega)]
  · unfold getTopP
    rw [if_pos ⟨h2, h3⟩]
    simp only
    rw [if_pos (by unfold dist at hd; unfold num; omega)]

/-- C171, ordered lists: in a list ordered by keys, the run of ties contains all entries after the first with the key of the second. -/
theorem ties_all (l : List (ℤ × ℤ)) (hs : l.Pairwise (fun a b => a.1 ≤ b.1)) (n : ℕ) (hn : n < l.length) (h1 : SameKey l 1 n) (h2 : ¬ SameKey l 1 (n + 1)) (hn1 : 1 ≤ n)
    (i : ℕ) (hi : 1 ≤ i) : SameKey l 1 i ↔ i ≤ n := by
  have hmono : ∀ a b, a ≤ b → b < l.length → key l a ≤ key l b := by
    intro a b hab hb
    rcases Nat.lt_or_eq_of_le hab with h | rfl
    · rw [key_eq l a (by omega), key_eq l b hb]
      exact List.pairwise_iff_getElem.1 hs a b (by omega) hb h
    · exact le_rfl
  obtain ⟨h3, _, h4⟩ := (sameKey_iff l 1 n).1 h1
  constructor
  · intro h
    by_contra hc
    obtain ⟨_, h5, h6⟩ := (sameKey_iff l 1 i).1 h
    have h7 := hmono 1 (n + 1) (by omega) (by omega)
    have h8 := hmono (n + 1) i (by omega) h5
    exact h2 ((sameKey_iff l 1 _).2 ⟨h3, by omega, by omega⟩)
  · intro h
    have h7 := hmono 1 i hi (by omega)
    have h8 := hmono i n h hn
    exact (sameKey_iff l 1 i).2 ⟨h3, by omega, by omega⟩

/-- C171: with at least two entries, all positions returned exist, apart from the -1 for no tie, and are different from one another. -/
theorem positions_exist_partial (l : List (ℤ × ℤ)) (h : 2 ≤ l.length) :
    (getTopP l).1 = 0 ∧ 1 ≤ (getTopP l).2.1 ∧ (getTopP l).2.1 < l.length ∧ -1 ≤ (getTopP l).2.2 ∧ (getTopP l).2.2 < l.length ∧ (getTopP l).2.2 ≠ 0 ∧ (getTopP l).2.1 ≠ (getTopP l).2.2 := by
  by_cases ht : SameKey l 1 2
  · obtain ⟨n, h1, h2, _, _, h3, h4⟩ := top_ties l ht
    rcases le_or_gt (dist l 0 n) (dist l 0 1) with hd | hd
    · rw [h3 hd]
      refine ⟨rfl, ?_⟩
      simp only
      omega
    · rw [h4 hd]
      refine ⟨rfl, ?_⟩
      simp only
      omega
  · rw [top_two l ht]
    refine ⟨rfl, ?_⟩
    simp only
    omega

/-- C171 fails without a second entry: its position is returned nevertheless. -/
theorem second_missing (l : List (ℤ × ℤ)) (h : l.length ≤ 1) : (getTopP l).2.1 = 1 ∧ l[1]? = none := by
  rw [top_two l (fun hc => by have := ((sameKey_iff l 1 2).1 hc).1; omega)]
  exact ⟨rfl, List.getElem?_eq_none (by omega)⟩

/-- The last entry of the run is farther from the first one than the second entry, and the other way round. -/
example : getTopP [(1, 10), (2, 12), (2, 30), (2, 40), (3, 0)] = (0, 3, 1) ∧ getTopP [(1, 10), (2, 50), (2, 30), (2, 40), (3, 0)] = (0, 1, 3) ∧ getTopP [(1, 10), (2, 50), (3, 30)] = (0, 1, -1) ∧
    SameKey [(1, 10), (2, 12), (2, 30), (2, 40), (3, 0)] 1 2 ∧ ¬ SameKey [(1, 10), (2, 12), (2, 30), (2, 40), (3, 0)] 1 4 := by
  refine ⟨by decide +kernel, by decide +kernel, by decide +kernel, ?_, ?_⟩
  · exact ⟨_, _, rfl, rfl, rfl⟩
  · rw [sameKey_iff]; decide

end Verif.TopP
