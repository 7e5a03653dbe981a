import Mathlib.Data.List.Sort
import Mathlib.Data.Prod.Lex

/-!
# Sorting and merging candidate ids (C40)

Source: `/repo/skmine/periodic/class_patterns.py:397-467`. The properties compared (`propCmp`, lines 397-419) are a function `key` into a linear order:
triples of numbers under the lexicographic order of Python tuples. Arguments are lists (a `range` has no `insert` or
`pop`). Values, not aliasing, are modelled: the code also empties `pidsB` and returns `pidsA` itself.
-/

set_option autoImplicit false

namespace Verif.Periodic

variable {κ : Type*} [LinearOrder κ]

/-- `sortPids`, `/repo/skmine/periodic/class_patterns.py:422-442` (`sorted` is stable). -/
def sortPids (key : ℕ → κ) (pids : List ℕ) : List ℕ := pids.insertionSort (fun a b => key a ≤ key b)

/-- The loop of `mergeSortedPids`, `/repo/skmine/periodic/class_patterns.py:460-464`: position `i`, and the two lists. -/
def mergeLoop (key : ℕ → κ) (i : ℕ) (pidsA pidsB : List ℕ) : List ℕ × List ℕ :=
  if h : i < pidsA.length then
    match pidsB with
    | [] => (pidsA, [])
    | b :: rest =>
      if key b < key pidsA[i] then mergeLoop key (i + 1) (pidsA.insertIdx i b) rest
      else mergeLoop key (i + 1) pidsA (b :: rest)
  else (pidsA, pidsB)
termination_by (pidsA.length - i) + pidsB.length
decreasing_by
  · rw [List.length_insertIdx, if_pos (by omega)]; simp only [List.length_cons]; omega
  · omega

/-- `mergeSortedPids`, `/repo/skmine/periodic/class_patterns.py:445-467`. -/
def mergeSortedPids (key : ℕ → κ) (pidsA pidsB : List ℕ) : List ℕ :=
  let r := mergeLoop key 0 pidsA pidsB
  if 0 < r.2.length then r.1 ++ r.2 else r.1

theorem insertIdx_take_drop (b : ℕ) : ∀ (i : ℕ) (A : List ℕ), i ≤ A.length → A.insertIdx i b = A.take i ++ b :: A.drop i
  | 0, _, _ => by simp
  | _ + 1, [], h => absurd h (by simp)
  | i + 1, a :: A, h => by
    rw [List.insertIdx_succ_cons, insertIdx_take_drop b i A (by simpa using h)]
    rfl

theorem mergeLoop_eq (key : ℕ → κ) (i : ℕ) (A B : List ℕ) (hi : i ≤ A.length) :
    (mergeLoop key i A B).1 ++ (mergeLoop key i A B).2 = A.take i ++ List.merge (A.drop i) B (fun a b => decide (key a ≤ key b)) := by
  induction hn : (A.length - i) + B.length using Nat.strong_induction_on generalizing i A B with
  | _ n ih =>
    rw [mergeLoop]
    by_cases h : i < A.length
    · rw [dif_pos h]
      cases B with
      | nil => simp
      | cons b rest =>
        simp only
        rw [List.drop_eq_getElem_cons h, List.cons_merge_cons]
        by_cases hlt : key b < key A[i]
        · rw [if_pos hlt, if_neg (by simpa using hlt)]
          have hl : (A.insertIdx i b).length = A.length + 1 := by rw [List.length_insertIdx, if_pos hi]
          rw [ih ((A.insertIdx i b).length - (i + 1) + rest.length) (by rw [hl]; simp only [List.length_cons] at hn; omega) (i + 1) _ _
            (by rw [hl]; omega) rfl]
          have hins := insertIdx_take_drop b i A hi
          have htl : (A.take i).length = i := by rw [List.length_take]; omega
          rw [hins]
          have e1 : (A.take i ++ b :: A.drop i).take (i + 1) = A.take i ++ [b] := by
            rw [List.take_append, htl, List.take_of_length_le (by omega)]; simp
          have e2 : (A.take i ++ b :: A.drop i).drop (i + 1) = A.drop i := by
            rw [List.drop_append, htl, List.drop_eq_nil_of_le (by omega)]; simp
          rw [e1, e2, List.append_assoc, List.drop_eq_getElem_cons h]
          rfl
        · rw [if_neg hlt, if_pos (by simpa using hlt)]
          rw [ih (A.length - (i + 1) + (b :: rest).length) (by omega) (i + 1) _ _ (by omega) rfl]
          rw [← List.take_append_getElem h, List.append_assoc]
          rfl
    · rw [dif_neg h]
      have : i = A.length := by omega
      subst this
      simp

/-- The code computes the stable merge of the two lists: on equal properties, ids of the first list come first. No hypothesis needed. -/
theorem mergeSortedPids_eq (key : ℕ → κ) (A B : List ℕ) :
    mergeSortedPids key A B = List.merge A B (fun a b => decide (key a ≤ key b)) := by
  have h := mergeLoop_eq key 0 A B (Nat.zero_le _)
  rw [List.take_zero, List.drop_zero, List.nil_append] at h
  unfold mergeSortedPids
  simp only
  split
  · exact h
  · next hl =>
    have : (mergeLoop key 0 A B).2 = [] := List.eq_nil_of_length_eq_zero (by omega)
    rw [this, List.append_nil] at h
    exact h

/-- C40. Merging two lists sorted by the properties gives a list sorted by the properties holding all ids of both, with multiplicities. -/
theorem merge_sorted (key : ℕ → κ) (A B : List ℕ) (hA : A.Pairwise (fun a b => key a ≤ key b))
    (hB : B.Pairwise (fun a b => key a ≤ key b)) :
    (mergeSortedPids key A B).Pairwise (fun a b => key a ≤ key b) ∧ (mergeSortedPids key A B).Perm (A ++ B) := by
  rw [mergeSortedPids_eq]
  constructor
  · have h := List.Pairwise.merge (r := fun a b => key a ≤ key b) hA hB
    exact h
  · exact List.merge_perm_append _

/-- C40. Sorting gives a sorted list with the same ids. -/
theorem sortPids_sorted (key : ℕ → κ) (pids : List ℕ) :
    (sortPids key pids).Pairwise (fun a b => key a ≤ key b) ∧ (sortPids key pids).Perm pids := by
  have : Std.Total (fun a b : ℕ => key a ≤ key b) := ⟨fun a b => le_total _ _⟩
  have : IsTrans ℕ (fun a b => key a ≤ key b) := ⟨fun a b c h1 h2 => le_trans h1 h2⟩
  exact ⟨List.pairwise_insertionSort _ _, List.perm_insertionSort _ _⟩

/-- Ids `0`, `1`, `2`, `3` with starts `5`, `6`, `3` and `5`. -/
example : mergeSortedPids (fun i => [5, 6, 3, 5].getD i 0) [0, 1] [2, 3] = [2, 0, 3, 1] := by
  rw [mergeSortedPids_eq]; simp

example : ([0, 1] : List ℕ).Pairwise (fun a b => [5, 6, 3, 5].getD a 0 ≤ [5, 6, 3, 5].getD b 0) ∧
    ([2, 3] : List ℕ).Pairwise (fun a b => [5, 6, 3, 5].getD a 0 ≤ [5, 6, 3, 5].getD b 0) := by decide

end Verif.Periodic
