import Verif.LCM.FileModel
import Verif.LCM.Props

/-!
# C49: writing the result of `LCM` to a file
-/

set_option autoImplicit false

namespace Verif.LCM

open Verif.Text

variable {α : Type*}

/-- Reader of one line `(support) item1 item2 ...` (specification side): the support and the words of the itemset. -/
def readLine : List Char → Option (List Char × List (List Char))
  | '(' :: s => some (s.takeWhile (· ≠ ')'), splitOn ' ' ((s.dropWhile (· ≠ ')')).drop 2))
  | _ => none

theorem copyLines_line (cur w rest : List Char) (hw : '\n' ∉ w) :
    copyLines cur (w ++ '\n' :: rest) =
      (if (w.reverse ++ cur).all isSpace then [] else (cur.reverse ++ w) ++ ['\n']) ++ copyLines [] rest := by
  induction w generalizing cur with
  | nil => simp [copyLines]
  | cons c w ih =>
    rw [List.mem_cons, not_or] at hw
    rw [List.cons_append, copyLines, if_neg (fun h => hw.1 h.symm), ih _ hw.2]
    simp [List.append_assoc]

theorem itemLine_noNewline (str : α → List Char) (hstr : ∀ x, '\n' ∉ str x) (r : Row α) : '\n' ∉ itemLine str r := by
  intro h
  unfold itemLine at h
  rw [List.mem_append, List.cons_append, List.mem_cons, List.mem_append] at h
  rcases h with (h | h | h) | h
  · revert h; decide
  · have := mem_showNat _ _ h; revert this; decide
  · revert h; decide
  · rcases mem_join _ _ _ h with h | ⟨w, hw, h⟩
    · revert h; decide
    · obtain ⟨x, _, rfl⟩ := List.mem_map.1 hw
      exact hstr x h

theorem tidsLine_chars (r : Row α) (c : Char) (h : c ∈ tidsLine r) : c ≠ '\n' := by
  rintro rfl
  rcases mem_join _ _ _ h with h | ⟨w, hw, h⟩
  · revert h; decide
  · obtain ⟨x, _, rfl⟩ := List.mem_map.1 hw
    have := mem_showNat _ _ h; revert this; decide

theorem tidsLine_blank (r : Row α) : (tidsLine r).all isSpace = true ↔ r.tids = ∅ := by
  constructor
  · intro h
    by_contra hne
    obtain ⟨t, ht⟩ := Finset.nonempty_iff_ne_empty.2 hne
    have ht := (mem_sortSet r.tids t).2 ht
    unfold tidsLine at h
    cases hs : sortSet r.tids with
    | nil => rw [hs] at ht; simp at ht
    | cons a l =>
      rw [hs] at h
      have hall : (showNat a).all isSpace = true := by
        cases l with
        | nil => exact h
        | cons b l =>
          simp only [List.map_cons, join, List.all_append, Bool.and_eq_true] at h
          exact h.1
      cases hc : showNat a with
      | nil => exact showNat_ne_nil a hc
      | cons c cs =>
        have hm := mem_showNat a c (hc ▸ List.mem_cons_self)
        rw [hc, List.all_cons, Bool.and_eq_true] at hall
        have hsp := hall.1
        revert hsp
        have : ∀ c ∈ ['0', '1', '2', '3', '4', '5', '6', '7', '8', '9'], ¬ isSpace c = true := by decide
        exact this c hm
  · intro h
    unfold tidsLine
    rw [h]
    rfl

/-- The text that should be written: the in-memory rows, one line each, followed by the line of their transaction ids
if requested (and if there are any). -/
def expectedText (str : α → List Char) (returnTids : Bool) (rows : List (Row α)) : List Char :=
  rows.flatMap (fun r => itemLine str r ++ ['\n'] ++
    (if returnTids = true ∧ r.tids ≠ ∅ then tidsLine r ++ ['\n'] else []))

theorem copyLines_writeRows (str : α → List Char) (hstr : ∀ x, '\n' ∉ str x) (returnTids : Bool) (rows : List (Row α)) :
    copyLines [] (writeRows str returnTids rows) = expectedText str returnTids rows := by
  induction rows with
  | nil => rfl
  | cons r rs ih =>
    have hexp : expectedText str returnTids (r :: rs) = (itemLine str r ++ ['\n'] ++
      (if returnTids = true ∧ r.tids ≠ ∅ then tidsLine r ++ ['\n'] else [])) ++ expectedText str returnTids rs := rfl
    rw [writeRows, copyLines_line _ _ _ (itemLine_noNewline str hstr r), hexp]
    have hnb : ¬ ((itemLine str r).reverse ++ []).all isSpace = true := by
      rw [List.append_nil, List.all_reverse]
      unfold itemLine
      simp [isSpace]
    rw [if_neg hnb]
    cases returnTids with
    | false => simp [ih]
    | true =>
      simp only [if_true, true_and, List.append_assoc, List.singleton_append]
      rw [copyLines_line _ _ _ (fun h => tidsLine_chars r _ h rfl), ih]
      by_cases ht : r.tids = ∅
      · have := (tidsLine_blank r).2 ht
        rw [if_pos (by rw [List.append_nil, List.all_reverse]; exact this), if_neg (by simpa using ht)]
        simp
      · have : ¬ ((tidsLine r).reverse ++ []).all isSpace = true := by
          rw [List.append_nil, List.all_reverse, tidsLine_blank]; exact ht
        rw [if_neg this, if_pos ht]
        simp

variable [LinearOrder α]

/-- C49. The file holds, in the order of the in-memory result, one line per itemset. Roots that yield nothing leave
nothing in the file. -/
theorem transformFile_eq (F : Fitted α) (m : ℚ) (o : Opts) (str : α → List Char) (hstr : ∀ x, '\n' ∉ str x)
    (returnTids : Bool) :
    transformFile F m o str returnTids = expectedText str returnTids (transform F m o) := by
  unfold transformFile transform expectedText
  rw [List.flatMap_assoc]
  congr 1
  funext k
  exact copyLines_writeRows str hstr returnTids _

omit [LinearOrder α] in
/-- C49. The itemset and the support can be read back from a line, provided items are written without blanks. -/
theorem readLine_itemLine (str : α → List Char) (hblank : ∀ x, ' ' ∉ str x) (r : Row α) (hne : r.itemset ≠ []) :
    readLine (itemLine str r) = some (showNat r.support, r.itemset.map str) := by
  have hp : ∀ c ∈ showNat r.support, (decide (c ≠ ')')) = true := by
    intro c hc
    have : ∀ c ∈ ['0', '1', '2', '3', '4', '5', '6', '7', '8', '9'], (decide (c ≠ ')')) = true := by decide
    exact this c (mem_showNat _ _ hc)
  unfold itemLine readLine
  have e : '(' :: showNat r.support ++ [')', ' '] ++ join ' ' (List.map str r.itemset)
      = '(' :: (showNat r.support ++ (')' :: ' ' :: join ' ' (List.map str r.itemset))) := by simp
  rw [e]
  simp only
  rw [List.takeWhile_append_of_pos hp, List.dropWhile_append_of_pos hp]
  have h1 : List.takeWhile (fun x => decide (x ≠ ')')) (')' :: ' ' :: join ' ' (List.map str r.itemset)) = [] := by
    simp
  have h2 : List.dropWhile (fun x => decide (x ≠ ')')) (')' :: ' ' :: join ' ' (List.map str r.itemset))
      = ')' :: ' ' :: join ' ' (List.map str r.itemset) := by simp
  rw [h1, h2, List.append_nil]
  simp only [List.drop_succ_cons, List.drop_zero]
  rw [splitOn_join]
  · simpa using hne
  · intro w hw
    obtain ⟨x, _, rfl⟩ := List.mem_map.1 hw
    exact hblank x

/-- Every itemset returned by LCM is non-empty, so that the hypothesis of `readLine_itemLine` is met. -/
theorem lcm_itemset_ne_nil (m : ℚ) (o : Opts) (ho : OrderOk o.setOrder) (D : List (List α)) (r : Row α)
    (hr : r ∈ lcm m o D) : r.itemset ≠ [] := by
  have := (lcm_rows m o ho D r hr).2.1.1
  rintro h
  rw [h] at this
  simp at this

example : transformFile (fit 2 [[1, 2, 3], [2, 3], [1, 4], [4, 2, 1]]) 2 ⟨-1, true, sortSet⟩ showNat true =
    "(3) 1\n0 2 3\n(3) 2\n0 1 3\n(2) 1 2\n0 3\n(2) 2 3\n0 1\n(2) 1 4\n2 3\n".toList := by decide

end Verif.LCM
