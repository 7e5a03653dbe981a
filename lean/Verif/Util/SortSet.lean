import Mathlib.Data.Finset.Card
import Mathlib.Data.List.Sort

/-! A computable enumeration of finite sets (used in examples, where the order of iteration has to be fixed). -/

set_option autoImplicit false

namespace Verif

variable {β : Type*} [LinearOrder β]

/-- The elements of a finite set in increasing order. Unlike `Finset.sort` it reduces in the kernel. -/
def sortSet (s : Finset β) : List β :=
  Quot.liftOn s.val (fun l => l.insertionSort (· ≤ ·)) (fun a b (h : a.Perm b) =>
    List.Perm.eq_of_pairwise' (List.pairwise_insertionSort _ _) (List.pairwise_insertionSort _ _)
      (((List.perm_insertionSort _ _).trans h).trans (List.perm_insertionSort _ _).symm))

theorem sortSet_coe (s : Finset β) : (sortSet s : Multiset β) = s.val := by
  obtain ⟨v, hv⟩ := s
  induction v using Quot.inductionOn with
  | h l => exact Quot.sound (List.perm_insertionSort _ _)

theorem mem_sortSet (s : Finset β) (x : β) : x ∈ sortSet s ↔ x ∈ s := by
  rw [← Multiset.mem_coe, sortSet_coe]; rfl

theorem nodup_sortSet (s : Finset β) : (sortSet s).Nodup := by
  have h := s.nodup
  rw [← sortSet_coe, Multiset.coe_nodup] at h
  exact h

theorem sorted_sortSet (s : Finset β) : (sortSet s).Pairwise (· ≤ ·) := by
  obtain ⟨v, hv⟩ := s
  induction v using Quot.inductionOn with
  | h l => exact List.pairwise_insertionSort _ _

theorem strict_sortSet (s : Finset β) : (sortSet s).Pairwise (· < ·) :=
  List.Pairwise.imp₂ (fun _ _ h1 h2 => lt_of_le_of_ne h1 h2) (sorted_sortSet s) (nodup_sortSet s)

end Verif
