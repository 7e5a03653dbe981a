import Mathlib.Algebra.Order.Ring.Rat

/-!
# Specification for the MDLP discretizer

The recursive splitting of Fayyad and Irani, on positions of the sorted samples, written without the code's loop.
-/

set_option autoImplicit false

namespace Verif.Mdlp

variable {E : Type*} [LinearOrder E]

/-- Position `k` separates two neighbouring samples of different classes. -/
def Boundary (y : List ℕ) (k : ℕ) : Prop := 0 < k ∧ k < y.length ∧ y[k - 1]? ≠ y[k]?

/-- `[start, stop)` is split at `k`: the first boundary inside with the least score, and the test accepts it. -/
def Split (y : List ℕ) (score : ℕ → ℕ → ℕ → E) (better : ℕ → ℕ → ℕ → Bool) (start stop k : ℕ) : Prop :=
  start < k ∧ k < stop ∧ Boundary y k ∧ better start stop k = true ∧
    ∀ j, start < j → j < stop → Boundary y j →
      score start stop k ≤ score start stop j ∧ (j < k → score start stop k < score start stop j)

/-- The intervals the recursive splitting reaches. -/
inductive Interval (y : List ℕ) (score : ℕ → ℕ → ℕ → E) (better : ℕ → ℕ → ℕ → Bool) : ℕ → ℕ → Prop
  | all : Interval y score better 0 y.length
  | left (start stop k : ℕ) : Interval y score better start stop → Split y score better start stop k → Interval y score better start k
  | right (start stop k : ℕ) : Interval y score better start stop → Split y score better start stop k → Interval y score better k stop

/-- The positions where some reached interval is split. -/
def CutAt (y : List ℕ) (score : ℕ → ℕ → ℕ → E) (better : ℕ → ℕ → ℕ → Bool) (k : ℕ) : Prop :=
  ∃ start stop, Interval y score better start stop ∧ Split y score better start stop k

end Verif.Mdlp
