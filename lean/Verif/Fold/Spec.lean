import Mathlib.Data.Int.Notation
import Mathlib.Data.Nat.Notation
import Mathlib.Algebra.Order.Group.Int
import Mathlib.Algebra.Order.Group.Abs

/-!
# Nearly equidistant occurrences

Written without reference to the model.
-/

set_option autoImplicit false

namespace Verif.Fold

/-- The occurrences at positions `a < b < c` are `x`, `y`, `z`, the gaps `y - x` and `z - y` differ by an amount that passes the test `small`, and are below the bound on periods if there is one. -/
def Near (small : ℤ → Bool) (maxP : Option ℤ) (occs : List ℤ) (a b c : ℕ) : Prop :=
  a < b ∧ b < c ∧ ∃ x y z, occs[a]? = some x ∧ occs[b]? = some y ∧ occs[c]? = some z ∧ small |(z - y) - (y - x)| = true ∧
    ∀ m, maxP = some m → y - x < m ∧ z - y < m

/-- Pairs of consecutive elements. -/
def consecutive {α : Type} (l : List α) : List (α × α) := l.zip l.tail

/-- Pairs of consecutive elements, without the first and the last element of the list. -/
def innerPairs {α : Type} (l : List α) : List (α × α) := consecutive l.tail.dropLast

end Verif.Fold
