import Verif.Concat.Spec

/-!
# Occurrences of candidates with their events

Source: `/repo/skmine/periodic/candidate.py`.
-/

set_option autoImplicit false

namespace Verif.Complex

open Verif.PTree Verif.Concat

variable {α : Type}

/-- The occurrences of a candidate with their events, in order: the `i`-th occurrence carries the event of the `i`-th leaf visited by the tree. -/
def pairs (c : Cand α) : List (ℤ × α) := c.O.zip c.events

/-- A candidate as the miner should make it: its tree is regular and fits its occurrences and corrections, its root is repeated three times or more, and its occurrences, with their events, are among those given. -/
def InData (D : ℤ × α → Prop) (c : Cand α) : Prop := Shape c ∧ 3 ≤ c.r ∧ ∀ x ∈ pairs c, D x

end Verif.Complex
