import Verif.Select.Model

/-!
# Cost-efficient covers

Source: `/repo/skmine/periodic/run_mine.py:703-756`.
-/

set_option autoImplicit false

namespace Verif.Select

variable {K : Type} [Field K] [LinearOrder K] {ω β : Type} [DecidableEq ω] [BEq β]

/-- The occurrences covered by a list of candidates. -/
def covered (C : Cands K ω) : List ℕ → Finset ω
  | [] => ∅
  | c :: cs => C.occs c ∪ covered C cs

/-- The cost of an occurrence sent on its own (`0` for an event without cost). -/
def single (dcosts : List (β × K)) (ev : ω → β) (o : ω) : K := (dcosts.lookup (ev o)).getD 0

/-- Every candidate of the list adds at least `minCov` occurrences to the ones before it, and costs less than sending those on their own. -/
def EfficientCover (C : Cands K ω) (dcosts : List (β × K)) (ev : ω → β) (minCov : ℕ) (sel : List ℕ) : Prop :=
  ∀ before c after, sel = before ++ c :: after →
    minCov ≤ (C.occs c \ covered C before).card ∧ C.cost c < ∑ o ∈ C.occs c \ covered C before, single dcosts ev o

/-- A candidate with nothing to gain once `sel` is selected: it would add too few occurrences, or none, or it costs at least as much as its new occurrences would at the price of the cheapest event. -/
def Useless (C : Cands K ω) (minCov : ℕ) (cheapest : K) (sel : List ℕ) (c : ℕ) : Prop :=
  (C.occs c \ covered C sel).card < minCov ∨ (C.occs c \ covered C sel).card = 0 ∨ cheapest * ((C.occs c \ covered C sel).card : K) ≤ C.cost c

end Verif.Select
