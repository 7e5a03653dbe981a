import Mathlib.Algebra.Order.Field.Basic
import Mathlib.Algebra.BigOperators.Group.Finset.Basic
import Mathlib.Data.List.Sort
import Mathlib.Order.WithBot
import Mathlib.Data.Finset.Card

/-!
# Selection of patterns (C38)

Source: `/repo/skmine/periodic/run_mine.py:703-756` and `/repo/skmine/periodic/candidate.py`.

Costs are elements of an ordered field `K` (floats in the code). An occurrence is a pair (time, event) of an arbitrary type `ω`, with its event number `ev o`. Candidates are identified by numbers. `KeyError` for
an event without cost is `none`.
-/

set_option autoImplicit false

namespace Verif.Select

variable {K : Type} [Field K] [LinearOrder K] {ω β : Type} [DecidableEq ω] [BEq β]

/-- The candidates: cost and set of occurrences of each, `/repo/skmine/periodic/candidate.py:32-43,112-119`. -/
structure Cands (K ω : Type) where
  /-- `getCost`. -/
  cost : ℕ → K
  /-- `set(getEvOccs())`. -/
  occs : ℕ → Finset ω

/-- `Candidate.getCostUncoveredRatio`, `/repo/skmine/periodic/candidate.py:287-290`; infinity is `⊤`. -/
def ratio (cost : K) (uncov : Finset ω) : WithTop K :=
  if uncov.card = 0 then ⊤ else ((cost / (uncov.card : K) : K) : WithTop K)

/-- `[dcosts[unc[1]] for unc in uncov]` summed; the order of a set is unspecified, the sum does not depend on it. `none` when an event has no cost. -/
def sumCosts (dcosts : List (β × K)) (ev : ω → β) (uncov : Finset ω) : Option K :=
  if ∀ o ∈ uncov, (dcosts.lookup (ev o)).isSome then some (∑ o ∈ uncov, ((dcosts.lookup (ev o)).getD 0)) else none

/-- `Candidate.isEfficient`, `/repo/skmine/periodic/candidate.py:292-293`: cost per uncovered occurrence below the mean of their costs. -/
def isEfficient (dcosts : List (β × K)) (ev : ω → β) (cost : K) (uncov : Finset ω) : Option Bool :=
  (sumCosts dcosts ev uncov).map (fun s => decide (cost / (uncov.card : K) < s / (uncov.card : K)))

/-- `cis.sort(key=lambda x: cands[x].getCostUncoveredRatio())`. -/
def sortCis (C : Cands K ω) (uncov : ℕ → Finset ω) (cis : List ℕ) : List ℕ :=
  cis.insertionSort (fun a b => ratio (C.cost a) (uncov a) ≤ ratio (C.cost b) (uncov b))

/-- The inner loop, `/repo/skmine/periodic/run_mine.py:745-752`: the uncovered sets of the remaining candidates lose the new cover, and those left with less than `min_cov` or too costly are dropped. -/
def keepCis (C : Cands K ω) (minCov : ℕ) (maxEff : K) (uncov : ℕ → Finset ω) (cis : List ℕ) : List ℕ :=
  cis.filter (fun c => !(decide ((uncov c).card < minCov)) && !(decide (0 ≤ maxEff) && decide ((maxEff : WithTop K) < ratio (C.cost c) (uncov c))))

/-- The main loop, `/repo/skmine/periodic/run_mine.py:735-754`, with fuel for the number of iterations; the state is the list of remaining candidates, their uncovered sets and the selection. -/
def loop (C : Cands K ω) (dcosts : List (β × K)) (ev : ω → β) (minCov : ℕ) (maxEff : K) :
    ℕ → List ℕ → (ℕ → Finset ω) → List ℕ → Option (List ℕ)
  | _, [], _, selected => some selected
  | 0, _ :: _, _, _ => none
  | n + 1, nxti :: cis, uncov, selected =>
    if ratio (C.cost nxti) (uncov nxti) ≤ (maxEff : WithTop K) ∧ minCov ≤ (uncov nxti).card then
      match isEfficient dcosts ev (C.cost nxti) (uncov nxti) with
      | none => none
      | some false => loop C dcosts ev minCov maxEff n cis uncov selected
      | some true =>
        let uncov' := fun c => if c ∈ cis then uncov c \ uncov nxti else uncov c
        loop C dcosts ev minCov maxEff n (sortCis C uncov' (keepCis C minCov maxEff uncov' cis)) uncov' (selected ++ [nxti])
    else loop C dcosts ev minCov maxEff n cis uncov selected

/-- `filter_candidates_cover`, `/repo/skmine/periodic/run_mine.py:703-756`, for the given candidate numbers. -/
def filterCover (C : Cands K ω) (dcosts : List (β × K)) (ev : ω → β) (minCov : ℕ) (cis : List ℕ) : Option (List ℕ) :=
  match dcosts.map Prod.snd with
  | [] => some []
  | d :: ds =>
    let maxEff := ds.foldl min d
    loop C dcosts ev minCov maxEff cis.length (sortCis C C.occs cis) C.occs []

end Verif.Select
