import Verif.Select.Spec
import Verif.MinSupp.FloatModel

/-!
# Selection of patterns in floating point (C141)

Source: `/repo/skmine/periodic/run_mine.py:703-756` and `/repo/skmine/periodic/candidate.py:287-293`.

The loop of C38 with the quotient of a cost by a number of occurrences, and the comparison with the mean, as parameters. In the code both are doubles.
-/

set_option autoImplicit false

namespace Verif.Select

variable {K : Type} [Field K] [LinearOrder K] {ω β : Type} [DecidableEq ω] [BEq β]

/-- `Candidate.getCostUncoveredRatio`, `/repo/skmine/periodic/candidate.py:287-290`, with the quotient `div`. -/
def ratioWith (div : K → ℕ → K) (cost : K) (uncov : Finset ω) : WithTop K := if uncov.card = 0 then ⊤ else (div cost uncov.card : WithTop K)

/-- The sort of the candidates, `/repo/skmine/periodic/run_mine.py:734,753`, with the quotient `div`. -/
def sortWith (div : K → ℕ → K) (C : Cands K ω) (uncov : ℕ → Finset ω) (cis : List ℕ) : List ℕ :=
  cis.insertionSort (fun a b => ratioWith div (C.cost a) (uncov a) ≤ ratioWith div (C.cost b) (uncov b))

/-- The inner loop, `/repo/skmine/periodic/run_mine.py:745-752`, with the quotient `div`. -/
def keepWith (div : K → ℕ → K) (C : Cands K ω) (minCov : ℕ) (maxEff : K) (uncov : ℕ → Finset ω) (cis : List ℕ) : List ℕ :=
  cis.filter (fun c => !(decide ((uncov c).card < minCov)) && !(decide (0 ≤ maxEff) && decide ((maxEff : WithTop K) < ratioWith div (C.cost c) (uncov c))))

/-- The main loop, `/repo/skmine/periodic/run_mine.py:737-754`. `eff` is the answer of `isEfficient`; its first argument is the number of iterations left, so that two tests of the same candidate and occurrences may add up the costs in
different orders. -/
def loopWith (div : K → ℕ → K) (eff : ℕ → ℕ → Finset ω → Option Bool) (C : Cands K ω) (minCov : ℕ) (maxEff : K) :
    ℕ → List ℕ → (ℕ → Finset ω) → List ℕ → Option (List ℕ)
  | _, [], _, selected => some selected
  | 0, _ :: _, _, _ => none
  | n + 1, nxti :: cis, uncov, selected =>
    if ratioWith div (C.cost nxti) (uncov nxti) ≤ (maxEff : WithTop K) ∧ minCov ≤ (uncov nxti).card then
      match eff n nxti (uncov nxti) with
      | none => none
      | some false => loopWith div eff C minCov maxEff n cis uncov selected
      | some true =>
        let uncov' := fun c => if c ∈ cis then uncov c \ uncov nxti else uncov c
        loopWith div eff C minCov maxEff n (sortWith div C uncov' (keepWith div C minCov maxEff uncov' cis)) uncov' (selected ++ [nxti])
    else loopWith div eff C minCov maxEff n cis uncov selected

/-- `filter_candidates_cover`, `/repo/skmine/periodic/run_mine.py:703-756`, with these parameters. -/
def filterWith (div : K → ℕ → K) (eff : ℕ → ℕ → Finset ω → Option Bool) (C : Cands K ω) (dcosts : List (β × K)) (minCov : ℕ) (cis : List ℕ) : Option (List ℕ) :=
  match dcosts.map Prod.snd with
  | [] => some []
  | d :: ds => loopWith div eff C minCov (ds.foldl min d) cis.length (sortWith div C C.occs cis) C.occs []

/-- A double divided by a number of occurrences. -/
def divDbl (x : ℚ) (n : ℕ) : ℚ := MinSupp.dbl (x / n)

/-- `Candidate.isEfficient`, `/repo/skmine/periodic/candidate.py:292-293`, in doubles: `sum k u` is the sum of the costs of the occurrences `u` as numpy computes it in the test number `k`. -/
def effDbl (sum : ℕ → Finset ω → ℚ) (C : Cands ℚ ω) (dcosts : List (β × ℚ)) (ev : ω → β) (k c : ℕ) (u : Finset ω) : Option Bool :=
  if ∀ o ∈ u, (dcosts.lookup (ev o)).isSome then some (decide (divDbl (C.cost c) u.card < divDbl (sum k u) u.card)) else none

/-- `filter_candidates_cover` in doubles. -/
def filterDbl (sum : ℕ → Finset ω → ℚ) (C : Cands ℚ ω) (dcosts : List (β × ℚ)) (ev : ω → β) (minCov : ℕ) (cis : List ℕ) : Option (List ℕ) :=
  filterWith divDbl (effDbl sum C dcosts ev) C dcosts minCov cis

end Verif.Select
