import Verif.Cost.Collection
import Verif.Kinds.Props

/-!
# The statistics of a collection of patterns (C161)

Source: `/repo/skmine/periodic/pattern_collection.py:156-263`.

The texts and the rows of the patterns are left out here (they are modelled in `Verif/Display` and `Verif/Export`); costs are exact real numbers; `none` is an exception. The set of uncovered occurrences is enumerated by `enum`.
-/

set_option autoImplicit false

namespace Verif.Report

open Verif.PTree Verif.Cost Verif.Kinds

/-- The dictionary `global_stat_dict`, `/repo/skmine/periodic/pattern_collection.py:241-261`, its keys being the fields. -/
structure Stats where
  /-- `Total patterns nb` -/
  total : ℕ
  /-- one key for each kind that occurs -/
  kinds : List (Kinds.Kind × ℕ)
  /-- `Code length patterns` -/
  clPatterns : ℝ
  /-- `Code length residuals` -/
  clResiduals : ℝ
  /-- `Total residual nb` -/
  nbResiduals : ℕ
  /-- `Code length total`, `Total compression ratio`, `Code length residuals only`, if they are there -/
  whole : Option (ℝ × ℝ × ℝ)

/-- The sum of the code lengths made by `strPatternListAndCost` and by `output_pattern_list_and_cost`, `/repo/skmine/periodic/pattern_collection.py:156-169,199-233`. Both read the lists of occurrences first. -/
noncomputable def listCost {ε : Type} (d : DataSeq.Built ε) (ps : List Miner.Patt) : Option ℝ :=
  match Miner.occLists ps with
  | none => none
  | some _ => ps.foldlM (fun cl z => (codeLength z.1 z.2.1 (some z.2.2) (detailsOf d)).map (fun c => cl + c)) 0

/-- The loop over the uncovered occurrences by event: their number and their cost, `/repo/skmine/periodic/pattern_collection.py:179-184,244-249`. -/
noncomputable def leftover {ε : Type} (d : DataSeq.Built ε) (nbU : List (ℕ × ℕ)) : Option (ℕ × ℝ) :=
  nbU.foldlM (fun a e => (costOne (detailsOf d) e.1).map (fun c => (a.1 + e.2, a.2 + (e.2 : ℝ) * c))) (0, 0)

/-- `PatternCollection.output_detailed`, `/repo/skmine/periodic/pattern_collection.py:235-263`: the statistics. -/
noncomputable def outputDetailed {ε : Type} (enum : Finset (ℤ × ℕ) → List (ℤ × ℕ)) (d : DataSeq.Built ε) (ps : List Miner.Patt) : Option Stats := do
  let nbs ← nbByType (ps.map (fun z => z.1))
  let cl ← listCost d ps
  let u ← Miner.uncovered d.seql ps
  let lo ← leftover d (nbByEv (enum u))
  let only ← residualsOnly d
  return ⟨ps.length, reportOrder nbs, cl, lo.2, lo.1, if 0 < only then some (cl + lo.2, 100 * (cl + lo.2) / only, only) else none⟩

/-- `PatternCollection.strDetailed`, `/repo/skmine/periodic/pattern_collection.py:171-197`: what is returned. `nbs['simple']` raises `KeyError` if there is no such key. -/
noncomputable def strDetailed {ε : Type} (enum : Finset (ℤ × ℕ) → List (ℤ × ℕ)) (d : DataSeq.Built ε) (ps : List Miner.Patt) : Option (ℝ × ℝ × ℝ × ℕ × ℕ × ℕ) := do
  let nbs ← nbByType (ps.map (fun z => z.1))
  let cl ← listCost d ps
  let u ← Miner.uncovered d.seql ps
  let lo ← leftover d (nbByEv (enum u))
  let only ← residualsOnly d
  let simple ← nbs.lookup Kinds.Kind.simple
  return (cl + lo.2, only, lo.2, simple, lo.1, ps.length)

end Verif.Report
