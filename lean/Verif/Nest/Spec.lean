import Verif.Nest.Model
import Verif.Concat.Spec

/-!
# What is asked of the search for cycles among start times

Source: `/repo/skmine/periodic/extract_cycles.py`.
-/

set_option autoImplicit false

namespace Verif.Nest

/-- Contract of `extract_cycles_fold` on an increasing list of times (it holds: `Verif/Nest/FoldProps.lean`), and of `list.sort`: a triple or a chain has at least three positions in the list, in increasing order for a triple; the occurrences of
a chain are as many, taken from the list in order; sorting keeps the same elements. -/
structure EnvOk (env : Env) : Prop where
  triples : ∀ lvl key ts, ts.Pairwise (· < ·) → ∀ t ∈ env.triples lvl key ts, 3 ≤ t.2.length ∧ (∀ k ∈ t.2, k < ts.length) ∧ t.2.Pairwise (· < ·)
  chains : ∀ lvl key ts, ts.Pairwise (· < ·) → ∀ c ∈ env.chains lvl key ts, 3 ≤ c.2.length ∧ (∀ k ∈ c.2, k < ts.length) ∧ c.1.length = c.2.length ∧ c.1.Sublist ts ∧ c.2.Pairwise (· < ·)
  order : ∀ l, (env.order l).Perm l

end Verif.Nest
