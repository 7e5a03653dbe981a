import Verif.Miner.Model

/-!
# Conditions on the parameters of the miner

Source: `/repo/skmine/periodic/cycles.py`.
-/

set_option autoImplicit false

namespace Verif.Miner

open Verif.PTree

variable {ε : Type} [LinearOrder ε]

/-- A sort is a permutation of the rows. -/
def Sorts (srt : Frame ε → Frame ε) : Prop := ∀ f, (srt f).Perm f

/-- An iteration over a set visits each element once. -/
def Enumerates (enum : Finset (ℤ × ℕ) → List (ℤ × ℕ)) : Prop := ∀ s, (enum s).Nodup ∧ ∀ x, x ∈ enum s ↔ x ∈ s

/-- Every pattern generates at least one occurrence, and only occurrences of the data. -/
def FromData (seql : List (ℤ × ℕ)) (ps : List Patt) : Prop :=
  ∀ q ∈ ps, ∃ cov, getCovSeq q.1 q.2.1 q.2.2 = some cov ∧ cov ≠ [] ∧ ∀ x ∈ cov, x ∈ seql

/-- Some occurrence of the data is generated by no pattern. -/
def SomeResidual (seql : List (ℤ × ℕ)) (ps : List Patt) : Prop :=
  ∃ x ∈ seql, ∀ q ∈ ps, ∀ cov, getCovSeq q.1 q.2.1 q.2.2 = some cov → x ∉ cov

end Verif.Miner
