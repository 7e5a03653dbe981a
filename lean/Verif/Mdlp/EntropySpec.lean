import Mathlib.Analysis.SpecialFunctions.Log.Base

/-!
# The criterion of Fayyad and Irani (C96, C97)

Independent of the model: class entropy of a sample, entropy of a cut in two, acceptance by the minimum description length principle, and the recursive splitting.
-/

set_option autoImplicit false

namespace Verif.Mdlp.FI

/-- Class entropy (base 2) of a list of labels. -/
noncomputable def Ent (S : List ℕ) : ℝ := ∑ c ∈ S.toFinset, -((S.count c : ℝ) / S.length * Real.logb 2 ((S.count c : ℝ) / S.length))

/-- Class entropy of a cut: the mean of the entropies of both sides, weighted by their sizes. -/
noncomputable def CutEnt (S₁ S₂ : List ℕ) : ℝ := (S₁.length : ℝ) / (S₁ ++ S₂).length * Ent S₁ + (S₂.length : ℝ) / (S₁ ++ S₂).length * Ent S₂

/-- Information gain of a cut. -/
noncomputable def Gain (S₁ S₂ : List ℕ) : ℝ := Ent (S₁ ++ S₂) - CutEnt S₁ S₂

/-- Number of classes. -/
def classes (S : List ℕ) : ℕ := S.toFinset.card

/-- The acceptance test. -/
def Accept (S₁ S₂ : List ℕ) : Prop :=
  let S := S₁ ++ S₂
  let delta := Real.logb 2 (3 ^ classes S - 2) - (classes S * Ent S - classes S₁ * Ent S₁ - classes S₂ * Ent S₂)
  Gain S₁ S₂ > (Real.logb 2 ((S.length : ℝ) - 1) + delta) / S.length

/-- The labels at the positions `s`, …, `e - 1`. -/
def part (y : List ℕ) (s e : ℕ) : List ℕ := (y.take e).drop s

/-- `k` is the first cut of least entropy among all cuts of `s`, …, `e - 1`. -/
def BestCut (y : List ℕ) (s e k : ℕ) : Prop :=
  s < k ∧ k < e ∧ ∀ j, s < j → j < e → CutEnt (part y s k) (part y k e) ≤ CutEnt (part y s j) (part y j e) ∧
    (j < k → CutEnt (part y s k) (part y k e) < CutEnt (part y s j) (part y j e))

/-- The intervals met by the recursive splitting of `y`. -/
inductive Piece (y : List ℕ) : ℕ → ℕ → Prop
  | all : Piece y 0 y.length
  | left (s e k : ℕ) : Piece y s e → BestCut y s e k → Accept (part y s k) (part y k e) → Piece y s k
  | right (s e k : ℕ) : Piece y s e → BestCut y s e k → Accept (part y s k) (part y k e) → Piece y k e

/-- The positions where the recursive splitting cuts. -/
def Cut (y : List ℕ) (k : ℕ) : Prop := ∃ s e, Piece y s e ∧ BestCut y s e k ∧ Accept (part y s k) (part y k e)

end Verif.Mdlp.FI
