import Mathlib.Data.Finset.Card

/-! # Graphs and maximal cliques. This file does not mention the algorithms. -/

set_option autoImplicit false

namespace Verif.Clique

variable {V : Type*}

/-- `adj` is an undirected graph without loops on the vertex set `vs`. -/
structure Simple (vs : Finset V) (adj : V → V → Prop) : Prop where
  symm : ∀ u ∈ vs, ∀ v ∈ vs, adj u v → adj v u
  irrefl : ∀ u ∈ vs, ¬ adj u u

/-- `C` is a set of pairwise adjacent vertices. -/
def IsClique (vs : Finset V) (adj : V → V → Prop) (C : Finset V) : Prop :=
  C ⊆ vs ∧ ∀ u ∈ C, ∀ v ∈ C, u ≠ v → adj u v

/-- `C` is a clique contained in no other clique. -/
def MaxClique (vs : Finset V) (adj : V → V → Prop) (C : Finset V) : Prop :=
  IsClique vs adj C ∧ ∀ C', IsClique vs adj C' → C ⊆ C' → C' = C

end Verif.Clique
