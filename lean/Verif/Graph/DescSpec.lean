import Verif.Graph.DescModel
import Verif.Graph.PreqSpec

/-!
# A message for the rewritten graph: specification
-/

set_option autoImplicit false

namespace Verif.Graph

variable {σ : Type} [DecidableEq σ]

/-- The ports of all nodes, one after the other: data vertices, where the edges of the rewritten graph lead. -/
def destinations (ps : List (Piece σ)) : List ℕ := ps.flatMap (fun pc => pc.ports.map Prod.fst)

/-- The pattern vertices written on the edges that leave the nodes of a kind. -/
def labelsOf (ps : List (Piece σ)) (k : PKind σ) : List ℕ := (ps.filter (fun pc => decide (pc.kind = k))).flatMap (fun pc => pc.ports.map Prod.snd)

/-- The symbols of a message: the kinds in use, the ports, and for every kind the pattern vertices that are ports somewhere. -/
structure Alphabet (σ : Type) where
  kinds : List (PKind σ)
  ports : List ℕ
  labels : PKind σ → List ℕ

/-- The symbols are those met in the rewritten graph, each once. -/
structure Alphabet.Of (A : Alphabet σ) (ps : List (Piece σ)) : Prop where
  kinds : A.kinds.Nodup ∧ ∀ k, k ∈ A.kinds ↔ ∃ pc ∈ ps, pc.kind = k
  ports : A.ports.Nodup ∧ ∀ v, v ∈ A.ports ↔ v ∈ destinations ps
  labels : ∀ k, (A.labels k).Nodup ∧ ∀ a, a ∈ A.labels k ↔ a ∈ labelsOf ps k

/-- The rows of the table that are in use. -/
def Alphabet.rows (A : Alphabet σ) : List ℕ := A.kinds.filterMap (fun k => match k with | .row i => some i | _ => none)

/-- The length of the message: the number of nodes (`a` bits), the number of ports, for every node its number of edges, then the kinds of the nodes, the ends of the edges and the labels of the edges with adaptive codes. -/
noncomputable def messageBits (a : ℕ) (A : Alphabet σ) (ps : List (Piece σ)) : ℝ :=
  a + Real.logb 2 (A.ports.length + 1) + (ps.map (fun pc => Real.logb 2 ((A.labels pc.kind).length + 1))).sum + plugIn A.kinds (1 / 2) [] (ps.map Piece.kind) +
    plugIn A.ports (1 / 2) [] (destinations ps) + (A.kinds.map (fun k => plugIn (A.labels k) (1 / 2) [] (labelsOf ps k))).sum

end Verif.Graph
