import Verif.Nodes.BuildModel
import Mathlib.Data.List.Dedup

/-!
# Factorisation on dictionaries: model

Source: `/repo/skmine/periodic/pattern.py:1093-1150`. `factorizeTree` is in `Verif/Nodes/BuildModel.lean`.
-/

set_option autoImplicit false

namespace Verif.Nodes

variable {α : Type}

/-- `len(nodes[c].get("children", [])) == 1`, `/repo/skmine/periodic/pattern.py:1142`; a missing node is a `KeyError`. -/
def oneChild (d : NodeDict α) (c : ℕ × ℤ) : Option Bool := match d.lookup c.1 with
  | none => none
  | some (.leaf _ _) => some false
  | some (.inner _ _ ch) => some (ch.length == 1)

/-- `(nodes[c]["p"], nodes[c]["r"])`, `/repo/skmine/periodic/pattern.py:1144`: `KeyError` where they are missing. -/
def cycleOf (d : NodeDict α) (c : ℕ × ℤ) : Option (ℤ × ℕ) := match d.lookup c.1 with
  | some (.inner _ (some rp) _) => some (rp.2, rp.1)
  | _ => none

/-- The test at one node, `/repo/skmine/periodic/pattern.py:1140-1146`. -/
def testHere (d : NodeDict α) (ch : List (ℕ × ℤ)) : Option Bool :=
  if 1 < ch.length then
    (ch.mapM (oneChild d)).bind (fun bs => if bs.all id then (ch.mapM (cycleOf d)).map (fun cs => cs.dedup.length == 1) else some false)
  else some false

/-- `canFactorize`, `/repo/skmine/periodic/pattern.py:1120-1150`: the numbers of the nodes where the tree can be factorised. A child that is not a node is an error (`extend(-1)`). The first argument bounds
the depth. -/
def canFactorizeD : ℕ → NodeDict α → ℕ → Option (List ℕ)
  | 0, _, _ => none
  | f + 1, d, nid => match d.lookup nid with
    | none => none
    | some (.leaf _ _) => some []
    | some (.inner _ _ ch) => (ch.mapM (fun c => canFactorizeD f d c.1)).bind (fun ls => (testHere d ch).map (fun b => ls.flatten ++ (if b then [nid] else [])))

end Verif.Nodes
