import Mathlib.Data.Finset.Card
import Mathlib.Data.Finset.Dedup

/-!
# Models of the two clique enumerations

Sources: `/repo/skmine/utils.py:311-340` and `/repo/skmine/periodic/run_mine.py:21-54`.
-/

set_option autoImplicit false

namespace Verif.Clique

variable {V : Type*} [DecidableEq V]

/-- The loop of `bron_kerbosch`, `/repo/skmine/utils.py:332-340`. Nodes are deleted from `candidates` as the loop goes, so at a given
turn `candidates` is the remaining list, current node included. `next` is the recursive call on (candidates, clique,
excluded). `excluded[node] = neighbours` adds a new key (a node is in only one of the two dicts). -/
def bkLoop {β : Type*} (next : List (V × List V) → List V → List (V × List V) → Option (List β)) (clique : List V) :
    List (V × List V) → List (V × List V) → Option (List β)
  | [], _ => some []
  | (node, neighbours) :: rest, excluded =>
    match next (((node, neighbours) :: rest).filter (fun e => e.1 ∈ neighbours))
        (node :: clique.filter (fun x => x ≠ node)) (excluded.filter (fun e => e.1 ∈ neighbours)) with
    | none => none
    | some r1 =>
      match bkLoop next clique rest (excluded ++ [(node, neighbours)]) with
      | none => none
      | some r2 => some (r1 ++ r2)

/-- `bron_kerbosch`, `/repo/skmine/utils.py:311-340`, as the list of yielded cliques. A `dict` is the list of its entries in order; `clique`
keeps the keys only and `None` is the empty list. The recursive call does not pass `depth`, so that `depth > 20` never
holds in it; the model is for calls with the default `depth`. The first argument is fuel (recursion depth); `none` when it runs out. -/
def bronKerbosch : ℕ → List (V × List V) → List V → List (V × List V) → Option (List (List V))
  | 0, _, _, _ => none
  | n + 1, candidates, clique, excluded =>
    if candidates = [] ∧ excluded = [] ∧ 2 < clique.length then some [clique]
    else bkLoop (bronKerbosch n) clique candidates excluded

/-- The loop of `bronKerbosch3Plus`, `/repo/skmine/periodic/run_mine.py:50-54`. `next v P X` is the recursive call for `v`. -/
def bk3Loop (next : V → Finset V → Finset V → Option (List (Finset V))) :
    List V → Finset V → Finset V → Option (List (Finset V))
  | [], _, _ => some []
  | v :: l, P, X =>
    match next v P X with
    | none => none
    | some r1 =>
      match bk3Loop next l (P.erase v) (insert v X) with
      | none => none
      | some r2 => some (r1 ++ r2)

/-- `bronKerbosch3Plus`, `/repo/skmine/periodic/run_mine.py:21-54`, as the list of the sets appended to `collect`. `enum path P` is the
order of `list(P)` in the call reached by choosing the vertices of `path` (most recent first). `graph v` is the set of the neighbours of the key
`v` (all vertices of `P` are keys). The first number is fuel (recursion depth); `none` when it runs out. -/
def bronKerbosch3Plus (graph : V → Finset V) (enum : List V → Finset V → List V) :
    ℕ → List V → Finset V → Finset V → Finset V → Option (List (Finset V))
  | 0, _, _, _, _ => none
  | n + 1, path, P, R, X =>
    if P.card = 0 ∧ X.card = 0 then some (if 2 < R.card then [R] else [])
    else bk3Loop (fun v P X => bronKerbosch3Plus graph enum n (v :: path) (P ∩ graph v) (R ∪ {v}) (X ∩ graph v))
      (enum path P) P X

/-- `enum` lists the elements of a set, in any order. -/
def EnumOk (enum : List V → Finset V → List V) : Prop :=
  ∀ path P, (enum path P).Nodup ∧ ∀ v, v ∈ enum path P ↔ v ∈ P

end Verif.Clique
