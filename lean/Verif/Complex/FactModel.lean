import Verif.Concat.Model

/-!
# Factorising candidates (C77)

Source: `/repo/skmine/periodic/candidate.py`, `/repo/skmine/periodic/run_mine.py`.

The node numbers of the leaves, which the code uses to follow an occurrence from one tree to the other, are put on the leaves next to the event: factorising moves leaves without renumbering them,
`/repo/skmine/periodic/pattern.py:1093-1118`. Exceptions (`KeyError`, `IndexError`, and `TypeError` for an occurrence left at `None`) are `none`.
-/

set_option autoImplicit false

namespace Verif.Complex

open Verif.PTree Verif.Concat

variable {α : Type}

mutual
/-- The leaves numbered from left to right: any numbering without repetition would do. -/
def label : PTree.Tree α → ℕ → PTree.Tree (ℕ × α) × ℕ
  | .leaf a, n => (.leaf (n, a), n + 1)
  | .node r p ch, n => (.node r p (labelF ch n).1, (labelF ch n).2)
/-- The loop over the children. -/
def labelF : Forest α → ℕ → Forest (ℕ × α) × ℕ
  | .nil, n => (.nil, n)
  | .cons d t rest, n => (.cons d (label t n).1 (labelF rest (label t n).2).1, (labelF rest (label t n).2).2)
end

mutual
/-- The same tree with other events. -/
def mapT {β : Type} (f : α → β) : PTree.Tree α → PTree.Tree β
  | .leaf a => .leaf (f a)
  | .node r p ch => .node r p (mapF f ch)
/-- The loop over the children. -/
def mapF {β : Type} (f : α → β) : Forest α → Forest β
  | .nil => .nil
  | .cons d t rest => .cons d (mapT f t) (mapF f rest)
end

/-- The same candidate with other events. -/
def mapC {β : Type} (f : α → β) (c : Cand α) : Cand β := ⟨c.r, c.p, mapF f c.ch, c.O, c.E⟩

/-- `[c[:2] for c in getTimesNidsRefs()]`, `/repo/skmine/periodic/candidate.py:325,329-330` and `/repo/skmine/periodic/pattern.py:433-449`: time and leaf (its event goes along with its number). -/
def refs (t : PTree.Tree (ℕ × α)) : List (ℤ × (ℕ × α)) := (occsStar t [] 0).map (fun o => (o.1, o.2.1))

/-- `dict([(v, k) for (k, v) in enumerate(q)])[r]`, `/repo/skmine/periodic/candidate.py:329-330`: the last position wins. -/
def posIn {γ : Type} [DecidableEq γ] (q : List γ) (r : γ) : Option ℕ := q.zipIdx.reverse.lookup r

/-- One turn, `/repo/skmine/periodic/candidate.py:334`. -/
def placeOne {γ : Type} [DecidableEq γ] (q : List γ) (O : List ℤ) (acc : List (Option ℤ)) (x : γ × ℕ) : Option (List (Option ℤ)) :=
  match posIn q x.1, O[x.2]? with
  | some k, some o => if k < acc.length then some (acc.set k (some o)) else none
  | _, _ => none

/-- `Qoccs`, `/repo/skmine/periodic/candidate.py:332-334`. -/
def place {γ : Type} [DecidableEq γ] (q p : List γ) (O : List ℤ) : Option (List ℤ) :=
  (p.zipIdx.foldlM (placeOne q O) (List.replicate O.length none)).bind (fun acc => acc.mapM id)

/-- What happens for one node of `canFactorize`, `/repo/skmine/periodic/candidate.py:322-336`: an exception, the early return of line 328, or a new candidate. -/
def refactor [DecidableEq α] (P : PTree.Tree (ℕ × α)) (O : List ℤ) (t : List ℕ) : Option (Option (Cand (ℕ × α))) :=
  match factorizeAt t P with
  | some (.node r p ch) =>
    if (refs P).Nodup then
      (place (refs (.node r p ch)) (refs P) O).bind (fun Qo => (computeEFromO (.node r p ch) Qo).map (fun E => some ⟨r, p, ch, Qo, E⟩))
    else some none
  | _ => none

/-- The loop over `canFactorize`, `/repo/skmine/periodic/candidate.py:321-339`; `next` is the recursive call. -/
def factorLoop [DecidableEq α] (next : Cand (ℕ × α) → Option (List (Cand (ℕ × α)))) (P : PTree.Tree (ℕ × α)) (O : List ℤ) : List (List ℕ) → Option (List (Cand (ℕ × α)))
  | [] => some []
  | t :: ts =>
    match refactor P O t with
    | none => none
    | some none => some []
    | some (some c) =>
      match next c, factorLoop next P O ts with
      | some l, some m => some (c :: (l ++ m))
      | _, _ => none

/-- `Candidate.factorizePattern`, `/repo/skmine/periodic/candidate.py:307-339`, for a candidate whose leaves are numbered; the first argument bounds the recursion. -/
def factorAll [DecidableEq α] : ℕ → Cand (ℕ × α) → Option (List (Cand (ℕ × α)))
  | 0, _ => none
  | n + 1, c => factorLoop (factorAll n) c.tree c.O (canFactorize c.tree)

/-- `Candidate.factorizePattern`, `/repo/skmine/periodic/candidate.py:307-339`, for a candidate that holds a `Pattern`. -/
def factorizePattern [DecidableEq α] (fuel : ℕ) (c : Cand α) : Option (List (Cand α)) :=
  (factorAll fuel ⟨c.r, c.p, (labelF c.ch 0).1, c.O, c.E⟩).map (fun fs => fs.map (mapC Prod.snd))

end Verif.Complex
