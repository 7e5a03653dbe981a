import Verif.PTree.Model

/-!
# Concatenating periodic patterns (C59)

Source: `/repo/skmine/periodic/candidate.py`, `/repo/skmine/periodic/run_mine.py`.

Trees are those of `Verif/PTree/Model.lean` (node numbers are not represented, see `Verif/Nodes`). Exceptions (`IndexError`) are `none`.
-/

set_option autoImplicit false

namespace Verif.Concat

open Verif.PTree

variable {α : Type}

/-- A candidate: its tree (repetitions, period and children of the root), its occurrences `O` and its corrections `E`, `/repo/skmine/periodic/candidate.py:32-43`. A candidate given as a
simple cycle is the tree with one leaf, `/repo/skmine/periodic/candidate.py:73-80`. -/
structure Cand (α : Type) where
  /-- Repetitions of the root. -/
  r : ℕ
  /-- Period of the root. -/
  p : ℤ
  /-- Children of the root. -/
  ch : Forest α
  /-- Occurrences. -/
  O : List ℤ
  /-- Corrections. -/
  E : List ℤ

/-- The tree of a candidate. -/
def Cand.tree (c : Cand α) : Tree α := .node c.r c.p c.ch

/-- `Candidate.getMajorR`, `/repo/skmine/periodic/candidate.py:193-197`, with `isComplex`, `/repo/skmine/periodic/candidate.py:92-93`: a tree of depth and width 1 has one leaf. -/
def Cand.majorR (c : Cand α) : ℕ :=
  match c.ch with
  | .cons _ (.leaf _) .nil => c.O.length
  | _ => c.r

/-- `Candidate.getBlocksO`, `/repo/skmine/periodic/candidate.py:211-214`. -/
def Cand.blocksO (c : Cand α) (fromRep : ℕ) : List (List ℤ) :=
  (List.range' fromRep (c.majorR - fromRep)).map (fun i =>
    (c.O.drop (i * (c.O.length / c.majorR))).take (c.O.length / c.majorR))

/-- `Candidate.getBlocksE`, `/repo/skmine/periodic/candidate.py:216-220`: the slice from `i * len + 1` to `(i + 1) * len` of `[0] + E`. -/
def Cand.blocksE (c : Cand α) (fromRep : ℕ) : List (List ℤ) :=
  (List.range' fromRep (c.majorR - fromRep)).map (fun i =>
    ((0 :: c.E).drop (i * (c.O.length / c.majorR) + 1)).take (c.O.length / c.majorR - 1))

/-- `ch[0] = (ch[0][0], d)`. -/
def setFirst (d : ℤ) : Forest α → Option (Forest α)
  | .nil => none
  | .cons _ t rest => some (.cons d t rest)

/-- `children.extend(ch)`. -/
def append : Forest α → Forest α → Forest α
  | .nil, F => F
  | .cons d t rest, F => .cons d t (append rest F)

/-- The distances of the children. -/
def dists : Forest α → List ℤ
  | .nil => []
  | .cons d _ rest => d :: dists rest

/-- The loop over the candidates, `/repo/skmine/periodic/run_mine.py:166-178`, on their children and blocks; `prev` holds the blocks of the previous candidate. -/
def concatCh : List (Forest α × List (List ℤ)) → Option (List (List ℤ)) → Option (Forest α)
  | [], _ => some .nil
  | (ch, bo) :: rest, prev =>
    match (match prev with
      | none => some ch
      | some bp =>
        match bo.head?.bind List.head?, bp.head?.bind List.head? with
        | some h, some h' => setFirst (h - h') ch
        | _, _ => none), concatCh rest (some bo) with
    | some c, some f => some (append c f)
    | _, _ => none

/-- The inner loop, `/repo/skmine/periodic/run_mine.py:184-191`, for repetition `ri`, on the blocks of occurrences and corrections; `prev` holds the blocks of the previous candidate,
`ds` the distances from index `ei` on. -/
def row (p0 : ℤ) (ri : ℕ) : List (List (List ℤ) × List (List ℤ)) → Option (List (List ℤ)) → List ℤ → Option (List ℤ × List ℤ)
  | [], _, _ => some ([], [])
  | (bo, be) :: rest, prev, ds =>
    match bo[ri]?,
      (match prev with
        | none => if ri = 0 then some [] else
            match bo[ri]?.bind List.head?, bo[ri - 1]?.bind List.head? with
            | some h, some h' => some [h - h' - p0]
            | _, _ => none
        | some bp =>
          match bo[ri]?.bind List.head?, bp[ri]?.bind List.head?, ds.head? with
          | some h, some h', some d => some [h - h' - d]
          | _, _, _ => none),
      be[ri]?, row p0 ri rest (some bo) ds.tail with
    | some o, some first, some e, some (O, E) => some (o ++ O, first ++ e ++ E)
    | _, _, _, _ => none

/-- `prepare_candidate_concats`, `/repo/skmine/periodic/run_mine.py:146-193`: candidates with their first repetition. -/
def concat (cands : List (Cand α × ℕ)) (p0 : ℤ) (r0 : ℕ) : Option (Cand α) :=
  let bos := cands.map (fun c => c.1.blocksO c.2)
  let bes := cands.map (fun c => c.1.blocksE c.2)
  (concatCh ((cands.map (fun c => c.1.ch)).zip bos) none).bind (fun ch =>
    ((List.range r0).mapM (fun ri => row p0 ri (bos.zip bes) none (dists ch))).map (fun rows =>
      { r := r0, p := p0, ch := ch, O := rows.flatMap Prod.fst, E := rows.flatMap Prod.snd }))

end Verif.Concat
