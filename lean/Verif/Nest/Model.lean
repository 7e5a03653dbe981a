import Verif.Concat.Model
import Verif.Util.Text
import Mathlib.Data.List.Sort
import Mathlib.Data.Finset.Card

/-!
# Nesting periodic patterns (C62)

Source: `/repo/skmine/periodic/run_mine.py`.

Candidates are those of `Verif/Concat/Model.lean`. The candidates combined here have the same minor key, hence the same children under their root (C64).
-/

set_option autoImplicit false

namespace Verif.Nest

open Verif.PTree Verif.Concat Verif.Text

variable {α : Type}

/-! ### Keys of groups -/

mutual
/-- `Pattern.getCyclePs`, `/repo/skmine/periodic/pattern.py:1152-1173`. -/
def cyclePs : PTree.Tree α → List ℤ
  | .leaf _ => []
  | .node _ p ch => p :: cyclePsF ch
/-- The loop over the children. -/
def cyclePsF : Forest α → List ℤ
  | .nil => []
  | .cons _ t rest => cyclePs t ++ cyclePsF rest
end

mutual
/-- `Pattern.getCycleRs`, `/repo/skmine/periodic/pattern.py:1175-1196`. -/
def cycleRs : PTree.Tree α → List ℕ
  | .leaf _ => []
  | .node r _ ch => r :: cycleRsF ch
/-- The loop over the children. -/
def cycleRsF : Forest α → List ℕ
  | .nil => []
  | .cons _ t rest => cycleRs t ++ cycleRsF rest
end

/-- The key of a candidate, `/repo/skmine/periodic/run_mine.py:381-386`; a candidate that is not a `Pattern` has one period and one length (its tree has one leaf). -/
def baseKey (c : Cand α) : List Char :=
  join '+' ((cyclePs c.tree).map showInt) ++ '_' :: join '*' ((cycleRs c.tree).reverse.map showNat)

/-- `"%d+%s*%d" % (p, key, n)`, `/repo/skmine/periodic/run_mine.py:416,430`. -/
def nestKey (p : ℤ) (key : List Char) (n : ℕ) : List Char := showInt p ++ '+' :: (key ++ '*' :: showNat n)

/-- The periods and lengths read from a key, `/repo/skmine/periodic/run_mine.py:110-114`, outermost first. A negative length is an empty range, as 0. -/
def parseKey (key : List Char) : Option (List ℤ × List ℕ) :=
  match splitOn '_' key with
  | a :: b :: _ =>
    match (splitOn '+' a).mapM parseInt, (splitOn '*' b).mapM parseInt with
    | some ps, some ls => some (ps, (ls.map Int.toNat).reverse)
    | _, _ => none
  | _ => none

/-! ### The new candidate -/

/-- `itertools.product(*[range(l) for l in lens])`, `/repo/skmine/periodic/run_mine.py:125`. -/
def reps : List ℕ → List (List ℕ)
  | [] => [[]]
  | l :: ls => (List.range l).flatMap (fun i => (reps ls).map (fun q => i :: q))

/-- The position of the last number that is not 0, `/repo/skmine/periodic/run_mine.py:133-135`. -/
def lastNonzero : List ℕ → Option ℕ
  | [] => none
  | x :: xs =>
    match lastNonzero xs with
    | some i => some (i + 1)
    | none => if x = 0 then none else some 0

/-- `cmplx_candidates[idxs[k]].getT0()`. -/
def t0At (cands : List (Cand α)) (idxs : List ℕ) (k : ℕ) : Option ℤ := ((idxs[k]?).bind (fun i => cands[i]?)).bind (fun c => c.O.head?)

/-- One turn of the loop, `/repo/skmine/periodic/run_mine.py:128-139`, for the repetitions `pp` of rank `pi`. -/
def nestTurn (cands : List (Cand α)) (idxs : List ℕ) (prds : List ℤ) (L : List (List ℕ)) (pp : List ℕ) (pi : ℕ) : Option (List ℤ) :=
  match (idxs[pi]?).bind (fun i => cands[i]?), t0At cands idxs pi with
  | some c, some t0i =>
    if pi = 0 then some c.E
    else
      match lastNonzero pp with
      | none => none
      | some i =>
        match t0At cands idxs (L.idxOf (pp.modify i (fun x => x - 1))), prds[i]? with
        | some t0prec, some p => some ((t0i - t0prec - p) :: c.E)
        | _, _ => none
  | _, _ => none

/-- The corrections, `/repo/skmine/periodic/run_mine.py:125-139`. -/
def nestE (cands : List (Cand α)) (idxs : List ℕ) (prds : List ℤ) (outer : List ℕ) : Option (List ℤ) :=
  ((reps outer).zipIdx.mapM (fun x => nestTurn cands idxs prds (reps outer) x.1 x.2)).map List.flatten

/-- The chain of nodes, `/repo/skmine/periodic/run_mine.py:79-93`: repetitions, period and children of the root. `F` are the children of the root of the first candidate. -/
def chain : List (ℤ × ℕ) → Forest α → Option (ℕ × ℤ × Forest α)
  | [], _ => none
  | [(p, l)], F => some (l, p, F)
  | (p, l) :: x :: rest, F => (chain (x :: rest) F).map (fun y => (l, p, .cons 0 (.node y.1 y.2.1 y.2.2) .nil))

/-- `prepare_tree_nested`, `/repo/skmine/periodic/run_mine.py:57-93`; node numbers are not represented. -/
def nestTree (c : Cand α) (prds : List ℤ) (lens : List ℕ) : Option (ℕ × ℤ × Forest α) :=
  let m := prds.length + 1 - (cyclePs c.tree).length
  if lens.length < m then none else chain ((prds.zip lens).take m) c.ch

/-- `prepare_candidate_nested`, `/repo/skmine/periodic/run_mine.py:96-143`, for a key and the indices of candidates. -/
def prepareNested (cands : List (Cand α)) (key : List Char) (idxs : List ℕ) : Option (Cand α) :=
  match parseKey key, idxs.mapM (fun i => cands[i]?), (idxs.head?).bind (fun i => cands[i]?) with
  | some (prds, lens), some cs, some c0 =>
    match nestE cands idxs prds (lens.take (lens.length - (cyclePs c0.tree).length)), nestTree c0 prds lens with
    | some Es, some (r, p, ch) => some ⟨r, p, ch, cs.flatMap (fun c => c.O), Es⟩
    | _, _ => none
  | _, _, _ => none

/-! ### The search for groups -/

/-- An element of a group: start time, indices of candidates. -/
abbrev Elem := ℤ × List ℕ

/-- `map_cmplx_pos`, a `dict` in insertion order. -/
abbrev Groups := List (List Char × List Elem)

/-- `map_cmplx_pos[key].append(e)`, the list being created if needed, `/repo/skmine/periodic/run_mine.py:387-389,417-423`. -/
def addElem (g : Groups) (key : List Char) (e : Elem) : Groups :=
  if key ∈ g.map Prod.fst then g.map (fun x => if x.1 = key then (x.1, x.2 ++ [e]) else x) else g ++ [(key, [e])]

/-- The initial groups, `/repo/skmine/periodic/run_mine.py:379-389`; `none` for a candidate without occurrence. -/
def initGroups (cands : List (Cand α)) : Option Groups :=
  cands.zipIdx.foldl (fun g x => match g, x.1.O.head? with
    | some g, some t0 => some (addElem g (baseKey x.1) (t0, [x.2]))
    | _, _ => none) (some [])

/-- Order of pairs in `sorted(u_elems)`. -/
def elemLE (a b : Elem) : Prop := a.1 < b.1 ∨ (a.1 = b.1 ∧ a.2 ≤ b.2)

instance : DecidableRel elemLE := fun a b => by unfold elemLE; infer_instance

/-- The loop removing elements with equal start times, `/repo/skmine/periodic/run_mine.py:398-408`: `x` is the current element. `cheaper a b` compares the summed costs. -/
def dropEqual (cheaper : List ℕ → List ℕ → Bool) (x : Elem) : List Elem → List Elem
  | [] => [x]
  | y :: ys =>
    if y.1 = x.1 then (if cheaper y.2 x.2 then dropEqual cheaper y ys else dropEqual cheaper x ys)
    else x :: dropEqual cheaper y ys

/-- What is left open. -/
structure Env where
  /-- Comparison of summed costs. -/
  cheaper : List ℕ → List ℕ → Bool
  /-- The triples of `extract_cycles_fold`: period, positions. The call is numbered by level and key. -/
  triples : ℕ → List Char → List ℤ → List (ℤ × List ℕ)
  /-- The chains of `extract_cycles_fold`: occurrences, positions. -/
  chains : ℕ → List Char → List ℤ → List (List ℤ × List ℕ)
  /-- `computePeriod`. -/
  period : List ℤ → ℤ
  /-- `keep.sort()`. -/
  order : List (ℤ × List Char × ℤ × List ℕ) → List (ℤ × List Char × ℤ × List ℕ)

/-- `sorted(u_elems)` without equal start times, `/repo/skmine/periodic/run_mine.py:396-408`. -/
def sortElems (env : Env) (u : List Elem) : List Elem :=
  match u.insertionSort elemLE with
  | [] => []
  | x :: xs => dropEqual env.cheaper x xs

/-- `comb_kids`, `/repo/skmine/periodic/run_mine.py:419-421,433-435`. -/
def combKids (elems : List Elem) (pos : List ℕ) : Option (List ℕ) := (pos.mapM (fun cc => (elems[cc]?).map Prod.snd)).map List.flatten

/-- The element for a triple, `/repo/skmine/periodic/run_mine.py:416-423`. -/
def tripleElem (key : List Char) (elems : List Elem) (t : ℤ × List ℕ) : Option (List Char × Elem) :=
  match combKids elems t.2, (t.2.head?).bind (fun k => elems[k]?) with
  | some kids, some e => some (nestKey t.1 key t.2.length, (e.1, kids))
  | _, _ => none

/-- The element for a chain, `/repo/skmine/periodic/run_mine.py:427-437`. -/
def chainElem (env : Env) (key : List Char) (elems : List Elem) (c : List ℤ × List ℕ) : Option (List Char × Elem) :=
  match combKids elems c.2, c.1.head? with
  | some kids, some t0 => some (nestKey (env.period c.1) key c.1.length, (t0, kids))
  | _, _ => none

/-- The new elements found in a group, with their keys, and the positions taken out of `store`, `/repo/skmine/periodic/run_mine.py:394-438`. -/
def newElems (env : Env) (lvl : ℕ) (key : List Char) (u : List Elem) : Option (List (List Char × Elem) × List ℕ) :=
  if u.length ≤ 2 then some ([], [])
  else
    let elems := sortElems env u
    let tr := env.triples lvl key (elems.map Prod.fst)
    let cs := env.chains lvl key (elems.map Prod.fst)
    match tr.mapM (tripleElem key elems), cs.mapM (chainElem env key elems) with
    | some a, some b => some (a ++ b, tr.flatMap (fun t => t.2) ++ cs.flatMap (fun c => c.2))
    | _, _ => none

/-- `eval(pr_key.split("_")[-1])`, `/repo/skmine/periodic/run_mine.py:443`: the product of the lengths. -/
def keySize (key : List Char) : Option ℤ := (parseKey key).map (fun x => ((x.2.foldr (· * ·) 1 : ℕ) : ℤ))

/-- The elements that stay in `store`, `/repo/skmine/periodic/run_mine.py:394,424,438-443`: the positions removed are those in the sorted list, the positions kept those in the
original list. -/
def kept (key : List Char) (u : List Elem) (taken : List ℕ) : Option (List (ℤ × List Char × ℤ × List ℕ)) :=
  (keySize key).map (fun s => (u.zipIdx.filter (fun x => x.2 ∉ taken)).map (fun x => (s, key, x.1.1, x.1.2)))

/-- One pass over the groups, `/repo/skmine/periodic/run_mine.py:393-443`. -/
def passGroups (env : Env) (lvl : ℕ) : Groups → Groups → List (ℤ × List Char × ℤ × List ℕ) → Option (Groups × List (ℤ × List Char × ℤ × List ℕ))
  | [], next, keep => some (next, keep)
  | (key, u) :: rest, next, keep =>
    match newElems env lvl key u with
    | none => none
    | some (new, taken) =>
      match kept key u taken with
      | none => none
      | some ks => passGroups env lvl rest (new.foldl (fun g x => addElem g x.1 x.2) next) (keep ++ ks)

/-- Why there is no result. -/
inductive Err | fuel | raised
  deriving DecidableEq

/-- The main loop, `/repo/skmine/periodic/run_mine.py:391-443`. -/
def levels (env : Env) : ℕ → ℕ → Groups → List (ℤ × List Char × ℤ × List ℕ) → Except Err (List (ℤ × List Char × ℤ × List ℕ))
  | _, _, [], keep => .ok keep
  | 0, _, _ :: _, _ => .error .fuel
  | n + 1, lvl, g :: gs, keep =>
    match passGroups env lvl (g :: gs) [] keep with
    | none => .error .raised
    | some (next, keep') => levels env n (lvl + 1) next keep'

/-- The selection, `/repo/skmine/periodic/run_mine.py:446-459`, on `keep` from its end. Costs are not computed here. -/
def selectNested (cands : List (Cand α)) : List (ℤ × List Char × ℤ × List ℕ) → Finset ℕ → ℤ → Option (List (Cand α) × Finset ℕ)
  | [], covered, _ => some ([], covered)
  | x :: rest, covered, prev =>
    if 2 < (x.2.2.2.toFinset \ covered).card ∨ x.1 = prev then
      match prepareNested cands x.2.1 x.2.2.2, selectNested cands rest (covered ∪ x.2.2.2.toFinset) x.1 with
      | some c, some r => some (c :: r.1, r.2)
      | _, _ => none
    else selectNested cands rest covered prev

/-- `nest_cmplx`, `/repo/skmine/periodic/run_mine.py:366-460`. The first argument bounds the number of levels. -/
def nestCmplx (fuel : ℕ) (env : Env) (cands : List (Cand α)) : Except Err (List (Cand α) × Finset ℕ) :=
  match initGroups cands with
  | none => .error .raised
  | some g =>
    match levels env fuel 0 g [] with
    | .error e => .error e
    | .ok keep =>
      match selectNested cands (env.order keep).reverse ∅ (-1) with
      | none => .error .raised
      | some r => .ok r

end Verif.Nest
