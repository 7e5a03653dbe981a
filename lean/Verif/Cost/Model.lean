import Verif.PTree.Model
import Verif.Mine.Model
import Mathlib.Analysis.SpecialFunctions.Log.Base
import Mathlib.Algebra.Order.Floor.Ring

/-!
# Code lengths of cycles, patterns and residuals (C72 to C75)

Source: `/repo/skmine/periodic/class_patterns.py` and `/repo/skmine/periodic/pattern.py`.

Floats are exact reals. `numpy.log2` of a number that is not positive (`nan` or `-inf` with a warning), a division by zero, a `KeyError`, `numpy.min` of nothing and the breakpoint of
`codeLengthPDs` are `none`. The module constants `OPT_TO` and `OPT_EVFR` and the class attributes `transmit_Tmax` and `allow_interleaving` have their values in the repository (all true).
-/

set_option autoImplicit false

namespace Verif.Cost

open Verif.PTree

variable {α : Type} [DecidableEq α]

/-- `data_details`, `/repo/skmine/periodic/data_sequence.py:68-82`: number of occurrences of each event, first and last time. -/
structure Details (α : Type) where
  nb : List (α × ℕ)
  tStart : ℤ
  tEnd : ℤ

/-- `deltaT`, `/repo/skmine/periodic/data_sequence.py:78`. -/
def Details.deltaT (D : Details α) : ℤ := D.tEnd - D.tStart

/-- `nbOccs[-1]`, `/repo/skmine/periodic/class_patterns.py:307-308`. -/
def Details.total (D : Details α) : ℕ := (D.nb.map Prod.snd).sum

/-- `numpy.log2`. -/
noncomputable def log2 (x : ℝ) : Option ℝ := if 0 < x then some (Real.logb 2 x) else none

/-- `orgFreqs[a]`, `/repo/skmine/periodic/class_patterns.py:315-323`. -/
noncomputable def orgFreq (D : Details α) (a : α) : Option ℝ := (D.nb.lookup a).map (fun n : ℕ => (n : ℝ) / (D.total : ℝ))

/-- `adjFreqs[a]` for an event, `/repo/skmine/periodic/class_patterns.py:316-323`. -/
noncomputable def adjFreq (D : Details α) (a : α) : Option ℝ := (D.nb.lookup a).map (fun n : ℕ => (n : ℝ) / (3 * (D.total : ℝ)))

/-- `adjFreqs["("]` and `adjFreqs[")"]`, `/repo/skmine/periodic/class_patterns.py:311-314`. -/
noncomputable def adjDelim : ℝ := 1 / 3

/-- `blck_delim`, `/repo/skmine/periodic/class_patterns.py:325`. -/
noncomputable def blckDelim : Option ℝ := do
  let a ← log2 adjDelim
  let b ← log2 adjDelim
  return -(a + b)

/-- The argument `alpha` of the functions on cycles: one event, or the tuple of events of a block, which is not a key of `nbOccs`. -/
inductive Alpha (α : Type)
  | one (a : α)
  | many (l : List α)

/-- `numpy.min`: raises on an empty list. -/
def npMin : List ℕ → Option ℕ
  | [] => none
  | n :: l => some (l.foldl min n)

/-- The cost of the event and of the number of repetitions, `/repo/skmine/periodic/class_patterns.py:110-117` and `216-226`. A number `1 * a` in place of an event that has no entry cannot be iterated over (`TypeError`). -/
noncomputable def alphaAndR (D : Details α) : Alpha α → Option ℝ
  | .one a => do
    let n ← D.nb.lookup a
    let f ← adjFreq D a
    let x ← log2 f
    let b ← blckDelim
    let r ← log2 (n : ℝ)
    return -x + b + r
  | .many l => do
    let b ← blckDelim
    let m ← npMin (l.map (fun a => (D.nb.lookup a).getD D.total))
    let r ← log2 (m : ℝ)
    return b + r

/-- `cost_one`, `/repo/skmine/periodic/class_patterns.py:127-157`. -/
noncomputable def costOne (D : Details α) (a : α) : Option ℝ := do
  let t ← log2 ((D.deltaT + 1 : ℤ) : ℝ)
  match orgFreq D a with
  | some f => do
    let x ← log2 f
    return -x + t
  | none => return t

/-- `computeLengthResidual`, `/repo/skmine/periodic/class_patterns.py:240-257`. -/
noncomputable def lengthResidual (D : Details α) (a : α) (occs : List ℤ) : Option ℝ := (costOne D a).map (fun c => (occs.length : ℝ) * c)

/-- `computeE`, `/repo/skmine/periodic/class_patterns.py:70-90`, unsorted. -/
def computeE (occs : List ℤ) (p : ℤ) : List ℤ := (Mine.diff occs).map (fun d => d - p)

/-- `computeLengthEOccs`, `/repo/skmine/periodic/class_patterns.py:160-177`. -/
def lengthEOccs (occs : List ℤ) (p : ℤ) : ℤ := ((Mine.diff occs).map (fun d => 2 + |d - p|)).sum

/-- `computeLengthCycle`, `/repo/skmine/periodic/class_patterns.py:180-237`, for the period `cp` used at line 203. -/
noncomputable def lengthCycle (D : Details α) (alpha : Alpha α) (occs : List ℤ) (cp : ℤ) (noErr : Bool) : Option ℝ := do
  let E : ℤ := if noErr then 0 else lengthEOccs occs cp
  let dE : ℤ := if noErr then 0 else (computeE occs cp).sum
  let ar ← alphaAndR D alpha
  if occs.length ≤ 1 then none
  let p ← log2 (((D.deltaT - dE) / ((occs.length : ℤ) - 1) : ℤ) : ℝ)
  let m : ℤ := D.deltaT - dE - cp * ((occs.length : ℤ) - 1) + 1
  let tau ← if m ≤ 0 then some 0 else log2 (m : ℝ)
  return ar + p + tau + (E : ℝ)

/-- `computeLengthCycle` with `"p": None`, `/repo/skmine/periodic/class_patterns.py:199-203`. -/
noncomputable def lengthCycleNone (D : Details α) (alpha : Alpha α) (occs : List ℤ) : Option ℝ :=
  (Mine.computePeriod occs).bind (fun cp => lengthCycle D alpha occs cp false)

/-- `cost_triple`, `/repo/skmine/periodic/class_patterns.py:93-124`; the message printed at line 107 is not modelled. -/
noncomputable def costTriple (D : Details α) (alpha : Alpha α) (dp deltaE : ℤ) : Option ℝ := do
  let ar ← alphaAndR D alpha
  let t ← log2 ((D.deltaT - deltaE - 2 * dp + 1 : ℤ) : ℝ)
  let p ← log2 (((D.deltaT - deltaE) / 2 : ℤ) : ℝ)
  return ar + t + p + 4 + ((|deltaE| : ℤ) : ℝ)

/-! ### Patterns -/

/-- `codeLengthE`, `/repo/skmine/periodic/pattern.py:38-51`. -/
def codeLengthE (E : List ℤ) : ℤ := (E.map (fun e => 2 + |e|)).sum

mutual
/-- `Pattern.codeLengthEvents`, `/repo/skmine/periodic/pattern.py:1365-1378`. -/
noncomputable def codeLengthEvents (D : Details α) : PTree.Tree α → Option ℝ
  | .leaf a => do
    let f ← adjFreq D a
    let x ← log2 f
    return -x
  | .node _ _ ch => do
    let a ← log2 adjDelim
    let b ← log2 adjDelim
    let s ← codeLengthEventsF D ch
    return -a + -b + s
/-- The sum over the children. -/
noncomputable def codeLengthEventsF (D : Details α) : Forest α → Option ℝ
  | .nil => some 0
  | .cons _ t rest => do
    let x ← codeLengthEvents D t
    let y ← codeLengthEventsF D rest
    return x + y
end

mutual
/-- `Pattern.getMinOccs`, `/repo/skmine/periodic/pattern.py:1380-1416`: the value returned and what is appended to `min_occs`. -/
def getMinOccs (D : Details α) : PTree.Tree α → Option (ℕ × List ℕ)
  | .leaf a => (D.nb.lookup a).map (fun n => (n, []))
  | .node _ _ ch => do
    let x ← getMinOccsF D ch
    let m ← npMin x.1
    return (m, x.2 ++ [m])
/-- The values returned for the children and what they append. -/
def getMinOccsF (D : Details α) : Forest α → Option (List ℕ × List ℕ)
  | .nil => some ([], [])
  | .cons _ t rest => do
    let x ← getMinOccs D t
    let y ← getMinOccsF D rest
    return (x.1 :: y.1, x.2 ++ y.2)
end

/-- Sum of the logarithms. -/
noncomputable def sumLog2 (l : List ℕ) : Option ℝ := (l.mapM (fun n : ℕ => log2 (n : ℝ))).map List.sum

/-- `Pattern.codeLengthR`, `/repo/skmine/periodic/pattern.py:1442-1462`. -/
noncomputable def codeLengthR (D : Details α) (T : PTree.Tree α) : Option ℝ := (getMinOccs D T).bind (fun x => sumLog2 x.2)

/-- `Pattern.codeLengthPTop`, `/repo/skmine/periodic/pattern.py:1484-1506`, with `EC_za` already replaced by 0 when it is `None`. -/
noncomputable def codeLengthPTop (D : Details α) (r : ℕ) (ec : ℤ) : Option ℝ :=
  if r = 1 then none else log2 (((D.deltaT - ec) / ((r : ℤ) - 1) : ℤ) : ℝ)

/-- `Pattern.codeLengthT0`, `/repo/skmine/periodic/pattern.py:1508-1536`; `EC_za` is never `None` at line 1533, whose branch is dead. -/
noncomputable def codeLengthT0 (D : Details α) (r : ℕ) (p ec : ℤ) : Option ℝ := log2 ((D.deltaT - ec - p * ((r : ℤ) - 1) + 1 : ℤ) : ℝ)

/-- `isInterm`, `/repo/skmine/periodic/pattern.py:340-354`. -/
def isInterm : PTree.Tree α → Bool
  | .leaf _ => false
  | .node _ _ _ => true

/-- `Pattern.hasNestedPDs`, `/repo/skmine/periodic/pattern.py:1538-1555`, for the children of the root. -/
def hasNestedPDs : Forest α → Bool
  | .nil => false
  | .cons _ t .nil => isInterm t
  | .cons _ _ (.cons _ _ _) => true

/-- `len(children)`. -/
def _root_.Verif.PTree.Forest.len : Forest α → ℕ
  | .nil => 0
  | .cons _ _ rest => rest.len + 1

mutual
/-- `Pattern.codeLengthPDs(Tmax, nid)`, `/repo/skmine/periodic/pattern.py:1557-1626`, below the root (`nid > 0`, `rep` false), with interleaving. -/
noncomputable def codeLengthPDs : PTree.Tree α → ℤ → Option ℝ
  | .leaf _, _ => some 0
  | .node r p ch, Tmax =>
    if r = 1 then none
    else if r = 0 then codeLengthPDsF ch (Tmax - (r : ℤ) + 1)
    else if Tmax < p * ((r : ℤ) - 1) then none
    else do
      let clp ← log2 ((Tmax / ((r : ℤ) - 1) : ℤ) : ℝ)
      let x ← codeLengthPDsF ch (Tmax - (r : ℤ) + 1)
      return clp + x
/-- Distances and children of a node, `/repo/skmine/periodic/pattern.py:1602-1625`, given `Tmax_rep`. -/
noncomputable def codeLengthPDsF : Forest α → ℤ → Option ℝ
  | .nil, _ => some 0
  | .cons _ t rest, TmaxRep =>
    if 1 ≤ rest.len then do
      let cld ← log2 ((TmaxRep + 1 : ℤ) : ℝ)
      let x ← codeLengthPDs t TmaxRep
      let y ← codeLengthPDsL rest TmaxRep
      return (rest.len : ℝ) * cld + x + y
    else codeLengthPDs t TmaxRep
/-- The children after the first; the distance of each is taken off what remains of `Tmax_rep`. -/
noncomputable def codeLengthPDsL : Forest α → ℤ → Option ℝ
  | .nil, _ => some 0
  | .cons d t rest, left => do
    let x ← codeLengthPDs t (left - d)
    let y ← codeLengthPDsL rest (left - d)
    return x + y
end

mutual
/-- `Pattern.getNidsRightmostLeaves`, `/repo/skmine/periodic/pattern.py:372-400`, followed by `getKeyFromNid(k, -1)`, `/repo/skmine/periodic/pattern.py:642-713`: the leaves that are the last child of their
parent, in the last repetitions. -/
def rightKeys : PTree.Tree α → Bool → List Path
  | .leaf _, rightmost => if rightmost then [[]] else []
  | .node r _ ch, _ => rightKeysF ch 0 (r - 1)
/-- The loop over the children. -/
def rightKeysF : Forest α → ℕ → ℕ → List Path
  | .nil, _, _ => []
  | .cons _ t rest, ni, i => (rightKeys t (decide (rest.len = 0))).map (fun k => (ni, i) :: k) ++ rightKeysF rest (ni + 1) i
end

/-- `numpy.min`: raises on an empty list. -/
def npMinZ : List ℤ → Option ℤ
  | [] => none
  | n :: l => some (l.foldl min n)

/-- `numpy.max`: raises on an empty list. -/
def npMaxZ : List ℤ → Option ℤ
  | [] => none
  | n :: l => some (l.foldl max n)

/-- `Pattern.codeLength`, `/repo/skmine/periodic/pattern.py:1628-1694`, from the root. A root that is a leaf has no `r` (`KeyError`). -/
noncomputable def codeLength (T : PTree.Tree α) (t0 : ℤ) (E : Option (List ℤ)) (D : Details α) : Option ℝ :=
  match T with
  | .leaf _ => none
  | .node r p ch => do
    let T := PTree.Tree.node r p ch
    let oStar := occsStar T [] t0
    let za ← leafKeyFromRep T [] (r - 1)
    let Ed := match E with | some E => getEDict oStar E | none => []
    let ecza ← match E with | some _ => getCCorr T za Ed | none => some 0
    let clE : ℤ := match E with | some E => codeLengthE E | none => 0
    let clEv ← codeLengthEvents D T
    let clRs ← codeLengthR D T
    let clP0 ← codeLengthPTop D r ecza
    let clT0 ← codeLengthT0 D r p ecza
    let clPDs ← if hasNestedPDs ch then do
        let eczz ← match E with
          | some _ => ((rightKeys T true).mapM (fun k => getCCorr T k Ed)).bind npMinZ
          | none => some 0
        let tmaxRep : ℤ := D.tEnd - t0 - p * ((r : ℤ) - 1) - eczz
        let mx ← npMaxZ (oStar.map (fun o => o.1))
        let tza ← (oStar.map (fun o => (o.2.2, o.1))).lookup za
        let x ← codeLengthPDsF ch (mx - tza)
        let y ← log2 (((if tmaxRep < 0 ∧ E.isNone then 0 else tmaxRep) + 1 : ℤ) : ℝ)
        pure (x + y)
      else some 0
    return clEv + clRs + clP0 + clT0 + clPDs + (clE : ℝ)

end Verif.Cost
