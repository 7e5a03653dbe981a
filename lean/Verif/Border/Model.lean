import Verif.LCM.Model
import Mathlib.Data.List.Sublists

/-!
# Model of MBD-LLBorder

Source: `/repo/skmine/emerging/mbdldorber.py`.
-/

set_option autoImplicit false

namespace Verif.Border

variable {α : Type*} [LinearOrder α]

/-- The exceptions raised. -/
inductive Err where
  | indexError
  | valueError
  | assertionError
  deriving DecidableEq

/-- The loop of `border_diff`, `/repo/skmine/emerging/mbdldorber.py:43-45`. `ord` is the iteration order over a set (unspecified in
Python, the theorems quantify over it). -/
def borderLoop (ord : Finset α → List α) (U : Finset α) : List (Finset α) → List (Finset α) → List (Finset α)
  | L2, [] => L2
  | L2, s :: S =>
    borderLoop ord U (Filter.filterMinimal ((ord (U \ s)).flatMap (fun x => L2.map (fun X => X ∪ {x})))) S

/-- `border_diff`, `/repo/skmine/emerging/mbdldorber.py:16-47`. Only the left part is returned, the right part is `U` itself.
`S[0]` raises `IndexError` on an empty `S`. -/
def borderDiff (ord : Finset α → List α) (U : Finset α) : List (Finset α) → Except Err (List (Finset α))
  | [] => .error .indexError
  | s :: S => .ok (borderLoop ord U ((ord (U \ s)).map (fun x => {x})) S)

/-- `mbdllborder`, `/repo/skmine/emerging/mbdldorber.py:50-73`. -/
def mbdllborder (ord : Finset α → List α) (isets1 : List (Finset α)) :
    List (Finset α) → Except Err (List (List (Finset α) × Finset α))
  | [] => .ok []
  | iset :: isets2 =>
    if isets1.any (fun e => iset ⊂ e) then mbdllborder ord isets1 isets2
    else do
      let diff ← borderDiff ord iset (Filter.filterMaximal (isets1.map (fun e => iset ∩ e)))
      let rest ← mbdllborder ord isets1 isets2
      pure ((diff, iset) :: rest)

/-- `min_size or min(map(len, left))`, `/repo/skmine/emerging/mbdldorber.py:93`: a zero `min_size` is replaced by the smallest length
in `left` (`ValueError` if `left` is empty). -/
def effectiveMinSize (left : List (Finset α)) (minSize : ℕ) : Except Err ℕ :=
  if minSize ≠ 0 then .ok minSize else
    match (left.map Finset.card).min? with
    | none => .error .valueError
    | some k => .ok k

/-- `borders_to_patterns`, `/repo/skmine/emerging/mbdldorber.py:76-102`. A pattern is a tuple of distinct items, modelled as a set;
`itertools.combinations` lists the subsets of a given size, their order within one size is not modelled. -/
def bordersToPatterns (ord : Finset α → List α) (left : List (Finset α)) (right : Finset α) (minSize : ℕ) :
    Except Err (List (Finset α)) :=
  match effectiveMinSize left minSize with
  | .error e => .error e
  | .ok minSize =>
    .ok ((((List.range right.card).filter (fun k => minSize ≤ k)).reverse).flatMap (fun size =>
      (((ord right).sublistsLen size).map List.toFinset).filter (fun pat => ¬ left.any (fun e => pat ⊆ e))))

/-- `MBDLLBorder.fit`, `/repo/skmine/emerging/mbdldorber.py:156-191`. `D1`, `D2` are the transactions of the first and second label (in
increasing order of label), `minSupp` and `growth` the two parameters as rationals. LCMMax is called with a float, so
its check requires the product to be at most 1. The products are exact here. -/
def fit (ord : Finset α → List α) (minSupp growth : ℚ) (D1 D2 : List (List α)) :
    Except Err (List (List (Finset α) × Finset α)) :=
  if growth * minSupp < 0 ∨ 1 < growth * minSupp then .error .valueError
  else
    let rb1 := (LCM.lcmMax (minSupp * D1.length) (-1) true ord D1).map (fun r => r.itemset.toFinset)
    let rb2 := (LCM.lcmMax (growth * minSupp * D2.length) (-1) true ord D2).map (fun r => r.itemset.toFinset)
    mbdllborder ord rb1 rb2

/-- `[D[y == labels[0]], D[y == labels[1]]]`, `/repo/skmine/emerging/mbdldorber.py:176-180`; the assertion fails unless there are exactly
two labels. -/
def split {β : Type*} [LinearOrder β] (D : List (List α)) (y : List β) : Except Err (List (List α) × List (List α)) :=
  match y.dedup.insertionSort (· ≤ ·) with
  | [l0, l1] => .ok (((D.zip y).filter (fun p => p.2 = l0)).map Prod.fst,
      ((D.zip y).filter (fun p => p.2 = l1)).map Prod.fst)
  | _ => .error .assertionError

/-- `MBDLLBorder.discover`, `/repo/skmine/emerging/mbdldorber.py:193-211`: concatenation over the borders. -/
def discover (ord : Finset α → List α) (borders : List (List (Finset α) × Finset α)) (minSize : ℕ) :
    Except Err (List (Finset α)) :=
  match borders with
  | [] => .ok []
  | (L, R) :: bs => do
    let a ← bordersToPatterns ord L R minSize
    let rest ← discover ord bs minSize
    pure (a ++ rest)

end Verif.Border
