import Verif.Slim.Model

/-!
# Printing the progress of SLIM (C172)

Source: `/repo/skmine/callbacks.py:133-147`, attached to the methods `evaluate` and `generate_candidates` of a SLIM object (`/repo/skmine/callbacks.py:33-52,124-130`; see `Verif/Hooks`), which `SLIM.fit` calls at `/repo/skmine/itemsets/slim.py:174,181`. A line with two sizes
is represented by their sum. Sizes are exact numbers, and the bound `0.01` is exactly a hundredth.
-/

set_option autoImplicit false

namespace Verif.Slim

variable {α κ : Type*} [LinearOrder α] [LinearOrder κ]

/-- A printed line. -/
inductive Line where
  | candidates (n : ℕ)
  | sizes (total : ℚ)
  deriving DecidableEq

/-- `_print_positive_gain`, `/repo/skmine/callbacks.py:133-138`: `cur` is the size of the miner, `new` the one that `evaluate` returned. -/
def printGain (cur new : ℚ) : List Line := if 1 / 100 < cur - new then [.sizes new] else []

/-- The inner loop of `fit`, `/repo/skmine/itemsets/slim.py:179-185`, and what is printed in it: a line is printed before the table is updated. -/
def tryPrint (P : Params α κ ℚ) (choose : Finset α → Chooser α) (st : State α ℚ) : List (Finset α × ℚ) → List Line × Option (Except Err (Option (State α ℚ)))
  | [] => ([], some (.ok none))
  | c :: cs =>
    match evaluate P (choose c.1) st c.1 with
    | none => ([], none)
    | some (.error e) => ([], some (.error e))
    | some (.ok (size, usages)) =>
      if size < st.size then (printGain st.size size, some (.ok (some (updateUsages P st usages size))))
      else
        let r := tryPrint P choose st cs
        (printGain st.size size ++ r.1, r.2)

/-- The main loop of `fit`, `/repo/skmine/itemsets/slim.py:172-191`, and what is printed, `_print_candidates_size` being `/repo/skmine/callbacks.py:141-142`. -/
def loopPrint (P : Params α κ ℚ) (O : Oracle α) : ℕ → ℕ → State α ℚ → List Line × Option (Except Err (State α ℚ))
  | 0, _, _ => ([], none)
  | n + 1, i, st =>
    let tab := O.enum i st.ct
    let cands := (generateCandidates (O.gain i tab) tab (st.ct.map Prod.fst).toFinset).1
    let t := tryPrint P (O.choose i) st cands
    let out := .candidates cands.length :: t.1
    match t.2 with
    | none => (out, none)
    | some (.error e) => (out, some (.error e))
    | some (.ok none) => (out, some (.ok st))
    | some (.ok (some st2)) =>
      if O.timeUp i then (out, some (.ok st2))
      else
        let r := loopPrint P O n (i + 1) st2
        (out ++ r.1, r.2)

/-- `mdl_prints(slim); slim.fit(D)`: the printed lines and the result. -/
def fitPrint (P : Params α κ ℚ) (O : Oracle α) (items : List α) (fuel : ℕ) (D : List (List α)) : List Line × Option (Except Err (State α ℚ)) :=
  loopPrint P O fuel 0 (prefit P items D)

end Verif.Slim
