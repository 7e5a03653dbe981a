import Verif.Concat.Model
import Verif.Util.Text

/-!
# Keys of patterns and candidates (C64)

Source: `/repo/skmine/periodic/pattern.py` and `/repo/skmine/periodic/candidate.py`.

Events are the integer codes given by the data sequence; periods and distances are integers.
-/

set_option autoImplicit false

namespace Verif.PattKey

open Verif.PTree Verif.Concat Verif.Text

/-- `"[%s,%s]" % (r, p)`, `/repo/skmine/periodic/pattern.py:953,1008`. -/
def rpKey (r : ℕ) (p : ℤ) : List Char := '[' :: (showNat r ++ ',' :: (showInt p ++ [']']))

mutual
/-- `Pattern.pattKey`, `/repo/skmine/periodic/pattern.py:935-961`. -/
def pattKey : PTree.Tree ℤ → List Char
  | .leaf ev => showInt ev
  | .node r p ch => rpKey r p ++ '(' :: (pattKeyF true ch ++ [')'])
/-- The loop over the children, `/repo/skmine/periodic/pattern.py:955-958`; the flag is `ni == 0`. -/
def pattKeyF : Bool → Forest ℤ → List Char
  | _, .nil => []
  | first, .cons d t rest => (if first then [] else '-' :: (showInt d ++ ['-'])) ++ pattKey t ++ pattKeyF false rest
end

/-- The loop over the children, `/repo/skmine/periodic/pattern.py:983-986`; the flag is `ni == 0`. -/
def minorF : Bool → Forest ℤ → List Char
  | _, .nil => []
  | first, .cons d t rest => (if first then [] else ['-', '['] ++ (showInt d ++ [']', '-'])) ++ pattKey t ++ minorF false rest

/-- `Pattern.pattMinorKey` at the root, `/repo/skmine/periodic/pattern.py:963-989`. -/
def pattMinorKey : PTree.Tree ℤ → List Char
  | .leaf _ => []
  | .node _ _ ch => minorF true ch

/-- `Pattern.pattMajorKey` at the root, `/repo/skmine/periodic/pattern.py:991-1010`. -/
def pattMajorKey : PTree.Tree ℤ → List Char
  | .leaf _ => ['[', ']']
  | .node r p _ => rpKey r p

/-- A candidate is a simple cycle (a `dict` with the event and the period) or holds a `Pattern`, `/repo/skmine/periodic/candidate.py:32-43,90-91`. -/
inductive AnyCand
  | cycle (alpha : ℤ) (p : ℤ) (O : List ℤ) (E : List ℤ)
  | pattern (c : Cand ℤ)

/-- The same candidate as a tree, `Candidate.preparePatternSimple`, `/repo/skmine/periodic/candidate.py:73-80`. -/
def AnyCand.toCand : AnyCand → Cand ℤ
  | .cycle a p O E => ⟨O.length, p, .cons 0 (.leaf a) .nil, O, E⟩
  | .pattern c => c

/-- `Candidate.getMinorKey`, `/repo/skmine/periodic/candidate.py:174-178`: an integer for a simple cycle, a string for a pattern. -/
def AnyCand.minorKey : AnyCand → ℤ ⊕ List Char
  | .cycle a _ _ _ => .inl a
  | .pattern c => .inr (pattMinorKey c.tree)

/-- `Candidate.getMajorKey`, `/repo/skmine/periodic/candidate.py:180-185`; `none` for the `IndexError` of `getT0`, `/repo/skmine/periodic/candidate.py:111-112`. -/
def AnyCand.majorKey : AnyCand → Option (ℤ × List Char)
  | .cycle _ p O _ => O.head?.map (fun t0 => (t0, rpKey O.length p))
  | .pattern c => c.O.head?.map (fun t0 => (t0, pattMajorKey c.tree))

end Verif.PattKey
