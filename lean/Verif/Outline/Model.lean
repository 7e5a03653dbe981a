import Verif.Nodes.Spec
import Verif.Util.Text

/-!
# The outline of a pattern (C153) and the names of its blocks (C154)

Source: `/repo/skmine/periodic/pattern.py:850-884` and `/repo/skmine/periodic/class_patterns.py:370-394`. Texts are lists of characters.
-/

set_option autoImplicit false

namespace Verif.Outline

open Verif.Nodes Verif.Text

variable {α : Type}

/-- `"\t" * level`, `/repo/skmine/periodic/pattern.py:870, 874, 876, 882, 884`. -/
def tabs (level : ℕ) : List Char := List.replicate level '\t'

/-- `Pattern.getTreeStr`, `/repo/skmine/periodic/pattern.py:850-884`: `ev` prints an event, `mapEv` is `none` or prints `map_ev.get(event, event)`. The recursive call passes no `map_ev`. The first argument bounds the depth of the
recursion; `none` is an exception (`KeyError` for an inner node without `r`, or a recursion without end). -/
def treeStr (ns : NodeDict α) (ev : α → List Char) : ℕ → ℕ → ℕ → Option (α → List Char) → Option (List Char)
  | 0, _, _, _ => none
  | f + 1, nid, level, mapEv =>
    match ns.lookup nid with
    | none => some (tabs level ++ ['(', ')', '\n'])
    | some (.inner _ none _) => none
    | some (.inner _ (some (r, p)) ch) =>
      (ch.mapM (fun nn => (treeStr ns ev f nn.1 (level + 1) none).map (fun s => tabs (level + 1) ++ '|' :: ' ' :: 'd' :: '=' :: (showInt nn.2 ++ '\n' :: s)))).map (fun parts =>
        tabs level ++ '|' :: '_' :: ' ' :: '[' :: (showNat nid ++ ']' :: ' ' :: 'r' :: '=' :: (showNat r ++ ' ' :: 'p' :: '=' :: (showInt p ++ '\n' :: parts.flatten))))
    | some (.leaf _ e) => some (tabs level ++ '|' :: '_' :: ' ' :: '[' :: (showNat nid ++ ']' :: ' ' :: ((mapEv.getD ev) e ++ ['\n'])))

/-- `Pattern.getTreeStr` on a dictionary of nodes: no path is longer than the dictionary. -/
def getTreeStr (ns : NodeDict α) (ev : α → List Char) (nid level : ℕ) (mapEv : Option (α → List Char)) : Option (List Char) := treeStr ns ev ns.length nid level mapEv

/-- `l_to_br`, `/repo/skmine/periodic/class_patterns.py:370-389`. The elements of the list are the lists read by `key_to_l`; `none` is the `IndexError` on shorter ones. -/
def lToBr (l : List (List ℤ)) : Option (List Char) :=
  match l.mapM (fun pf => pf[0]?), l.mapM (fun pf => pf[1]?) with
  | some a, some b => some ('B' :: (join ',' (a.map (fun x => showInt (x + 1))) ++ '<' :: (join ',' (b.map (fun x => showInt (x + 1))) ++ ['>'])))
  | _, _ => none

end Verif.Outline
