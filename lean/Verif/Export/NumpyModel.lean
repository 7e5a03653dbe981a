import Verif.Export.Model

/-!
# Numpy integers in exported patterns (C145)

Source: `/repo/skmine/periodic/pattern_collection.py:6-44,215-219`.

The values of `Export/Model.lean` with two types of integers: `int` and `np.int64`. `json.dumps` raises `TypeError` when it meets one of the latter.
-/

set_option autoImplicit false

namespace Verif.Export

open Verif.Nodes

/-- A Python value, with numpy integers. -/
inductive NVal
  | none
  | int (n : ℤ)
  | np (n : ℤ)
  | list (l : List NVal)
  | tup (l : List NVal)
  | dict (d : List (Key × NVal))

/-- A dictionary. -/
abbrev NDict := List (Key × NVal)

/-- `d[k] = v`. -/
def NDict.set : NDict → Key → NVal → NDict
  | [], k, v => [(k, v)]
  | (k', v') :: d, k, v => if k' = k then (k, v) :: d else (k', v') :: NDict.set d k v

/-- `int(v) if isinstance(v, np.int64) else v`, `/repo/skmine/periodic/pattern_collection.py:11,20`. -/
def toInt : NVal → NVal
  | .np n => .int n
  | v => v

/-- The items of a list that is a value of the dictionary: `_replace_tuple_in_list` and `_replace_list_in_list` convert the items of tuples and lists, `/repo/skmine/periodic/pattern_collection.py:6-21,33-37`. The other items are left alone. -/
def changeItem : NVal → NVal
  | .tup l => .tup (l.map toInt)
  | .list l => .list (l.map toInt)
  | v => v

mutual
/-- A value of the dictionary, `/repo/skmine/periodic/pattern_collection.py:29-43`. The calls on the list and on a tuple (lines 38 and 40) do nothing: the function only looks into dictionaries. -/
def changeV : NVal → NVal
  | .dict d => .dict (changeD d)
  | .list l => .list (l.map changeItem)
  | .tup l => .tup l
  | .np n => .int n
  | v => v
/-- `_change_int64_toint` on a dictionary, `/repo/skmine/periodic/pattern_collection.py:24-44`. The dictionary is changed in place. -/
def changeD : NDict → NDict
  | [] => []
  | (k, v) :: d => (k, changeV v) :: changeD d
end

/-- An integer of a pattern: its number and whether it is a numpy integer. -/
structure Num where
  val : ℤ
  numpy : Bool

/-- The value. -/
def Num.v (x : Num) : NVal := if x.numpy then .np x.val else .int x.val

/-- `pattern_json_tree`, `/repo/skmine/periodic/pattern_collection.py:215-219`, from the dictionary of the nodes, the next number of a node, the first time and the corrections. -/
def exportTreeN (nodes : NDict) (nextId : ℕ) (t0 : Num) (E : List Num) : NDict :=
  changeD (((nodes.set (.str "next_id".toList) (.int nextId)).set (.str "t0".toList) (.int t0.val)).set (.str "E".toList) (.list (E.map (fun e => .int e.val))))

end Verif.Export
