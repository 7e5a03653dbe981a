import Verif.Nodes.Model
import Verif.Miner.Model
import Verif.Util.Text

/-!
# Export and import of patterns (C37)

Source: `/repo/skmine/periodic/cycles.py:234-292,564-580` and `/repo/skmine/periodic/pattern_collection.py:199-233`.

`json.loads(json.dumps(v))` is modelled by its effect on values (`json`): the keys of dictionaries become strings and tuples become lists; the text itself and its encoding are not modelled. Numbers are integers.
-/

set_option autoImplicit false

namespace Verif.Export

open Verif.Nodes Verif.Text

/-- Strings. -/
abbrev Str := List Char

/-- A key of a Python dictionary. -/
inductive Key
  | int (n : ℤ)
  | str (s : Str)
  deriving DecidableEq

/-- A Python value. -/
inductive Val
  | none
  | int (n : ℤ)
  | list (l : List Val)
  | tup (l : List Val)
  | dict (d : List (Key × Val))

/-- A dictionary. -/
abbrev Dict := List (Key × Val)

/-- `d[k] = v`. -/
def Dict.set : Dict → Key → Val → Dict
  | [], k, v => [(k, v)]
  | (k', v') :: d, k, v => if k' = k then (k, v) :: d else (k', v') :: Dict.set d k v

/-- A key as text, as written by `json.dumps`. -/
def keyText : Key → Str
  | .int n => showInt n
  | .str s => s

mutual
/-- The value read back by `json.load` from what `json.dumps` writes. -/
def json : Val → Val
  | .none => .none
  | .int n => .int n
  | .list l => .list (jsonL l)
  | .tup l => .list (jsonL l)
  | .dict d => .dict (jsonD [] d)
/-- The elements of a list. -/
def jsonL : List Val → List Val
  | [] => []
  | v :: l => json v :: jsonL l
/-- The entries of a dictionary, added one by one: a later entry with the same text as key replaces the earlier one. -/
def jsonD : Dict → List (Key × Val) → Dict
  | acc, [] => acc
  | acc, (k, v) :: d => jsonD (acc.set (.str (keyText k)) (json v)) d
end

/-- `try: key = int(key)`. -/
def intKey : Key → Key
  | .int n => .int n
  | .str s => match parseInt s with
    | some n => .int n
    | Option.none => .str s

mutual
/-- `_iterdict_str_to_int_keys` on the value of a key, `/repo/skmine/periodic/cycles.py:570-573`. -/
def iterV : Val → Val
  | .list l => .list (iterL l)
  | .dict d => .dict (iterD [] d)
  | v => v
/-- The items of a list: only dictionaries are converted. -/
def iterL : List Val → List Val
  | [] => []
  | .dict d :: l => .dict (iterD [] d) :: iterL l
  | v :: l => v :: iterL l
/-- `_iterdict_str_to_int_keys`, `/repo/skmine/periodic/cycles.py:564-580`. -/
def iterD : Dict → List (Key × Val) → Dict
  | acc, [] => acc
  | acc, (k, v) :: d => iterD (acc.set (intKey k) (iterV v)) d
end

/-! ### Patterns -/

/-- A pattern of the collection: nodes, next node number, first time and corrections. -/
structure PatRec where
  nodes : NodeDict ℕ
  nextId : ℕ
  t0 : ℤ
  E : List ℤ

/-- `None` or a node number. -/
def optVal : Option ℕ → Val
  | some n => .int n
  | Option.none => .none

/-- A node as the Python dictionary it is. -/
def encodeNode : Node ℕ → Val
  | .leaf parent ev => .dict [(.str "event".toList, .int ev), (.str "parent".toList, optVal parent)]
  | .inner parent Option.none ch =>
    .dict [(.str "children".toList, .list (ch.map (fun c => .tup [.int c.1, .int c.2]))), (.str "parent".toList, optVal parent)]
  | .inner parent (some (r, p)) ch =>
    .dict [(.str "p".toList, .int p), (.str "r".toList, .int r), (.str "children".toList, .list (ch.map (fun c => .tup [.int c.1, .int c.2]))), (.str "parent".toList, optVal parent)]

/-- The dictionary of nodes. -/
def encodeNodes (ns : NodeDict ℕ) : Dict := ns.map (fun x => (.int x.1, encodeNode x.2))

/-- `pattern_json_tree`, `/repo/skmine/periodic/pattern_collection.py:215-219`. -/
def exportTree (P : PatRec) : Dict :=
  (((encodeNodes P.nodes).set (.str "next_id".toList) (.int P.nextId)).set (.str "t0".toList) (.int P.t0)).set (.str "E".toList) (.list (P.E.map .int))

/-- A value read as an optional node number. -/
def readOpt : Val → Option (Option ℕ)
  | .none => some Option.none
  | .int n => if 0 ≤ n then some (some n.toNat) else Option.none
  | _ => Option.none

/-- A value read as a child: a tuple or a list of two numbers. -/
def readChild : Val → Option (ℕ × ℤ)
  | .list [.int c, .int d] => if 0 ≤ c then some (c.toNat, d) else Option.none
  | .tup [.int c, .int d] => if 0 ≤ c then some (c.toNat, d) else Option.none
  | _ => Option.none

/-- A natural number. -/
def readNat : Val → Option ℕ
  | .int n => if 0 ≤ n then some n.toNat else Option.none
  | _ => Option.none

/-- A node as seen by the methods of `Pattern`, `/repo/skmine/periodic/pattern.py:346-372`: a leaf when there is no key `children`. -/
def readNode : Val → Option (Node ℕ)
  | .dict d =>
    match d.lookup (.str "children".toList), (d.lookup (.str "parent".toList)).bind readOpt with
    | some (.list l), some parent =>
      (l.mapM readChild).bind (fun ch =>
        match d.lookup (.str "r".toList), d.lookup (.str "p".toList) with
        | Option.none, Option.none => some (.inner parent Option.none ch)
        | some r, some (.int p) => (readNat r).map (fun r => .inner parent (some (r, p)) ch)
        | _, _ => Option.none)
    | Option.none, some parent => ((d.lookup (.str "event".toList)).bind readNat).map (fun ev => .leaf parent ev)
    | _, _ => Option.none
  | _ => Option.none

/-- A dictionary of nodes, whose keys must be numbers. -/
def readNodes (d : Dict) : Option (NodeDict ℕ) :=
  d.mapM (fun kv => match kv.1 with
    | .int n => if 0 ≤ n then (readNode kv.2).map (fun x => (n.toNat, x)) else Option.none
    | .str _ => Option.none)

/-- `d.pop(k)`: `KeyError` when missing. -/
def Dict.pop : Dict → Key → Option (Val × Dict)
  | [], _ => Option.none
  | (k', v) :: d, k => if k' = k then some (v, d) else (Dict.pop d k).map (fun r => (r.1, (k', v) :: r.2))

/-- A value read as a list of numbers. -/
def readInts : Val → Option (List ℤ)
  | .list l => l.mapM (fun v => match v with | .int n => some n | _ => Option.none)
  | _ => Option.none

/-- The import of one pattern, `/repo/skmine/periodic/cycles.py:283-289`, read back as a pattern. -/
def importPattern (d : Dict) : Option PatRec :=
  (d.pop (.str "next_id".toList)).bind (fun a => (a.2.pop (.str "t0".toList)).bind (fun b => (b.2.pop (.str "E".toList)).bind (fun c =>
    match readNodes (iterD [] c.2), readNat a.1, b.1, readInts c.1 with
    | some ns, some nx, .int t0, some E => some ⟨ns, nx, t0, E⟩
    | _, _, _, _ => Option.none)))

/-! ### Files -/

/-- The content of the file: the time scale, the times of each event name and the patterns. -/
structure File (σ : Type) where
  nZeros : ℕ
  divNbSec : ℕ
  groups : List (σ × List ℤ)
  patterns : List Val

variable {ε σ : Type} [LinearOrder ε] [LinearOrder σ]

open Verif.DataSeq Verif.TimeScale Verif.Miner

/-- `alpha_groups_`, `/repo/skmine/periodic/cycles.py:138,154`, with the automatic time scale (see `Verif.Miner.fitData` for the order of the keys). -/
def alphaGroups (rows : List (ℤ × ε)) : List (ε × List ℤ) :=
  group ((autoscale ((dedupRows rows).map Prod.fst)).1.zip ((dedupRows rows).map Prod.snd))

/-- `export_patterns` followed by the reading of the file, `/repo/skmine/periodic/cycles.py:234-262`, on a miner fitted once: `AttributeError` without time scale (`n_zeros_` is read by `transform`) and without patterns (`cycles`
is not set by `transform`). `name` is the text given by JSON to an event name; `srt` is the chronological sort of the patterns. -/
def exportFile (name : ε → σ) (srt : List PatRec → List PatRec) (auto : Bool) (m : Fitted ε) (groups : List (ε × List ℤ)) (ps : List PatRec) : Except String (File σ) :=
  if !auto then .error "AttributeError: n_zeros_"
  else if ps = [] then .error "AttributeError: cycles"
  else .ok ⟨m.nZeros, m.divNbSec, groups.map (fun g => (name g.1, g.2)), (srt ps).map (fun P => json (.dict (exportTree P)))⟩

/-- One entry of the list of patterns in the file, `/repo/skmine/periodic/cycles.py:276-290`. -/
def importVal : Val → Option PatRec
  | .dict d => importPattern d
  | _ => Option.none

/-- `import_patterns`, `/repo/skmine/periodic/cycles.py:264-292`. -/
def importFile (f : File σ) : Except String (Fitted σ × List PatRec) :=
  match ofDict f.groups, f.patterns.mapM importVal with
  | .ok d, some ps => .ok (⟨d, f.nZeros, f.divNbSec⟩, ps)
  | .error e, _ => .error e
  | _, Option.none => .error "KeyError"

/-- A pattern as the tree it denotes, with its first time and corrections. -/
def PatRec.patt (fuel : ℕ) (P : PatRec) : Option Patt := (treeOf fuel P.nodes 0).map (fun T => (T, P.t0, P.E))

end Verif.Export
