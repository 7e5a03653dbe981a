import Mathlib.Data.Nat.Notation

/-!
# Checks made on callbacks: model

Source: `/repo/skmine/callbacks.py:8-20, 83-99`. A callback is what the check sees of it: whether it can be called, and the text of its source if there is one (`inspect.getsource` raises a TypeError for builtins; an OSError, for
functions whose file cannot be read, is not modelled). Characters matched by `\w` and `\s` are given by two functions.
-/

set_option autoImplicit false

namespace Verif.Hooks

/-- `\w` and `\s`. -/
structure Classes where
  word : Char → Bool
  space : Char → Bool

/-- `\s*=`, the rest of the expression (`.*` matches anything). -/
def eqAfterSpaces (k : Classes) (t : List Char) : Bool := (t.dropWhile k.space).head? == some '='

/-- What follows `self` in the expression, `callbacks.py:17`: an optional attribute, then spaces and `=`. -/
def afterSelf (k : Classes) (t : List Char) : Bool :=
  eqAfterSpaces k t || match t with
    | '.' :: r => !(r.takeWhile k.word).isEmpty && eqAfterSpaces k (r.dropWhile k.word)
    | _ => false

/-- A match at the beginning of a text. -/
def matchHere (k : Classes) : List Char → Bool
  | 's' :: 'e' :: 'l' :: 'f' :: t => afterSelf k t
  | _ => false

/-- `any(re.finditer(p, source))`, `callbacks.py:17-18`: a match somewhere. -/
def search (k : Classes) : List Char → Bool
  | [] => matchHere k []
  | c :: s => matchHere k (c :: s) || search k s

/-- A value given as callback. -/
structure Value where
  ident : ℕ
  callable : Bool
  source : Option (List Char)

/-- `has_self_assigment`, `callbacks.py:8-20`. -/
def hasSelfAssignment (k : Classes) (v : Value) : Bool := match v.source with
  | some s => search k s
  | none => false

/-- A dict of callbacks, in insertion order. -/
abbrev Dict := List (List Char × Value)

/-- `CallBacks._check`, `callbacks.py:87-93`. -/
def check (k : Classes) : Dict → Option String
  | [] => none
  | (_, v) :: d => if !v.callable then some "TypeError" else if hasSelfAssignment k v then some "ValueError" else check k d

/-- `CallBacks.__init__`, `callbacks.py:83-85`. -/
def create (k : Classes) (kwargs : Dict) : Except String Dict := match check k kwargs with
  | some e => .error e
  | none => .ok kwargs

/-- The methods of a dict that change it. Only the first two are redefined. -/
inductive DictOp
  | setItem (n : List Char) (v : Value)
  | update (d : Dict)
  | setDefault (n : List Char) (v : Value)
  | ior (d : Dict)
  | pop (n : List Char)
  | clear

/-- `d[n] = v` of a dict. -/
def put (d : Dict) (n : List Char) (v : Value) : Dict := if n ∈ d.map Prod.fst then d.map (fun x => if x.1 = n then (n, v) else x) else d ++ [(n, v)]

/-- The effect of such a method, `callbacks.py:95-99` for the first two; the others are those of `dict`. -/
def apply (d : Dict) : DictOp → Dict × Option String
  | .setItem _ _ => (d, some "NotImplementedError")
  | .update _ => (d, some "NotImplementedError")
  | .setDefault n v => (if n ∈ d.map Prod.fst then d else put d n v, none)
  | .ior e => (e.foldl (fun d x => put d x.1 x.2) d, none)
  | .pop n => if n ∈ d.map Prod.fst then (d.filter (fun x => decide (x.1 ≠ n)), none) else (d, some "KeyError")
  | .clear => ([], none)

end Verif.Hooks
