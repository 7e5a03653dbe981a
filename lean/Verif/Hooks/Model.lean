import Mathlib.Data.Finset.Dedup

/-!
# Model of callbacks and estimator parameters (C29, C30)

Source: `/repo/skmine/callbacks.py` and `/repo/skmine/base.py`.

Python objects are an abstract type `O` (`Objects`). A callback is what a call of it does: it may reject the number of arguments (a
`TypeError` raised before its body runs), run and return, or run and raise. Everything a callback sees is recorded in a log,
one entry per execution of its body. Not modelled: keyword arguments of methods (part of the argument type), the source
inspection of `has_self_assigment` (lines 8-20; see `CheckModel.lean`), effects of callbacks on the miner.
-/

set_option autoImplicit false

namespace Verif.Hooks

/-- The Python object model used by `post`: iteration, being a tuple, building a tuple. -/
structure Objects (O : Type*) where
  self : O
  items : O → Option (List O)
  isTuple : O → Bool
  tuple : List O → O

/-- Exceptions: `TypeError`, the `ValueError` for an unknown method, or another one. -/
inductive Exc | typeError | valueError | other (n : ℕ)
  deriving DecidableEq

/-- What one call of a callback does. -/
inductive Outcome
  | returned
  | badArity
  | raised (e : Exc)

/-- A callback: identity, whether a parameter is named `self`, number of parameters, behaviour on positional arguments.
`/repo/skmine/callbacks.py:23-37`. -/
structure Callback (O : Type*) where
  ident : ℕ
  hasSelf : Bool
  nParams : ℕ
  run : List O → Outcome

/-- Executions of callback bodies, with their arguments. -/
abbrev Log (O : Type*) := List (ℕ × List O)

variable {O I N : Type*}

/-- One call of a callback: the executions it adds to the log, and the exception it raises. -/
def invoke (cb : Callback O) (args : List O) : Log O × Option Exc :=
  match cb.run args with
  | .returned => ([(cb.ident, args)], none)
  | .badArity => ([], some .typeError)
  | .raised e => ([(cb.ident, args)], some e)

/-- `try: callback(*args) except TypeError: callback(packed)`, `/repo/skmine/callbacks.py:46-49`. -/
def tryCall (cb : Callback O) (args : List O) (packed : O) : Log O × Option Exc :=
  match invoke cb args with
  | (l, some .typeError) => (l ++ (invoke cb [packed]).1, (invoke cb [packed]).2)
  | r => r

/-- The part of the wrapper after the wrapped function returned `res`, `/repo/skmine/callbacks.py:41-49`. The concatenation of line 43
raises when `res` is not a tuple; the unpacking of line 47 raises when `res` is not iterable. -/
def after (ob : Objects O) (cb : Callback O) (res : O) : Log O × Option Exc :=
  if cb.hasSelf then
    if cb.nParams = 2 then tryCall cb [ob.self, res] (ob.tuple [ob.self, res])
    else if 1 < cb.nParams then
      match ob.isTuple res, ob.items res with
      | true, some l => tryCall cb (ob.self :: l) (ob.tuple (ob.self :: l))
      | _, _ => ([], some .typeError)
    else tryCall cb [ob.self] (ob.tuple [ob.self])
  else
    match ob.items res with
    | some l => tryCall cb l res
    | none => invoke cb [res]

/-- A method: from its arguments, the callback executions it triggers and its value or exception. -/
abbrev Method (I O : Type*) := I → Log O × Except Exc O

/-- `post`, `/repo/skmine/callbacks.py:33-52`. -/
def post (ob : Objects O) (f : Method I O) (cb : Callback O) : Method I O := fun i =>
  match f i with
  | (l, .error e) => (l, .error e)
  | (l, .ok res) =>
    match after ob cb res with
    | (l', some e) => (l ++ l', .error e)
    | (l', none) => (l ++ l', .ok res)

/-- The methods of a miner, by name. -/
abbrev Miner (N I O : Type*) := N → Option (Method I O)

variable [DecidableEq N]

/-- `setattr(miner, name, new_meth)` with `new_meth = post(miner, name, callback)`, `/repo/skmine/callbacks.py:127-130`. -/
def attachOne (ob : Objects O) (m : Miner N I O) (nc : N × Callback O) : Miner N I O :=
  fun n => if n = nc.1 then (m n).map (fun f => post ob f nc.2) else m n

/-- `CallBacks.__call__`, `/repo/skmine/callbacks.py:101-130`: the miner afterwards and the exception. `cbs` is the dict in insertion order. -/
def attach (ob : Objects O) (m : Miner N I O) (cbs : List (N × Callback O)) : Miner N I O × Option Exc :=
  if cbs.all (fun nc => (m nc.1).isSome) then (cbs.foldl (attachOne ob) m, none)
  else (m, some .valueError)

/-- A history of attachments; failed ones are ignored. -/
def attachMany (ob : Objects O) (m : Miner N I O) (hist : List (List (N × Callback O))) : Miner N I O :=
  hist.foldl (fun m cbs => (attach ob m cbs).1) m

/-! ### Parameters -/

variable {V : Type*}

/-- Exceptions of the parameter interface. -/
inductive PErr | attribute | value
  deriving DecidableEq

/-- Attributes of an estimator. -/
abbrev Attrs (N V : Type*) := N → Option V

/-- `get_params`, `/repo/skmine/base.py:72-85`; `names` is `_get_param_names()` (lines 52-70). -/
def getParams (names : List N) (a : Attrs N V) : Except PErr (List (N × V)) :=
  match names with
  | [] => .ok []
  | n :: ns =>
    match a n with
    | none => .error .attribute
    | some v =>
      match getParams ns a with
      | .error e => .error e
      | .ok out => .ok ((n, v) :: out)

/-- Loop of `set_params`, `/repo/skmine/base.py:110-115`: the attributes afterwards and the exception. -/
def setLoop (valid : List N) : List (N × V) → Attrs N V → Attrs N V × Option PErr
  | [], a => (a, none)
  | (k, v) :: ps, a => if k ∈ valid then setLoop valid ps (Function.update a k (some v)) else (a, some .value)

/-- `set_params`, `/repo/skmine/base.py:87-117`. `ps` are the keyword arguments in order. -/
def setParams (names : List N) (a : Attrs N V) (ps : List (N × V)) : Attrs N V × Option PErr :=
  if ps = [] then (a, none)
  else
    match getParams names a with
    | .error e => (a, some e)
    | .ok valid => setLoop (valid.map Prod.fst) ps a

end Verif.Hooks
