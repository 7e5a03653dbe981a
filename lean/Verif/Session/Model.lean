import Verif.Export.Model

/-!
# A periodic miner used again and again (C107)

Source: `/repo/skmine/periodic/cycles.py:84-480`.

The attributes of a `PeriodicPatternMiner` are modelled one by one, an attribute that does not exist yet is `none`. Event names are strings (JSON keeps them, and the patterns of a file are read back as they were, C37), so a file is
modelled by what `import_patterns` reads from it. What the methods compute from the attributes they read is a parameter (`Lib`): C36, C60, C104 and C106 are about these functions.
-/

set_option autoImplicit false

namespace Verif.Session

open Verif.Export Verif.DataSeq Verif.Miner Verif.TimeScale

variable {ε R : Type} [LinearOrder ε]

/-- What the methods compute from the attributes they read: the mining, the chronological sort of the rows of the table, the table (`dE_sum` is the flag), the rows of `reconstruct` and of `get_residuals`, the drawing of a pattern. A
scale is the pair of `n_zeros_` and `div_nb_sec_`; it is `none` without automatic time scale. -/
structure Lib (ε R : Type) where
  mine : Bool → Built ε → List PatRec
  sort : List (ℕ × PatRec) → List (ℕ × PatRec)
  table : Bool → Bool → Bool → ℕ × ℕ → Built ε → List (ℕ × PatRec) → R
  rows : Bool → Option (ℕ × ℕ) → Built ε → List PatRec → List ℕ → Except String R
  rest : Bool → Option (ℕ × ℕ) → Built ε → List PatRec → List ℕ → Except String R
  drawing : Bool → Option (ℕ × ℕ) → Built ε → PatRec → Except String R

/-- A file of patterns, `/repo/skmine/periodic/cycles.py:252-258`. -/
structure PFile (ε : Type) where
  dates : Bool
  nZeros : ℕ
  div : ℕ
  groups : List (ε × List ℤ)
  pats : List PatRec

/-- The parameters and the attributes of a miner: `is_datetime_`, `n_zeros_`, `div_nb_sec_`, `alpha_groups_`, `data_details_`, `miners_`, `cycles`. The last has its rows in order, with their labels. -/
structure Obj (ε : Type) where
  auto : Bool
  complex : Bool
  dates : Option Bool
  nZeros : Option ℕ
  div : Option ℕ
  groups : Option (List (ε × List ℤ))
  data : Option (Built ε)
  pats : Option (List PatRec)
  cycles : Option (List (ℕ × PatRec))

/-- A new miner, `/repo/skmine/periodic/cycles.py:84-86`. -/
def Obj.new (auto complex : Bool) : Obj ε := ⟨auto, complex, none, none, none, none, none, none, none⟩

/-- `alpha_groups_`, `/repo/skmine/periodic/cycles.py:123-154`, with or without automatic time scale. -/
def groupsOf (auto : Bool) (rows : List (ℤ × ε)) : List (ε × List ℤ) := if auto then alphaGroups rows else group (dedupRows rows)

/-- `fit`, `/repo/skmine/periodic/cycles.py:97-161`: `ValueError` for less than two rows (lines 112-113). The attributes are set in the order of the code; `n_zeros_` is only set with automatic time scale (lines 136-146), `cycles` never. -/
def Obj.fit (L : Lib ε R) (o : Obj ε) (dates : Bool) (rows : List (ℤ × ε)) : Obj ε × Option String :=
  if rows.length < 2 then (o, some "ValueError")
  else
    let a := autoscale ((dedupRows rows).map Prod.fst)
    let o1 : Obj ε := { o with dates := some dates, nZeros := if o.auto then some a.2.1 else o.nZeros, div := some (if o.auto then a.2.2.1 else 1), groups := some (groupsOf o.auto rows) }
    match ofDict (groupsOf o.auto rows) with
    | .ok d => ({ o1 with data := some d, pats := some (L.mine o.complex d) }, none)
    | .error e => (o1, some e)

/-- `import_patterns`, `/repo/skmine/periodic/cycles.py:264-292`: `alpha_groups_` and `cycles` are not set. -/
def Obj.importFile (o : Obj ε) (f : PFile ε) : Obj ε × Option String :=
  let o1 : Obj ε := { o with nZeros := some f.nZeros, div := some f.div, dates := some f.dates }
  match ofDict f.groups with
  | .ok d => ({ o1 with data := some d, pats := some f.pats }, none)
  | .error e => (o1, some e)

/-- The rows of the table with their labels. -/
def labelled (ps : List PatRec) : List (ℕ × PatRec) := ps.zipIdx.map Prod.swap

/-- `transform`, `/repo/skmine/periodic/cycles.py:201-232`: without patterns it returns an empty table (`none`) before `cycles` is set. `n_zeros_` is read even without automatic time scale (line 203). -/
def Obj.transform (L : Lib ε R) (o : Obj ε) (sums chrono : Bool) : Obj ε × Except String (Option R) :=
  match o.pats with
  | none => (o, .error "NotFittedError")
  | some ps =>
    match o.nZeros, o.div, o.dates, o.data with
    | some z, some v, some b, some d =>
      if ps = [] then (o, .ok none)
      else
        let c := if chrono then L.sort (labelled ps) else labelled ps
        ({ o with cycles := some c }, .ok (some (L.table sums o.auto b (z, v) d c)))
    | _, _, _, _ => (o, .error "AttributeError")

/-- `export_patterns`, `/repo/skmine/periodic/cycles.py:234-262`: the patterns come from `cycles`, the data from `alpha_groups_`. -/
def Obj.exportFile (L : Lib ε R) (o : Obj ε) : Obj ε × Except String (PFile ε) :=
  match o.transform L true true with
  | (o1, .error e) => (o1, .error e)
  | (o1, .ok _) =>
    match o1.cycles, o1.groups, o1.dates, o1.nZeros, o1.div with
    | some c, some g, some b, some z, some v => (o1, .ok ⟨b, z, v, g, c.map Prod.snd⟩)
    | _, _, _, _, _ => (o1, .error "AttributeError")

/-- The scale read by `reconstruct`, `get_residuals` and `draw_pattern`, `/repo/skmine/periodic/cycles.py:342-343, 399-400, 458-475`: `none` in the outer option is an `AttributeError`. -/
def Obj.scale (o : Obj ε) : Option (Option (ℕ × ℕ)) :=
  if o.auto then
    match o.nZeros, o.div with
    | some z, some v => some (some (z, v))
    | _, _ => none
  else some none

/-- `reconstruct`, `/repo/skmine/periodic/cycles.py:323-365`, and `get_residuals`, lines 388-427, with `f` the computation. -/
def Obj.ask (f : Bool → Option (ℕ × ℕ) → Built ε → List PatRec → List ℕ → Except String R) (o : Obj ε) (ids : List ℕ) : Except String R :=
  match o.data, o.pats, o.dates, o.scale with
  | some d, some ps, some b, some s => f b s d ps ids
  | _, _, _, _ => .error "AttributeError"

/-- `draw_pattern`, `/repo/skmine/periodic/cycles.py:429-480`. -/
def Obj.draw (L : Lib ε R) (o : Obj ε) (i : ℕ) : Except String R :=
  match o.cycles with
  | none => .error "AttributeError"
  | some c =>
    match c.lookup i with
    | none => .error "KeyError"
    | some P =>
      match o.data, o.dates, o.scale with
      | some d, some b, some s => L.drawing b s d P
      | _, _, _ => .error "AttributeError"

/-- The calls of a session; `setParams` is `set_params(auto_time_scale=…, complex=…)`. -/
inductive Op (ε : Type)
  | setParams (auto complex : Bool)
  | fit (dates : Bool) (rows : List (ℤ × ε))
  | importFile (f : PFile ε)
  | transform (sums chrono : Bool)
  | exportFile
  | reconstruct (ids : List ℕ)
  | residuals (ids : List ℕ)
  | draw (i : ℕ)

/-- What a call returns: the miner, a table, rows or a drawing, an empty table, a file, or an exception. -/
inductive Ans (ε R : Type)
  | self
  | value (x : R)
  | empty
  | file (f : PFile ε)
  | raised (e : String)

/-- The answer of a call that changes the miner. -/
def Ans.ofErr : Option String → Ans ε R
  | none => .self
  | some e => .raised e

/-- The answer of a call with a value. -/
def Ans.ofVal : Except String R → Ans ε R
  | .ok x => .value x
  | .error e => .raised e

/-- The answer of `transform`. -/
def Ans.ofTable : Except String (Option R) → Ans ε R
  | .ok (some x) => .value x
  | .ok none => .empty
  | .error e => .raised e

/-- The answer of `export_patterns`. -/
def Ans.ofFile : Except String (PFile ε) → Ans ε R
  | .ok f => .file f
  | .error e => .raised e

/-- One call, `/repo/skmine/periodic/cycles.py:97-480`. -/
def step (L : Lib ε R) (o : Obj ε) : Op ε → Obj ε × Ans ε R
  | .setParams a c => ({ o with auto := a, complex := c }, .self)
  | .fit b rows => ((o.fit L b rows).1, .ofErr (o.fit L b rows).2)
  | .importFile f => ((o.importFile f).1, .ofErr (o.importFile f).2)
  | .transform s c => ((o.transform L s c).1, .ofTable (o.transform L s c).2)
  | .exportFile => ((o.exportFile L).1, .ofFile (o.exportFile L).2)
  | .reconstruct ids => (o, .ofVal (o.ask L.rows ids))
  | .residuals ids => (o, .ofVal (o.ask L.rest ids))
  | .draw i => (o, .ofVal (o.draw L i))

/-- The miner after some calls. -/
def run (L : Lib ε R) (o : Obj ε) (ops : List (Op ε)) : Obj ε := ops.foldl (fun o op => (step L o op).1) o

/-- What a call returns after some calls. -/
def answer (L : Lib ε R) (o : Obj ε) (ops : List (Op ε)) (q : Op ε) : Ans ε R := (step L (run L o ops) q).2

end Verif.Session
