import Verif.Session.Model

/-!
# What a session should answer (C107)
-/

set_option autoImplicit false

namespace Verif.Session

open Verif.Export Verif.DataSeq

variable {ε R : Type} [LinearOrder ε]

/-- The calls that only ask something: everything but `set_params`, `fit` and `import_patterns`. -/
def Op.isQuery : Op ε → Prop
  | .setParams _ _ => False
  | .fit _ _ => False
  | .importFile _ => False
  | _ => True

/-- The calls that give the miner its patterns: a fit of at least two rows, the import of a file whose data can be read. -/
def Op.Loads : Op ε → Prop
  | .fit _ rows => 2 ≤ rows.length
  | .importFile f => ∃ d, ofDict f.groups = .ok d
  | _ => False

/-- `fit`. -/
def Op.isFit : Op ε → Prop
  | .fit _ _ => True
  | _ => False

/-- `import_patterns`. -/
def Op.isImport : Op ε → Prop
  | .importFile _ => True
  | _ => False

/-- The calls that make the table: `transform` and `export_patterns`. -/
def Op.makesTable : Op ε → Prop
  | .transform _ _ => True
  | .exportFile => True
  | _ => False

/-- The parameters after some calls: those of the last `set_params`. -/
def paramsAfter : Bool × Bool → List (Op ε) → Bool × Bool
  | p, [] => p
  | _, .setParams a c :: t => paramsAfter (a, c) t
  | p, _ :: t => paramsAfter p t

/-- The sort keeps the rows. -/
def Lib.SortsRows (L : Lib ε R) : Prop := ∀ l, (L.sort l).Perm l

end Verif.Session
