import Mathlib.Data.List.Sort
import Mathlib.Order.Defs.LinearOrder
import Mathlib.Data.Nat.Notation

/-!
# The search of GraphMDL: model

Source: `/repo/skmine/graph/graphmdl/graph_mdl.py:36-253` and `code_table.py:48-80, 333-344`.
-/

set_option autoImplicit false

namespace Verif.Graph

/-- A row of the code table as the search sees it: the candidate it was made from, its identity and its `arrival_number`. Rows are compared by identity. -/
structure SRow (C : Type) where
  cand : C
  uid : ℕ
  arrival : ℕ
  deriving DecidableEq

/-- The object between statements: rows of the table, `_description_length`, `_already_test`, `_pruning_rows`, the usage of every row after its last cover, `_old_usage`, the number of clock readings, whether `_timeout` is set, and (not in
the code) the description lengths accepted so far, newest first. -/
structure SState (C K : Type) where
  rows : List (SRow C)
  dlen : K
  tested : List C
  prune : List (SRow C)
  usage : SRow C → ℕ
  old : List (SRow C × ℕ)
  ticks : ℕ
  timeout : Bool
  log : List K

/-- What the search calls: number of labels and support of the pattern of a candidate (`code_table.py:342-343`), total description length after covering with given rows, usage of a row after such a cover, the sorted candidates
generated in a state, equality of candidates. The cover does not depend on earlier covers (`cover_history`). -/
structure SEnv (C K : Type) where
  size : C → ℕ × ℕ
  dl : List (SRow C) → K
  usage : List (SRow C) → SRow C → ℕ
  gen : SState C K → List C
  same : C → C → Bool

variable {C K : Type} [DecidableEq C] [LinearOrder K]

/-- `a` may precede `b`: `_order_rows` with `reverse=True`, `code_table.py:333-344`: more labels first, then larger support, then smaller arrival number. -/
def rowLE (env : SEnv C K) (a b : SRow C) : Prop :=
  (env.size b.cand).1 < (env.size a.cand).1 ∨ ((env.size b.cand).1 = (env.size a.cand).1 ∧
    ((env.size b.cand).2 < (env.size a.cand).2 ∨ ((env.size b.cand).2 = (env.size a.cand).2 ∧ a.arrival ≤ b.arrival)))

instance (env : SEnv C K) : DecidableRel (rowLE env) := fun _ _ => by unfold rowLE; infer_instance

/-- The stable sort of the rows, `code_table.py:64, 75`. -/
def sortRows (env : SEnv C K) (rows : List (SRow C)) : List (SRow C) := rows.insertionSort (rowLE env)

/-- `add_row`, `code_table.py:48-64`, for a row whose arrival number is set. -/
def addRow (env : SEnv C K) (rows : List (SRow C)) (r : SRow C) : List (SRow C) := sortRows env (rows ++ [r])

/-- `remove_row`, `code_table.py:66-75`. -/
def removeRow (env : SEnv C K) (rows : List (SRow C)) (r : SRow C) : Except String (List (SRow C)) :=
  if r ∈ rows then .ok (sortRows env (rows.erase r)) else .error "ValueError"

/-- The effect of `cover` on the usages: the rows of the table get a new usage. -/
def coverUsage (env : SEnv C K) (s : SState C K) : SState C K :=
  { s with usage := fun r => if r ∈ s.rows then env.usage s.rows r else s.usage r }

/-- `_compute_old_usage`, `graph_mdl.py:213-219`. -/
def oldUsage (s : SState C K) : SState C K := { s with old := s.rows.map (fun r => (r, s.usage r)) }

/-- `_compute_pruning_candidates`, `graph_mdl.py:221-229`. -/
def pruneCands (s : SState C K) : SState C K :=
  { s with prune := s.prune ++ s.rows.filter (fun r => match s.old.lookup r with
      | some u => decide (s.usage r < u)
      | none => false) }

/-- The start of `_pruning`, `graph_mdl.py:239-240`. -/
def pruneStart (s : SState C K) : SState C K :=
  { oldUsage s with prune := s.prune.insertionSort (fun a b => s.usage a ≤ s.usage b) }

/-- The loop of `_pruning`, `graph_mdl.py:241-251`, with the recursive call; the loop visits the positions of a list that the body changes. The first argument bounds the number of steps, `none` when it is too small. -/
def pruneLoop (env : SEnv C K) : ℕ → ℕ → SState C K → Option (Except String (SState C K))
  | 0, _, _ => none
  | n + 1, i, s => match s.prune[i]? with
    | none => some (.ok s)
    | some r => match removeRow env s.rows r with
      | .error e => some (.error e)
      | .ok rows =>
        if env.dl rows < s.dlen then
          let s2 := coverUsage env { s with rows := rows }
          let s3 := pruneCands { s2 with dlen := env.dl rows, prune := s2.prune.erase r, log := env.dl rows :: s.log }
          match pruneLoop env n 0 (pruneStart s3) with
          | some (.ok s4) => pruneLoop env n (i + 1) s4
          | x => x
        else
          let s2 := coverUsage env { s with rows := rows }
          pruneLoop env n (i + 1) { s2 with rows := addRow env rows r }

/-- `_graph_mdl_end`, `graph_mdl.py:182-197`. -/
def searchEnd (env : SEnv C K) (s : SState C K) : SState C K := { coverUsage env s with dlen := env.dl s.rows }

/-- An identity for a new row: different from every row still referenced. -/
def newUid (s : SState C K) : ℕ := ((s.rows ++ s.prune ++ s.old.map Prod.fst).map SRow.uid).foldr Nat.max 0 + 1

/-- The loop over the candidates, `graph_mdl.py:116-155`. `late k` tells whether the `k`-th reading of the clock is past the timeout. The boolean result is `stop`. -/
def testAll (env : SEnv C K) (late : ℕ → Bool) (fuel : ℕ) (cands : List C) : List C → SState C K → Option (Except String (SState C K × Bool))
  | [], s => some (.ok (s, false))
  | c :: t, s =>
    if s.tested.any (fun d => env.same d c) then some (.error "TypeError")
    else if s.timeout && late s.ticks then some (.ok (searchEnd env { s with ticks := s.ticks + 1 }, false))
    else
      let s1 := { oldUsage s with ticks := s.ticks + 1 }
      let row : SRow C := ⟨c, newUid s1, s1.rows.length + 1⟩
      let rows := addRow env s1.rows row
      let s2 := { coverUsage env { s1 with rows := rows } with tested := s1.tested ++ [c] }
      if env.dl rows < s.dlen then
        match pruneLoop env fuel 0 (pruneStart (pruneCands { s2 with dlen := env.dl rows, log := env.dl rows :: s.log })) with
        | none => none
        | some (.error e) => some (.error e)
        | some (.ok s3) => some (.ok (s3, false))
      else match removeRow env rows row with
        | .error e => some (.error e)
        | .ok rows' =>
          if s.dlen < env.dl rows ∧ cands.findIdx (fun d => env.same d c) = cands.length - 1 then some (.ok (searchEnd env { s2 with rows := rows' }, true))
          else testAll env late fuel cands t { s2 with rows := rows' }

/-- `_anytime_graph_mdl_with_timeout`, `graph_mdl.py:91-160`; the first check may also fail for a timeout below 0. -/
def search (env : SEnv C K) (late : ℕ → Bool) : ℕ → SState C K → Option (Except String (SState C K))
  | 0, _ => none
  | n + 1, s =>
    if s.timeout && late s.ticks then some (.ok s)
    else
      let s1 := { s with ticks := s.ticks + 1 }
      let cands := env.gen s1
      if s1.timeout && late s1.ticks then some (.ok (searchEnd env s1))
      else if cands = [] then some (.ok (searchEnd env s1))
      else match testAll env late n cands cands { s1 with ticks := s1.ticks + 1 } with
        | none => none
        | some (.error e) => some (.error e)
        | some (.ok (s2, true)) => some (.ok s2)
        | some (.ok (s2, false)) => search env late n s2

/-- A new object, `graph_mdl.py:36-47`; the description length 0.0 is any value. -/
def SState.new (k : K) : SState C K := ⟨[], k, [], [], fun _ => 0, [], 0, false, []⟩

/-- `_init_graph_mdl` and the first lines of `fit`, `graph_mdl.py:49-65, 82-87`: the table is empty, `_pruning_rows` is not reset and a timeout set once stays. The usages of rows no longer referenced and `_old_usage`, whose keys
are patterns of the last fit, cannot be read again. -/
def searchInit (env : SEnv C K) (timeout : Bool) (s : SState C K) : SState C K :=
  { rows := [], dlen := env.dl [], tested := [], prune := s.prune, usage := fun r => if r ∈ s.prune then s.usage r else 0, old := [], ticks := 0, timeout := s.timeout || timeout, log := [] }

/-- `fit`, `graph_mdl.py:67-89`. -/
def searchFit (env : SEnv C K) (late : ℕ → Bool) (fuel : ℕ) (timeout : Bool) (s : SState C K) : Option (Except String (SState C K)) :=
  search env late fuel (searchInit env timeout s)

end Verif.Graph
