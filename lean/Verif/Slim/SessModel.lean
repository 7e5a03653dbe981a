import Verif.Slim.Support
import Mathlib.Data.List.Lex
import Mathlib.Data.Prod.Lex
import Mathlib.Data.Int.Notation

/-!
# SLIM objects used again and again (C111)

Source: `/repo/skmine/itemsets/slim.py`. The order of the code table is computed by `get_support`, whose results are stored by
`lru_cache` and never invalidated (see `Slim/Support.lean`). Here the order is no longer a parameter: it is computed through the stored
results, which survive from one fit to the next.

Simplifications: nothing is evicted from the cache (it holds 1024 results); an itemset is iterated in an order `iter` that depends on the
set only.
-/

set_option autoImplicit false

namespace Verif.Slim

variable {α V : Type*} [LinearOrder α] [LinearOrder V]

/-- The type of the sort keys: pairs and tuples compare lexicographically. -/
abbrev CoverKey (α : Type*) := ℤ ×ₗ (ℤ ×ₗ List α)

/-- The constructor arguments `items` (`[]` for `None`) and `pruning`, `/repo/skmine/itemsets/slim.py:136-139`, and what the model leaves open:
the iteration order of frozensets and the sizes. -/
structure Settings (α V : Type*) where
  items : List α
  pruning : Bool
  iter : Finset α → List α
  total : Table α → V
  initTotal : Sct α → V

/-- `len` of a support. The callers have excluded the errors. -/
def supportSize : Except Err (Finset ℕ) → ℕ
  | .ok s => s.card
  | .error _ => 0

/-- `_standard_cover_order`, `/repo/skmine/itemsets/slim.py:606-612`: `(-len(itemset), -len(self.get_support(*itemset)), tuple(itemset))`. -/
def coverKey (iter : Finset α → List α) (sct : Sct α) (m : Memo α) (X : Finset α) : CoverKey α :=
  toLex (-(X.card : ℤ), toLex (-(supportSize (getSupport sct (iter X).reverse m).1 : ℤ), iter X))

/-- The parameters of the functions of `Slim/Model.lean` for a standard code table and stored results. -/
def Settings.params (S : Settings α V) (sct : Sct α) (m : Memo α) : Params α (CoverKey α) V :=
  ⟨coverKey S.iter sct m, S.total, S.initTotal, S.pruning⟩

/-- The stored results after calls of `get_support` with the tuples `qs`. -/
def ask (sct : Sct α) (m : Memo α) (qs : List (List α)) : Memo α :=
  qs.foldl (fun m q => (getSupport sct q.reverse m).2) m

/-- A SLIM object: the stored results that belong to it, and its fitted attributes. -/
structure SObj (α V : Type*) where
  memo : Memo α
  st : Option (State α V)

/-- A new object. -/
def SObj.new : SObj α V := ⟨[], none⟩

/-- The calls. `asked` are the further tuples passed to `get_support` during the call (by the sorted dictionary). -/
inductive SOp (α : Type*) where
  | prefit (D : List (List α)) (asked : List (List α))
  | fit (O : Oracle α) (fuel : ℕ) (D : List (List α)) (asked : List (List α))
  | update (choose : Chooser α) (c : Finset α) (asked : List (List α))
  | query (q : List α)

/-- The tuples passed to `get_support` when `prefit` sorts the standard code table, `/repo/skmine/itemsets/slim.py:660-663`. -/
def singles (sct : Sct α) : List (List α) := sct.map (fun e => [e.1])

/-- One call: `prefit` (`/repo/skmine/itemsets/slim.py:614-703`), `fit` (`147-194`; `st` is `none` when the fuel runs out), `update(candidate)`
(`402-439`; an object without code table raises `AttributeError` and a failing call leaves the code table), `get_support` (`588-604`). -/
def sstep (S : Settings α V) (o : SObj α V) : SOp α → SObj α V
  | .prefit D asked =>
    let sct := sctOf S.items D
    ⟨ask sct o.memo (singles sct ++ asked), some (prefit (S.params sct o.memo) S.items D)⟩
  | .fit O fuel D asked =>
    let sct := sctOf S.items D
    ⟨ask sct o.memo (singles sct ++ asked), (fit (S.params sct o.memo) O S.items fuel D).bind Except.toOption⟩
  | .update choose c asked =>
    match o.st with
    | none => o
    | some st =>
      let memo := ask st.sct o.memo (S.iter c :: asked)
      match update (S.params st.sct o.memo) choose st c with
      | some (.ok st') => ⟨memo, some st'⟩
      | _ => ⟨memo, some st⟩
  | .query q =>
    match o.st with
    | none => o
    | some st => ⟨ask st.sct o.memo [q], some st⟩

/-- The object after a list of calls. -/
def srun (S : Settings α V) (o : SObj α V) (ops : List (SOp α)) : SObj α V := ops.foldl (sstep S) o

end Verif.Slim
