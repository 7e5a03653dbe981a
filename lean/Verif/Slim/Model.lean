import Verif.Slim.Spec
import Verif.Util.SortSet
import Mathlib.Data.Rat.Defs
import Mathlib.Algebra.Order.Ring.Rat
import Mathlib.Data.List.Sort
import Mathlib.Data.List.Dedup

/-!
# Model of SLIM

Source: `/repo/skmine/itemsets/slim.py`.

Sizes (`data_size`, `model_size`) are floats that the code only compares through their sum. The model carries the sum as one
value of an arbitrary linear order `V`, computed by an arbitrary function of the code table (`Params.total`). The test
`diff > 0` of the code is `new < old`.
-/

set_option autoImplicit false

namespace Verif.Slim

variable {α κ V : Type*} [LinearOrder α] [LinearOrder κ] [LinearOrder V]

/-- A code table: itemsets with the transactions they cover (`dict[frozenset, Bitmap]`). -/
abbrev Table (α : Type*) := List (Finset α × Finset ℕ)

/-- A standard code table: items with the transactions containing them. -/
abbrev Sct (α : Type*) := List (α × Finset ℕ)

/-- The exceptions raised. -/
inductive Err where
  | keyError
  | indexError
  | valueError
  deriving DecidableEq

/-- `d[k] = v` on a `dict`: the position of an existing key is kept, a new key goes last. -/
def dictSet {K W : Type*} [DecidableEq K] (d : List (K × W)) (k : K) (v : W) : List (K × W) :=
  if k ∈ d.map Prod.fst then d.map (fun e => if e.1 = k then (k, v) else e) else d ++ [(k, v)]

/-- `d.update(d2)` on a `dict`. -/
def dictUpdate {K W : Type*} [DecidableEq K] (d d2 : List (K × W)) : List (K × W) :=
  d2.foldl (fun d e => dictSet d e.1 e.2) d

/-- `del d[k]` on a `dict` containing `k`. -/
def dictDel {K W : Type*} [DecidableEq K] (d : List (K × W)) (k : K) : List (K × W) :=
  d.filter (fun e => e.1 ≠ k)

/-- Lookup in a table; the empty set for a missing key (callers only use present keys). -/
def lookup {K : Type*} [DecidableEq K] (d : List (K × Finset ℕ)) (k : K) : Finset ℕ :=
  match d.find? (fun e => e.1 = k) with
  | some e => e.2
  | none => ∅

/-- `res[e].add(idx)` on a `defaultdict(Bitmap)`, `/repo/skmine/itemsets/slim.py:36`. -/
def addTid (res : Sct α) (e : α) (idx : ℕ) : Sct α := dictSet res e (insert idx (lookup res e))

/-- The loop of `_to_vertical` over one transaction, `/repo/skmine/itemsets/slim.py:34-36`. -/
def addTransaction (stop : Finset α) (res : Sct α) (tr : List α) (idx : ℕ) : Sct α :=
  tr.foldl (fun res e => if e ∈ stop then res else addTid res e idx) res

/-- `_to_vertical` on transactions, `/repo/skmine/itemsets/slim.py:28-39` (without `return_len`). -/
def toVertical (stop : Finset α) (D : List (List α)) : Sct α :=
  D.zipIdx.foldl (fun res p => addTransaction stop res p.1 p.2) []

/-- `reduce(Bitmap.intersection, [sct[i] for i in iset])`, the empty bitmap for the empty itemset,
`/repo/skmine/itemsets/slim.py:81-82`. -/
def interTids (s : α → Finset ℕ) (X : Finset α) : Finset ℕ :=
  match sortSet X with
  | [] => ∅
  | x :: xs => xs.foldl (fun u y => u ∩ s y) (s x)

/-- The loop of `cover`, `/repo/skmine/itemsets/slim.py:80-85`, on a table `s` given as a function. `covers` is a `dict`: covering a
repeated itemset overwrites its first usage. -/
def coverLoop (s : α → Finset ℕ) (covers : Table α) : List (Finset α) → Table α
  | [] => covers
  | X :: L =>
    let usage := interTids s X
    coverLoop (fun k => if k ∈ X then s k \ usage else s k) (dictSet covers X usage) L

/-- `cover`, `/repo/skmine/itemsets/slim.py:64-86`. `KeyError` when an itemset holds an unknown item. The in-place change of `sct` is not
returned: every caller passes a fresh copy. -/
def cover (sct : Sct α) (isets : List (Finset α)) : Except Err (Table α) :=
  if isets.all (fun X => decide (∀ x ∈ X, x ∈ sct.map Prod.fst)) then .ok (coverLoop (lookup sct) [] isets)
  else .error .keyError

/-- What the model leaves open: the sort key of code tables (`_standard_cover_order`,
`/repo/skmine/itemsets/slim.py:606-612`, it involves the iteration order of frozensets), the sizes, and the `pruning` option. -/
structure Params (α κ V : Type*) where
  /-- `_standard_cover_order` -/
  key : Finset α → κ
  /-- the sum of the two values computed by `_compute_sizes`, `/repo/skmine/itemsets/slim.py:722-732` -/
  total : Table α → V
  /-- the sum of the sizes set by `prefit`, `/repo/skmine/itemsets/slim.py:665-701` -/
  initTotal : Sct α → V
  /-- the constructor argument `pruning` -/
  pruning : Bool

/-- `_compute_sizes`, `/repo/skmine/itemsets/slim.py:705-732`. Only the used itemsets count; `zip(*())` fails
to unpack (`ValueError`) when there is none. -/
def computeSizes (P : Params α κ V) (tab : Table α) : Except Err V :=
  if tab.all (fun e => decide (e.2 = ∅)) then .error .valueError else .ok (P.total (tab.filter (fun e => e.2 ≠ ∅)))

/-- First loop of `_prune`, `/repo/skmine/itemsets/slim.py:749-758`: drop the unused old itemsets and collect those whose usage
decreased. `old` is `self.codetable_`. The lookup `CTc[iset]` never fails since the keys of `old` are keys of `CTc`. -/
def pruneInit : Table α → Table α → Finset (Finset α) → Table α × Finset (Finset α)
  | [], ctc, ps => (ctc, ps)
  | (iset, usage) :: old, ctc, ps =>
    if 1 < iset.card then
      if lookup ctc iset = ∅ then pruneInit old (dictDel ctc iset) ps
      else if (lookup ctc iset).card < usage.card then pruneInit old ctc (insert iset ps)
      else pruneInit old ctc ps
    else pruneInit old ctc ps

/-- Chooses a member of the prune set at the n-th turn: `min(prune_set, key=...)` with unspecified set order. -/
abbrev Chooser (α : Type*) := ℕ → Finset (Finset α) → Table α → Finset α

/-- `choose` behaves as `min(prune_set, key=lambda e: len(CTc[e]))` for some iteration order. -/
def ChooserOk (choose : Chooser α) : Prop :=
  ∀ n ps tab, ps.Nonempty → choose n ps tab ∈ ps ∧ ∀ c ∈ ps, (lookup tab (choose n ps tab)).card ≤ (lookup tab c).card

/-- The loop of `_prune`, `/repo/skmine/itemsets/slim.py:760-780`. `none` when the fuel runs out. -/
def pruneLoop (P : Params α κ V) (sct : Sct α) (choose : Chooser α) :
    ℕ → Table α → Finset (Finset α) → V → Option (Except Err (Table α × V))
  | 0, ctc, ps, size => if ps = ∅ then some (.ok (ctc, size)) else none
  | n + 1, ctc, ps, size =>
    if ps = ∅ then some (.ok (ctc, size)) else
    let cand := choose n ps ctc
    let ps1 := ps.erase cand
    match cover sct ((ctc.map Prod.fst).erase cand) with
    | .error e => some (.error e)
    | .ok ctp =>
      match computeSizes P ctp with
      | .error e => some (.error e)
      | .ok size2 =>
        if size2 < size then
          let decreased := ((ctp.filter (fun e => 1 < e.1.card ∧ e.2.card < (lookup ctc e.1).card)).map Prod.fst).toFinset
          pruneLoop P sct choose n (dictDel (dictUpdate ctc ctp) cand) (ps1 ∪ decreased) size2
        else pruneLoop P sct choose n ctc ps1 size

/-- `_prune`, `/repo/skmine/itemsets/slim.py:734-780`. The fuel is shown to be enough (`prune_terminates`). -/
def prune (P : Params α κ V) (sct : Sct α) (choose : Chooser α) (old ctc : Table α) (size : V) :
    Option (Except Err (Table α × V)) :=
  let r := pruneInit old ctc ∅
  pruneLoop P sct choose ((r.1.length + 1) * (r.1.length + 1)) r.1 r.2 size

/-- The fitted attributes `standard_codetable_`, `codetable_` (in the order of its keys) and
`data_size_ + model_size_`. -/
structure State (α V : Type*) where
  sct : Sct α
  ct : Table α
  size : V

/-- `SortedDict.bisect` on a table sorted by `key`: the number of keys not above that of `c`. -/
def bisect (P : Params α κ V) (ct : Table α) (c : Finset α) : ℕ :=
  (ct.filter (fun e => P.key e.1 ≤ P.key c)).length

/-- `evaluate`, `/repo/skmine/itemsets/slim.py:374-400`. The empty candidate raises `IndexError` and one with an unknown item `KeyError`
(both in `get_support`, called by `bisect`). -/
def evaluate (P : Params α κ V) (choose : Chooser α) (st : State α V) (cand : Finset α) :
    Option (Except Err (V × Table α)) :=
  if cand = ∅ then some (.error .indexError) else
  match cover st.sct ((st.ct.map Prod.fst).insertIdx (bisect P st.ct cand) cand) with
  | .error e => some (.error e)
  | .ok ctc =>
    match computeSizes P ctc with
    | .error e => some (.error e)
    | .ok size =>
      if P.pruning then
        match prune P st.sct choose st.ct ctc size with
        | none => none
        | some (.error e) => some (.error e)
        | some (.ok (ctc2, size2)) => some (.ok (size2, ctc2))
      else some (.ok (size, ctc))

/-- The order of a `SortedDict` built on `_standard_cover_order`. -/
def sortTable (P : Params α κ V) (tab : Table α) : Table α :=
  tab.insertionSort (fun a b => P.key a.1 ≤ P.key b.1)

/-- `update(usages=..., data_size=..., model_size=...)`, `/repo/skmine/itemsets/slim.py:432-439`. -/
def updateUsages (P : Params α κ V) (st : State α V) (usages : Table α) (size : V) : State α V :=
  let toDrop := (st.ct.map Prod.fst).filter (fun c => c ∉ usages.map Prod.fst ∧ 1 < c.card)
  { sct := st.sct
    ct := sortTable P ((dictUpdate st.ct usages).filter (fun e => e.1 ∉ toDrop))
    size := size }

/-- `update(candidate)`, `/repo/skmine/itemsets/slim.py:402-439`. -/
def update (P : Params α κ V) (choose : Chooser α) (st : State α V) (cand : Finset α) :
    Option (Except Err (State α V)) :=
  match evaluate P choose st cand with
  | none => none
  | some (.error e) => some (.error e)
  | some (.ok (size, usages)) => some (.ok (updateUsages P st usages size))

/-- `prefit` on a vertical representation, `/repo/skmine/itemsets/slim.py:639-703`. `items` is the constructor argument (`[]` for `None`);
its repetitions are ignored. -/
def prefitVertical (P : Params α κ V) (items : List α) (vert : Sct α) : State α V :=
  let sct := vert.insertionSort (fun a b => b.2.card ≤ a.2.card)
  let sct2 := sct ++ (items.dedup.filter (fun i => i ∉ sct.map Prod.fst)).map (fun i => (i, ∅))
  { sct := sct2
    ct := sortTable P (sct2.map (fun e => ({e.1}, e.2)))
    size := P.initTotal sct2 }

/-- `prefit` on transactions, `/repo/skmine/itemsets/slim.py:614-703`. -/
def prefit (P : Params α κ V) (items : List α) (D : List (List α)) : State α V :=
  prefitVertical P items (toVertical ∅ D)

/-- The inner loop of `generate_candidates`, `/repo/skmine/itemsets/slim.py:306-369`, for one `x` and the following entries `Y`.
`gain` is the estimated gain (float arithmetic, left open). Returns the candidates and the updated stack. -/
def genInner (gain : (Finset α × Finset ℕ) → (Finset α × Finset ℕ) → ℚ) (x : Finset α × Finset ℕ) :
    Table α → Finset (Finset α) → List (Finset α × ℚ) × Finset (Finset α)
  | [], stack => ([], stack)
  | y :: Y, stack =>
    if x.1 ∪ y.1 ∈ stack then genInner gain x Y stack
    else if y.2 = ∅ then genInner gain x Y stack
    else if y.2 ∩ x.2 = ∅ then genInner gain x Y stack
    else
      let r := genInner gain x Y (insert (x.1 ∪ y.1) stack)
      if 0 < gain x y then ((x.1 ∪ y.1, gain x y) :: r.1, r.2) else r

/-- The outer loop of `generate_candidates`, `/repo/skmine/itemsets/slim.py:299-304`. -/
def genOuter (gain : (Finset α × Finset ℕ) → (Finset α × Finset ℕ) → ℚ) :
    Table α → Finset (Finset α) → List (Finset α × ℚ) × Finset (Finset α)
  | [], stack => ([], stack)
  | x :: Y, stack =>
    if x.2 = ∅ then genOuter gain Y stack
    else
      let r := genInner gain x Y stack
      let r2 := genOuter gain Y r.2
      (r.1 ++ r2.1, r2.2)

/-- `generate_candidates`, `/repo/skmine/itemsets/slim.py:277-372`. `tab` is the code table in the order of
`SortedDict(self.codetable_.items())`, which is some permutation of the code table because frozensets are only partially ordered.
Returns the candidates and the updated stack. -/
def generateCandidates (gain : (Finset α × Finset ℕ) → (Finset α × Finset ℕ) → ℚ) (tab : Table α)
    (stack : Finset (Finset α)) : List (Finset α × ℚ) × Finset (Finset α) :=
  let r := genOuter gain tab stack
  (r.1.insertionSort (fun a b => b.2 ≤ a.2), r.2)

/-- What the environment decides during `fit`, for each turn of the main loop. -/
structure Oracle (α : Type*) where
  /-- the order of `SortedDict(self.codetable_.items())` -/
  enum : ℕ → Table α → Table α
  /-- the estimated gains, given the table -/
  gain : ℕ → Table α → (Finset α × Finset ℕ) → (Finset α × Finset ℕ) → ℚ
  /-- the iteration orders of the prune sets, per evaluated candidate -/
  choose : ℕ → Finset α → Chooser α
  /-- whether the time limit is found exceeded at the end of the turn -/
  timeUp : ℕ → Bool

/-- The requirements on the environment. -/
def OracleOk (O : Oracle α) : Prop :=
  (∀ i tab, (O.enum i tab).Perm tab) ∧ ∀ i c, ChooserOk (O.choose i c)

/-- The inner loop of `fit`, `/repo/skmine/itemsets/slim.py:179-185`: the first candidate that decreases the size is applied. -/
def tryCandidates (P : Params α κ V) (choose : Finset α → Chooser α) (st : State α V) :
    List (Finset α × ℚ) → Option (Except Err (Option (State α V)))
  | [] => some (.ok none)
  | c :: cs =>
    match evaluate P (choose c.1) st c.1 with
    | none => none
    | some (.error e) => some (.error e)
    | some (.ok (size, usages)) =>
      if size < st.size then some (.ok (some (updateUsages P st usages size))) else tryCandidates P choose st cs

/-- The main loop of `fit`, `/repo/skmine/itemsets/slim.py:172-191`, from turn `i`. `none` when the fuel runs out. -/
def fitLoop (P : Params α κ V) (O : Oracle α) : ℕ → ℕ → State α V → Option (Except Err (State α V))
  | 0, _, _ => none
  | n + 1, i, st =>
    let tab := O.enum i st.ct
    let cands := (generateCandidates (O.gain i tab) tab (st.ct.map Prod.fst).toFinset).1
    match tryCandidates P (O.choose i) st cands with
    | none => none
    | some (.error e) => some (.error e)
    | some (.ok none) => some (.ok st)
    | some (.ok (some st2)) => if O.timeUp i then some (.ok st2) else fitLoop P O n (i + 1) st2

/-- `fit`, `/repo/skmine/itemsets/slim.py:147-194`, without input validation. -/
def fit (P : Params α κ V) (O : Oracle α) (items : List α) (fuel : ℕ) (D : List (List α)) :
    Option (Except Err (State α V)) :=
  fitLoop P O fuel 0 (prefit P items D)

/-- One row of `transform`, `/repo/skmine/itemsets/slim.py:536-540`, with `return_tids=True`. -/
def transform (st : State α V) (singletons dropNull : Bool) : List (List α × Finset ℕ) :=
  (st.ct.filter (fun e => (if dropNull then 1 else 0) ≤ e.2.card ∧ (if singletons then 0 else 1) < e.1.card)).map
    (fun e => (sortSet e.1, e.2))

/-- The itemsets used by `SLIM.cover` on a vertical representation, `/repo/skmine/itemsets/slim.py:467-468`: those of the code table whose
items all occur in the new data. The tuple of sorted items is the itemset itself. -/
def knownItemsets (st : State α V) (vert : Sct α) : List (Finset α) :=
  ((transform st true false).map (fun r => r.1.toFinset)).filter (fun X => ∀ x ∈ X, x ∈ vert.map Prod.fst)

/-- `SLIM.cover` on a vertical representation, `/repo/skmine/itemsets/slim.py:467-475`: the column labels, and the matrix. -/
def coverMatrix (st : State α V) (vert : Sct α) (nRows : ℕ) : Except Err (List (Finset α) × List (List Bool)) :=
  match cover vert (knownItemsets st vert) with
  | .error e => .error e
  | .ok covers => .ok (covers.map Prod.fst, (List.range nRows).map (fun t => covers.map (fun e => decide (t ∈ e.2))))

/-- `SLIM.cover` on transactions, `/repo/skmine/itemsets/slim.py:441-475`. -/
def slimCover (st : State α V) (D : List (List α)) : Except Err (List (Finset α) × List (List Bool)) :=
  coverMatrix st (toVertical ∅ D) D.length

/-- `SLIM.cover` on a boolean table, `/repo/skmine/itemsets/slim.py:461-463`: one column of booleans per item, known items only. -/
def slimCoverTabular (st : State α V) (cols : List (α × List Bool)) (nRows : ℕ) :
    Except Err (List (Finset α) × List (List Bool)) :=
  coverMatrix st ((cols.filter (fun c => c.1 ∈ st.sct.map Prod.fst)).map
    (fun c => (c.1, (Finset.range nRows).filter (fun t => c.2.getD t false = true)))) nRows

/-- Number of rows of `reconstruct`, `/repo/skmine/itemsets/slim.py:581`; `none` when no usage is non-empty (`max` of nothing). -/
def reconstructLen (tab : Table α) : Option ℕ :=
  match ((tab.map Prod.snd).map sortSet).filterMap List.getLast? with
  | [] => none
  | m :: ms => some (ms.foldl max m + 1)

/-- The loop of `reconstruct`, `/repo/skmine/itemsets/slim.py:584-585`. -/
def reconstructLoop (tab : Table α) (rows : List (Finset α)) : List (Finset α) :=
  tab.foldl (fun rows e => rows.zipIdx.map (fun r => if r.2 ∈ e.2 then e.1 ∪ r.1 else r.1)) rows

/-- `reconstruct`, `/repo/skmine/itemsets/slim.py:560-586`. -/
def reconstruct (st : State α V) : Except Err (List (List α)) :=
  match reconstructLen st.ct with
  | none => .error .valueError
  | some n => .ok ((reconstructLoop st.ct (List.replicate n ∅)).map sortSet)

end Verif.Slim
