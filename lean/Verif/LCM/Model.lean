import Mathlib.Data.Finset.Card
import Mathlib.Data.Finset.Union
import Mathlib.Data.List.Sort
import Mathlib.Algebra.Order.Ring.Rat
import Verif.Filter.Model

/-!
# Model of `LCM` and `LCMMax`

Source: `/repo/skmine/itemsets/lcm.py`.
-/

set_option autoImplicit false

namespace Verif.LCM

section
variable {α : Type*} [DecidableEq α]

/-- `item_to_tids_[item].add(tid)` on a `defaultdict(Bitmap)`, `/repo/skmine/itemsets/lcm.py:117`. The dict is an
association list in insertion order. -/
def addTid (item : α) (tid : ℕ) : List (α × Finset ℕ) → List (α × Finset ℕ)
  | [] => [(item, {tid})]
  | (k, v) :: d => if k = item then (k, insert tid v) :: d else (k, v) :: addTid item tid d

/-- The double loop of `LCM.fit`, `/repo/skmine/itemsets/lcm.py:113-118`. -/
def itemToTids (D : List (List α)) : List (α × Finset ℕ) :=
  D.zipIdx.foldl (fun d ti => ti.1.foldl (fun d item => addTid item ti.2 d) d) []

/-- The fitted attributes `ord_item_freq_` and `item_to_tids_`, `/repo/skmine/itemsets/lcm.py:138-139`. The keys of
`item_to_tids_` are `0, ..., n-1`, hence a list. -/
structure Fitted (α : Type*) where
  items : List α
  tids : List (Finset ℕ)

/-- `self.item_to_tids_[i]` for a key `i`. -/
def Fitted.ids {α : Type*} (F : Fitted α) (i : ℕ) : Finset ℕ := F.tids.getD i ∅

/-- `LCM.fit`, `/repo/skmine/itemsets/lcm.py:113-139`, for the absolute threshold `m` (`self.min_supp_`, computed in
`Verif.MinSupp`). `sorted(..., reverse=True)` is stable. Not modelled: `_validate_data` and `n_features_in_`. -/
def fit (m : ℚ) (D : List (List α)) : Fitted α :=
  let kept := (itemToTids D).filter (fun kv => ¬ ((kv.2.card : ℚ) < m))
  let ordFreq := kept.insertionSort (fun a b => b.2.card ≤ a.2.card)
  { items := ordFreq.map Prod.fst, tids := ordFreq.map Prod.snd }

/-- One row of the resulting `DataFrame`. With `return_tids=False` the last column is not output. -/
structure Row (α : Type*) where
  itemset : List α
  support : ℕ
  tids : Finset ℕ
  deriving DecidableEq

/-- Options of `LCM.transform`, `/repo/skmine/itemsets/lcm.py:199-202`. `setOrder` is the order in which Python iterates
over a set of indices (`list(p_prime)`): it is unspecified, the theorems quantify over it. -/
structure Opts where
  maxLength : ℤ
  lexicographic : Bool
  setOrder : Finset ℕ → List ℕ

end

variable {α : Type*} [LinearOrder α]

/-- The tuple yielded by `_inner`, `/repo/skmine/itemsets/lcm.py:276-283`. -/
def mkRow (F : Fitted α) (o : Opts) (p' : Finset ℕ) (tids : Finset ℕ) : Row α :=
  let itemset := (o.setOrder p').filterMap (fun ind => F.items[ind]?)
  let itemset := if o.lexicographic then itemset.insertionSort (· ≤ ·) else itemset
  { itemset := itemset, support := tids.card, tids := tids }

/-- The test `len(itemset) <= self.max_length_ or self.max_length_ == -1`, `/repo/skmine/itemsets/lcm.py:279`. -/
def lengthOk (o : Opts) (r : Row α) : Bool := (r.itemset.length : ℤ) ≤ o.maxLength || o.maxLength == -1

/-- `cp`: indices of the items shared by all of `tids` and not in `p`, in decreasing order,
`/repo/skmine/itemsets/lcm.py:263-268` and `328-333`. -/
def cpList (F : Fitted α) (p tids : Finset ℕ) : List ℕ :=
  (List.range F.tids.length).reverse.filter (fun i => tids ⊆ F.ids i ∧ i ∉ p)

/-- `candidates`, `/repo/skmine/itemsets/lcm.py:285-286` and `338-339`: keys not in `p_prime`, strictly below `limit`. -/
def candidates (F : Fitted α) (p' : Finset ℕ) (limit : ℕ) : List ℕ :=
  ((List.range F.tids.length).filter (fun i => i ∉ p')).filter (fun i => i < limit)

/-- `LCM._inner`, `/repo/skmine/itemsets/lcm.py:260-292`. The generator is the list of what it yields. The first argument
bounds the recursion depth; `limit` strictly decreases, so `limit + 1` is enough. -/
def inner (F : Fitted α) (m : ℚ) (o : Opts) : ℕ → Finset ℕ → Finset ℕ → ℕ → List (Row α)
  | 0, _, _, _ => []
  | fuel + 1, p, tids, limit =>
    let cp := cpList F p tids
    match (cp.takeWhile (fun e => limit ≤ e)).head? with
    | none => []
    | some maxK =>
      if maxK = limit then
        let p' := p ∪ cp.tail.toFinset ∪ {maxK}
        let row := mkRow F o p' tids
        (if lengthOk o row then [row] else []) ++
          (candidates F p' limit).flatMap (fun l =>
            if m ≤ ((tids ∩ F.ids l).card : ℚ) then inner F m o fuel p' (tids ∩ F.ids l) l else [])
      else []

/-- `LCM._explore_root`, `/repo/skmine/itemsets/lcm.py:242-258`, without the file output. -/
def exploreRoot (F : Fitted α) (m : ℚ) (o : Opts) (item : ℕ) : List (Row α) :=
  inner F m o (item + 1) ∅ (F.ids item) item

/-- `LCM.transform` with `out=None`, `/repo/skmine/itemsets/lcm.py:209-218`: concatenation of the roots, in key order. -/
def transform (F : Fitted α) (m : ℚ) (o : Opts) : List (Row α) :=
  (List.range F.tids.length).flatMap (exploreRoot F m o)

/-- `LCM(min_supp).fit_transform(D)` for the absolute threshold `m`. -/
def lcm (m : ℚ) (o : Opts) (D : List (List α)) : List (Row α) := transform (fit m D) m o

/-- A row produced by `LCMMax._inner`: the itemset is still a set, `/repo/skmine/itemsets/lcm.py:351-356`. -/
structure MaxRow (α : Type*) where
  itemset : Finset α
  tids : Finset ℕ
  deriving DecidableEq

/-- `LCMMax._inner`, `/repo/skmine/itemsets/lcm.py:325-356`. Children are explored first and `p'` is yielded only when no
candidate is frequent (`no_cand`). -/
def innerMax (F : Fitted α) (m : ℚ) : ℕ → Finset ℕ → Finset ℕ → ℕ → List (MaxRow α)
  | 0, _, _, _ => []
  | fuel + 1, p, tids, limit =>
    let cp := cpList F p tids
    match cp.head? with
    | none => []
    | some maxK =>
      if maxK = limit then
        let p' := p ∪ cp.tail.toFinset ∪ {maxK}
        let freq := (candidates F p' limit).filter (fun l => m ≤ ((tids ∩ F.ids l).card : ℚ))
        freq.flatMap (fun l => innerMax F m fuel p' (tids ∩ F.ids l) l) ++
          (if freq = [] then [⟨p'.biUnion (fun i => (F.items[i]?).toList.toFinset), tids⟩] else [])
      else []

/-- `LCMMax.transform`, `/repo/skmine/itemsets/lcm.py:358-380`. `isin(maximals)` keeps the rows whose itemset is a member
of `maximals`. `setOrder` here orders a set of items (`list(i)`), used when `lexicographic_order=False`. -/
def transformMax (F : Fitted α) (m : ℚ) (maxLength : ℤ) (lexicographic : Bool) (setOrder : Finset α → List α) :
    List (Row α) :=
  let patterns := (List.range F.tids.length).flatMap (fun i => innerMax F m (i + 1) ∅ (F.ids i) i)
  let maximals := Filter.filterMaximal (patterns.map MaxRow.itemset)
  let patterns := patterns.filter (fun r => r.itemset ∈ maximals)
  let patterns := if maxLength ≠ -1 then patterns.filter (fun r => (r.itemset.card : ℤ) ≤ maxLength) else patterns
  patterns.map (fun r =>
    { itemset := if lexicographic then (setOrder r.itemset).insertionSort (· ≤ ·) else setOrder r.itemset
      support := r.tids.card
      tids := r.tids })

/-- `LCMMax(min_supp).fit_transform(D)` for the absolute threshold `m`. -/
def lcmMax (m : ℚ) (maxLength : ℤ) (lexicographic : Bool) (setOrder : Finset α → List α) (D : List (List α)) :
    List (Row α) := transformMax (fit m D) m maxLength lexicographic setOrder

end Verif.LCM
