import Verif.Slim.Vectorizer
import Mathlib.Data.Rat.Defs
import Mathlib.Algebra.Order.Field.Rat
import Mathlib.Algebra.Order.Field.Basic
import Mathlib.Algebra.Order.BigOperators.Group.List
import Mathlib.Algebra.BigOperators.Group.List.Lemmas
import Mathlib.Tactic.NormNum
import Mathlib.Tactic.Positivity

/-!
# The default strategy of `SLIMVectorizer` (C121)

Source: `/repo/skmine/feature_extraction/slim_vectorizer.py:104-122`, strategy `codes`. Values are exact rationals: the rounding to `float32`
is not modelled.
-/

set_option autoImplicit false
set_option linter.unusedSectionVars false

namespace Verif.Slim

variable {α κ V : Type*} [LinearOrder α] [LinearOrder κ] [LinearOrder V]

/-! ## Model -/

/-- `code_lengths` after the selection of line 108, `/repo/skmine/feature_extraction/slim_vectorizer.py:106-108`. -/
def vectEligible (st : State α V) (vert : Sct α) : List (Finset α × ℕ) :=
  ((transform st true false).map (fun r => (r.1.toFinset, r.2.card))).filter (fun e => ∀ x ∈ e.1, x ∈ vert.map Prod.fst)

/-- One cell of `mat * (code_lengths[isets.index] / code_lengths.sum())`, `/repo/skmine/feature_extraction/slim_vectorizer.py:118-120`. A
quotient of integers by 0 is only met as `0 / 0`, which is `NaN`, here `none`; a product by `NaN` is `NaN`. -/
def vectCell (total : ℕ) (marked : Bool) (usage : ℕ) : Option ℚ := if total = 0 then none else some ((if marked then 1 else 0) * ((usage : ℚ) / total))

/-- `transform` with strategy `codes`, `/repo/skmine/feature_extraction/slim_vectorizer.py:104-122`. The product aligns the columns of the matrix
with the names in `isets.index`; these are the same names in the same order. -/
def vectCodes (st : State α V) (k : ℕ) (stop : Finset α) (D : List (List α)) : Except Err (List (Finset α) × List (List (Option ℚ))) :=
  let vert := toVertical stop D
  let total := ((vectEligible st vert).map Prod.snd).sum
  let isets := vectColumns st k vert
  match cover vert (isets.map Prod.fst) with
  | .error e => .error e
  | .ok covers => .ok (covers.map Prod.fst, (List.range (vectRows D)).map (fun t => List.zipWith (fun e i => vectCell total (decide (t ∈ e.2)) i.2) covers isets))

/-! ## Specification -/

/-- The items of `D` outside the stop list. -/
def seenItems (stop : Finset α) (D : List (List α)) : Finset α := D.flatten.toFinset \ stop

/-- The usages, in the training data, of the itemsets of the table made of items of `S`, added up. -/
def usageWithin (st : State α V) (S : Finset α) : ℕ := ((st.ct.filter (fun e => decide (e.1 ⊆ S))).map (fun e => e.2.card)).sum

/-- The usages of all the itemsets of the table, added up. -/
def usageTotal (st : State α V) : ℕ := (st.ct.map (fun e => e.2.card)).sum

/-- The usage of an itemset in the training data. -/
def usageOf (st : State α V) (X : Finset α) : ℕ := (lookup st.ct X).card

/-- The probability of an itemset in the training data, which the documentation announces in the non-zero cells. -/
def trainProb (st : State α V) (X : Finset α) : ℚ := (usageOf st X : ℚ) / usageTotal st

/-- The matrix obtained from the one-hot one by writing `value X` in the cells of column `X` that are set, and 0 in the others. -/
def fillWith (value : Finset α → ℚ) (r : List (Finset α) × List (List Bool)) : List (Finset α) × List (List (Option ℚ)) :=
  (r.1, r.2.map (fun row => List.zipWith (fun X b => some (if b then value X else 0)) r.1 row))

/-- The matrix with the shape of the one-hot one and no number in it. -/
def fillNaN (r : List (Finset α) × List (List Bool)) : List (Finset α) × List (List (Option ℚ)) :=
  (r.1, r.2.map (fun row => List.zipWith (fun _ _ => none) r.1 row))

/-! ## Lemmas -/

theorem mem_seenItems (stop : Finset α) (D : List (List α)) (x : α) : x ∈ seenItems stop D ↔ x ∈ (toVertical stop D).map Prod.fst := by
  rw [mem_toVertical_keys]
  unfold seenItems Occurs
  rw [Finset.mem_sdiff, List.mem_toFinset, List.mem_flatten]
  refine and_congr_left (fun _ => ?_)
  constructor
  · rintro ⟨tr, htr, hx⟩
    obtain ⟨t, ht⟩ := List.mem_iff_getElem?.1 htr
    exact ⟨t, tr, ht, hx⟩
  · rintro ⟨t, tr, ht, hx⟩
    exact ⟨tr, List.mem_of_getElem? ht, hx⟩

theorem eligible_seen (st : State α V) (hg : Good st.sct st.ct) (stop : Finset α) (D : List (List α)) :
    vectEligible st (toVertical stop D) = (st.ct.filter (fun e => decide (e.1 ⊆ seenItems stop D))).map (fun e => (e.1, e.2.card)) := by
  unfold vectEligible
  rw [eligible_eq st hg]
  congr 1
  refine List.filter_congr (fun e _ => ?_)
  refine decide_eq_decide.2 ?_
  constructor
  · exact fun h x hx => (mem_seenItems stop D x).2 (h x hx)
  · exact fun h x hx => (mem_seenItems stop D x).1 (h hx)

theorem eligible_sum (st : State α V) (hg : Good st.sct st.ct) (stop : Finset α) (D : List (List α)) :
    ((vectEligible st (toVertical stop D)).map Prod.snd).sum = usageWithin st (seenItems stop D) := by
  rw [eligible_seen st hg, List.map_map]
  rfl

theorem columns_usage (st : State α V) (hg : Good st.sct st.ct) (k : ℕ) (stop : Finset α) (D : List (List α)) (i : Finset α × ℕ) (hi : i ∈ vectColumns st k (toVertical stop D)) : i.2 = usageOf st i.1 := by
  have h1 : i ∈ vectEligible st (toVertical stop D) := (List.perm_insertionSort _ _).mem_iff.1 (List.mem_of_mem_take hi)
  rw [eligible_seen st hg] at h1
  obtain ⟨e, he, rfl⟩ := List.mem_map.1 h1
  unfold usageOf
  rw [lookup_of_mem hg.keys.nodup (List.mem_of_mem_filter he)]

theorem zipWith_align (total : ℕ) (t : ℕ) (value : Finset α → ℕ) (covers : Table α) (isets : List (Finset α × ℕ)) (hk : covers.map Prod.fst = isets.map Prod.fst) (hv : ∀ i ∈ isets, i.2 = value i.1) :
    List.zipWith (fun e i => vectCell total (decide (t ∈ e.2)) i.2) covers isets =
      List.zipWith (fun X b => vectCell total b (value X)) (covers.map Prod.fst) (covers.map (fun e => decide (t ∈ e.2))) := by
  induction covers generalizing isets with
  | nil => rfl
  | cons e covers ih =>
    cases isets with
    | nil => cases hk
    | cons i isets =>
      simp only [List.map_cons, List.cons.injEq] at hk
      simp only [List.map_cons, List.zipWith_cons_cons]
      rw [ih isets hk.2 (fun j hj => hv j (List.mem_cons_of_mem _ hj)), hv i List.mem_cons_self, hk.1]

theorem codes_eq (items : List α) (D : List (List α)) (st : State α V) (h : Reach (κ := κ) items D st) (k : ℕ) (stop : Finset α) (D' : List (List α)) :
    ∃ r, vectTransform st k stop D' = .ok r ∧ r.1 = (vectColumns st k (toVertical stop D')).map Prod.fst ∧
      vectCodes st k stop D' = .ok (r.1, r.2.map (fun row => List.zipWith (fun X b => vectCell (usageWithin st (seenItems stop D')) b (usageOf st X)) r.1 row)) := by
  obtain ⟨hg, _, _⟩ := reach_inv items D st h
  have hcov : ∃ covers, cover (toVertical stop D') ((vectColumns st k (toVertical stop D')).map Prod.fst) = .ok covers ∧ covers.map Prod.fst = (vectColumns st k (toVertical stop D')).map Prod.fst := by
    have hsub : ∀ i ∈ vectColumns st k (toVertical stop D'), i ∈ vectEligible st (toVertical stop D') := fun i hi => (List.perm_insertionSort _ _).mem_iff.1 (List.mem_of_mem_take hi)
    have hnd : ((vectColumns st k (toVertical stop D')).map Prod.fst).Nodup := by
      have h1 : ((vectEligible st (toVertical stop D')).map Prod.fst).Nodup := by
        rw [eligible_seen st hg, List.map_map]
        exact nodup_filter_keys st.ct _ hg.keys.nodup
      have h2 : (((vectEligible st (toVertical stop D')).insertionSort (fun a b => b.2 ≤ a.2)).map Prod.fst).Nodup := ((List.perm_insertionSort _ _).map _).nodup_iff.2 h1
      exact h2.sublist ((List.take_sublist _ _).map _)
    refine ⟨coverMap (lookup (toVertical stop D')) ((vectColumns st k (toVertical stop D')).map Prod.fst), ?_, keys_coverMap _ _⟩
    unfold cover
    rw [if_pos, coverLoop_eq _ _ _ hnd (by simp), List.nil_append]
    rw [List.all_eq_true]
    intro X hX
    obtain ⟨i, hi, rfl⟩ := List.mem_map.1 hX
    have := hsub i hi
    unfold vectEligible at this
    exact (List.mem_filter.1 this).2
  obtain ⟨covers, hc, hk⟩ := hcov
  refine ⟨(covers.map Prod.fst, (List.range (vectRows D')).map (fun t => covers.map (fun e => decide (t ∈ e.2)))), ?_, hk, ?_⟩
  · unfold vectTransform
    simp only
    rw [hc]
  · unfold vectCodes
    simp only
    rw [hc]
    simp only [List.map_map]
    rw [eligible_sum st hg]
    congr 2
    refine List.map_congr_left (fun t _ => ?_)
    exact zipWith_align _ t (usageOf st) covers _ hk (fun i hi => columns_usage st hg k stop D' i hi)

theorem usageWithin_all (st : State α V) (S : Finset α) (h : ∀ X u, (X, u) ∈ st.ct → u ≠ ∅ → X ⊆ S) : usageWithin st S = usageTotal st := by
  unfold usageWithin usageTotal
  revert h
  generalize st.ct = ct
  intro h
  induction ct with
  | nil => rfl
  | cons e ct ih =>
    rw [List.filter_cons]
    have ih := ih (fun X u hX hu => h X u (List.mem_cons_of_mem _ hX) hu)
    by_cases hs : e.1 ⊆ S
    · rw [if_pos (decide_eq_true hs), List.map_cons, List.map_cons, List.sum_cons, List.sum_cons, ih]
    · rw [if_neg (by simpa using hs), ih, List.map_cons, List.sum_cons]
      have : e.2 = ∅ := by
        by_contra hu
        exact hs (h e.1 e.2 List.mem_cons_self hu)
      rw [this, Finset.card_empty, Nat.zero_add]

theorem usageWithin_le (st : State α V) (S : Finset α) : usageWithin st S ≤ usageTotal st := by
  unfold usageWithin usageTotal
  exact List.Sublist.sum_le_sum (List.filter_sublist.map _) (fun _ _ => Nat.zero_le _)

/-! ## The theorems -/

/-- C121 (content of the cells). The columns and the shape are those of the one-hot strategy. When some itemset made of items of the new data was used in the training data, the cells set hold the usage of the column's itemset divided by
the usages of all such itemsets, and the others hold 0. Otherwise no cell holds a number. -/
theorem codes_content (items : List α) (D : List (List α)) (st : State α V) (h : Reach (κ := κ) items D st) (k : ℕ) (stop : Finset α) (D' : List (List α)) :
    ∃ r, vectTransform st k stop D' = .ok r ∧
      ((∃ X u, (X, u) ∈ st.ct ∧ u ≠ ∅ ∧ X ⊆ seenItems stop D') →
        vectCodes st k stop D' = .ok (fillWith (fun X => (usageOf st X : ℚ) / usageWithin st (seenItems stop D')) r)) ∧
      ((¬ ∃ X u, (X, u) ∈ st.ct ∧ u ≠ ∅ ∧ X ⊆ seenItems stop D') → vectCodes st k stop D' = .ok (fillNaN r)) := by
  obtain ⟨r, h1, _, h2⟩ := codes_eq items D st h k stop D'
  refine ⟨r, h1, ?_⟩
  rw [h2]
  have hz : (∃ X u, (X, u) ∈ st.ct ∧ u ≠ ∅ ∧ X ⊆ seenItems stop D') ↔ usageWithin st (seenItems stop D') ≠ 0 := by
    unfold usageWithin
    rw [ne_eq, List.sum_eq_zero_iff]
    push Not
    constructor
    · rintro ⟨X, u, hX, hu, hs⟩
      refine ⟨u.card, List.mem_map.2 ⟨(X, u), List.mem_filter.2 ⟨hX, decide_eq_true hs⟩, rfl⟩, ?_⟩
      rw [ne_eq, Finset.card_eq_zero]
      exact Finset.nonempty_iff_ne_empty.1 (by simpa [Finset.nonempty_iff_ne_empty] using hu)
    · rintro ⟨n, hn, hn0⟩
      obtain ⟨⟨X, u⟩, he, rfl⟩ := List.mem_map.1 hn
      obtain ⟨hX, hs⟩ := List.mem_filter.1 he
      have hu : u ≠ ∅ := fun h0 => hn0 (by rw [h0]; rfl)
      exact ⟨X, u, hX, by simpa [Finset.nonempty_iff_ne_empty] using hu, of_decide_eq_true hs⟩
  refine ⟨fun hne => congrArg Except.ok ?_, fun hne => congrArg Except.ok ?_⟩
  · unfold fillWith vectCell
    simp only [if_neg (hz.1 hne)]
    refine Prod.ext rfl (List.map_congr_left (fun row _ => ?_))
    congr 1
    funext X b
    cases b <;> simp
  · unfold fillNaN vectCell
    simp only [if_pos (not_not.1 (fun h0 => hne (hz.2 h0)))]

/-- C121 (probabilities). The non-zero cells hold the probability of the itemset in the training data when the items of all the itemsets used in the training data occur in the new data outside the stop list. Missing: other new data, for which
the values are other than announced (`codes_not_probability`), change with the other rows (`codes_row_dependent`), or are `NaN` (`codes_nan`). -/
theorem codes_probability_partial (items : List α) (D : List (List α)) (st : State α V) (h : Reach (κ := κ) items D st) (k : ℕ) (stop : Finset α) (D' : List (List α)) (hu : usageTotal st ≠ 0)
    (hall : ∀ X u, (X, u) ∈ st.ct → u ≠ ∅ → X ⊆ seenItems stop D') :
    ∃ r, vectTransform st k stop D' = .ok r ∧ vectCodes st k stop D' = .ok (fillWith (trainProb st) r) := by
  obtain ⟨r, h1, _, h2⟩ := codes_eq items D st h k stop D'
  refine ⟨r, h1, ?_⟩
  rw [h2, usageWithin_all st _ hall]
  unfold fillWith vectCell trainProb
  simp only [if_neg hu]
  congr 1
  refine Prod.ext rfl (List.map_congr_left (fun row _ => ?_))
  congr 1
  funext X b
  cases b <;> simp

/-- C121 (bounds). For all new data, a cell that holds a number holds a number between 0 and 1, at least the probability of the itemset in the training data when it is set, and the numbers of a row add up to at most 1. -/
theorem codes_bounds (items : List α) (D : List (List α)) (st : State α V) (h : Reach (κ := κ) items D st) (k : ℕ) (stop : Finset α) (D' : List (List α)) (cols : List (Finset α)) (mat : List (List (Option ℚ)))
    (hm : vectCodes st k stop D' = .ok (cols, mat)) :
    ∀ row ∈ mat, row.length = cols.length ∧ ((row.map (fun c => c.getD 0)).sum ≤ 1) ∧
      ∀ (j : ℕ) (X : Finset α) (q : ℚ), cols[j]? = some X → row[j]? = some (some q) → 0 ≤ q ∧ q ≤ 1 ∧ (q = 0 ∨ trainProb st X ≤ q) := by
  obtain ⟨hg, _, _⟩ := reach_inv items D st h
  obtain ⟨⟨cols', bmat⟩, h1, hcols, h2⟩ := codes_eq items D st h k stop D'
  simp only at hcols h2
  rw [hm] at h2
  simp only [Except.ok.injEq, Prod.mk.injEq] at h2
  obtain ⟨rfl, rfl⟩ := h2
  have hblen : ∀ brow ∈ bmat, brow.length = cols.length := by
    intro brow hb
    unfold vectTransform at h1
    simp only at h1
    cases hc : cover (toVertical stop D') ((vectColumns st k (toVertical stop D')).map Prod.fst) with
    | error e => rw [hc] at h1; cases h1
    | ok covers =>
      rw [hc] at h1
      simp only [Except.ok.injEq, Prod.mk.injEq] at h1
      obtain ⟨rfl, rfl⟩ := h1
      obtain ⟨t, _, rfl⟩ := List.mem_map.1 hb
      simp
  have hsum : (cols.map (usageOf st)).sum ≤ usageWithin st (seenItems stop D') := by
    have e1 : cols.map (usageOf st) = (vectColumns st k (toVertical stop D')).map Prod.snd := by
      rw [hcols, List.map_map]
      exact List.map_congr_left (fun i hi => (columns_usage st hg k stop D' i hi).symm)
    rw [e1, ← eligible_sum st hg]
    have e2 : ((vectEligible st (toVertical stop D')).map Prod.snd).sum = (((vectEligible st (toVertical stop D')).insertionSort (fun a b => b.2 ≤ a.2)).map Prod.snd).sum :=
      ((List.perm_insertionSort _ _).map Prod.snd).sum_eq.symm
    rw [e2]
    exact List.Sublist.sum_le_sum ((List.take_sublist _ _).map _) (fun _ _ => Nat.zero_le _)
  generalize hE : usageWithin st (seenItems stop D') = E at hsum
  have hEle : E ≤ usageTotal st := hE ▸ usageWithin_le st _
  intro row hrow
  obtain ⟨brow, hb, rfl⟩ := List.mem_map.1 hrow
  have hl := hblen brow hb
  refine ⟨by rw [List.length_zipWith, hl, Nat.min_self], ?_, ?_⟩
  · have key : ∀ (c : List (Finset α)) (b : List Bool), ((List.zipWith (fun X b => vectCell E b (usageOf st X)) c b).map (fun c => c.getD 0)).sum ≤ ((c.map (usageOf st)).sum : ℚ) / E := by
      intro c
      induction c with
      | nil => intro b; simp
      | cons X c ih =>
        intro b
        cases b with
        | nil =>
          simp only [List.zipWith_nil_right, List.map_nil, List.sum_nil]
          positivity
        | cons b bs =>
          simp only [List.zipWith_cons_cons, List.map_cons, List.sum_cons, Nat.cast_add, add_div]
          refine add_le_add ?_ (ih bs)
          unfold vectCell
          by_cases hE0 : E = 0
          · rw [if_pos hE0]; simp only [Option.getD_none]; positivity
          · rw [if_neg hE0]
            simp only [Option.getD_some]
            cases b
            · simp only [Bool.false_eq_true, if_false, zero_mul]; positivity
            · simp
    refine (key cols brow).trans ?_
    by_cases hE0 : E = 0
    · rw [hE0]; simp
    · have hpos : (0 : ℚ) < E := by exact_mod_cast Nat.pos_of_ne_zero hE0
      rw [div_le_one hpos]
      exact_mod_cast hsum
  · intro j X q hX hq
    rw [List.getElem?_zipWith, hX] at hq
    cases hbj : brow[j]? with
    | none => rw [hbj] at hq; cases hq
    | some b =>
      rw [hbj] at hq
      simp only [Option.some.injEq] at hq
      unfold vectCell at hq
      by_cases hE0 : E = 0
      · rw [if_pos hE0] at hq; cases hq
      · rw [if_neg hE0, Option.some.injEq] at hq
        have hpos : (0 : ℚ) < E := by exact_mod_cast Nat.pos_of_ne_zero hE0
        cases b with
        | false =>
          simp only [Bool.false_eq_true, if_false, zero_mul] at hq
          rw [← hq]
          exact ⟨le_refl _, zero_le_one, Or.inl rfl⟩
        | true =>
          simp only [if_true, one_mul] at hq
          rw [← hq]
          refine ⟨by positivity, ?_, Or.inr ?_⟩
          · rw [div_le_one hpos]
            have : usageOf st X ≤ (cols.map (usageOf st)).sum := List.le_sum_of_mem (List.mem_map.2 ⟨X, List.mem_of_getElem? hX, rfl⟩)
            exact_mod_cast this.trans hsum
          · unfold trainProb
            exact div_le_div_of_nonneg_left (by positivity) hpos (by exact_mod_cast hEle)

/-! ## Witnesses -/

/-- The table learned from `[[1, 2], [1, 2, 3], [3], [3]]` with the itemset `{1, 2}`. -/
def codesSt : State ℕ ℕ := match update (exP false) exChoose (prefit (exP false) [] [[1, 2], [1, 2, 3], [3], [3]]) {1, 2} with
  | some (.ok st) => st
  | _ => prefit (exP false) [] []

theorem codesSt_table : showTable codesSt.ct = [([1, 2], [0, 1]), ([3], [1, 2, 3]), ([1], []), ([2], [])] := by decide

theorem codesSt_reach : Reach (κ := ℕ) [] [[1, 2], [1, 2, 3], [3], [3]] codesSt := by
  obtain ⟨choose, hch⟩ := chooserOk_exists (α := ℕ)
  refine Reach.update (exP false) choose (prefit (exP false) [] [[1, 2], [1, 2, 3], [3], [3]]) codesSt {1, 2} (Reach.prefit _) hch ?_ ?_
  · intro u hu
    have : ({1, 2} : Finset ℕ) ∉ (prefit (exP false) [] [[1, 2], [1, 2, 3], [3], [3]]).ct.map Prod.fst := by decide
    exact this (List.mem_map.2 ⟨_, hu, rfl⟩)
  · change update (exP false) exChoose (prefit (exP false) [] [[1, 2], [1, 2, 3], [3], [3]]) {1, 2} = some (.ok codesSt)
    unfold codesSt
    split
    · assumption
    · next hne =>
      exfalso
      have h2 : ((update (exP false) exChoose (prefit (exP false) [] [[1, 2], [1, 2, 3], [3], [3]]) {1, 2}).bind Except.toOption).isSome = true := by decide
      revert hne h2
      rcases update (exP false) exChoose (prefit (exP false) [] [[1, 2], [1, 2, 3], [3], [3]]) {1, 2} with _ | (e | s)
      · intro _ h; cases h
      · intro _ h; cases h
      · intro hne _; exact hne s rfl

/-- The itemset `{1, 2}` is used 2 times out of 5 in the training data, but the cell holds 1. -/
theorem codes_not_probability : trainProb codesSt {1, 2} = 2 / 5 ∧ vectCodes codesSt 1 ∅ [[1, 2]] = .ok ([{1, 2}], [[some 1]]) := by
  have e1 : usageOf codesSt {1, 2} = 2 := by decide
  have e2 : usageTotal codesSt = 5 := by decide
  have e3 : usageWithin codesSt (seenItems ∅ [[1, 2]]) = 2 := by decide
  refine ⟨by unfold trainProb; rw [e1, e2]; norm_num, ?_⟩
  obtain ⟨r, h1, _, h2⟩ := codes_eq [] _ codesSt codesSt_reach 1 ∅ [[1, 2]]
  have e4 : vectTransform codesSt 1 ∅ [[1, 2]] = .ok ([{1, 2}], [[true]]) := by decide
  rw [e4] at h1
  cases h1
  rw [h2, e3]
  simp [vectCell, e1]

/-- The same transaction has the value 1 when it comes alone, and 2/5 when it comes with another one. -/
theorem codes_row_dependent : vectCodes codesSt 1 ∅ [[1, 2]] = .ok ([{1, 2}], [[some 1]]) ∧ vectCodes codesSt 2 ∅ [[1, 2], [3]] = .ok ([{3}, {1, 2}], [[some 0, some (2 / 5)], [some (3 / 5), some 0]]) := by
  refine ⟨codes_not_probability.2, ?_⟩
  obtain ⟨r, h1, _, h2⟩ := codes_eq [] _ codesSt codesSt_reach 2 ∅ [[1, 2], [3]]
  have e1 : usageOf codesSt {1, 2} = 2 := by decide
  have e2 : usageOf codesSt {3} = 3 := by decide
  have e3 : usageWithin codesSt (seenItems ∅ [[1, 2], [3]]) = 5 := by decide
  have e4 : vectTransform codesSt 2 ∅ [[1, 2], [3]] = .ok ([{3}, {1, 2}], [[false, true], [true, false]]) := by decide
  rw [e4] at h1
  cases h1
  rw [h2, e3]
  simp [vectCell, e1, e2]

/-- Item 1 was always covered together with item 2 in the training data: a new transaction with item 1 alone gets `NaN`. -/
theorem codes_nan : vectCodes codesSt 1 ∅ [[1]] = .ok ([{1}], [[none]]) := by
  obtain ⟨r, h1, _, h2⟩ := codes_eq [] _ codesSt codesSt_reach 1 ∅ [[1]]
  have e3 : usageWithin codesSt (seenItems ∅ [[1]]) = 0 := by decide
  have e4 : vectTransform codesSt 1 ∅ [[1]] = .ok ([{1}], [[true]]) := by decide
  rw [e4] at h1
  cases h1
  rw [h2, e3]
  simp [vectCell]

/-- The hypotheses of `codes_probability_partial` hold for the training data themselves. -/
example : usageTotal codesSt ≠ 0 ∧ ∀ X u, (X, u) ∈ codesSt.ct → u ≠ ∅ → X ⊆ seenItems ∅ [[1, 2], [1, 2, 3], [3], [3]] := by
  refine ⟨by decide, ?_⟩
  have : ∀ e ∈ codesSt.ct, e.1 ⊆ seenItems ∅ [[1, 2], [1, 2, 3], [3], [3]] := by decide
  exact fun X u h _ => this (X, u) h

end Verif.Slim
