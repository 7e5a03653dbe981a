import Verif.Datasets.Model
import Mathlib.Tactic.Linarith
import Mathlib.Data.List.Nodup
import Mathlib.Tactic.NormNum

/-! # Properties of the dataset helpers (C31, C32) -/

set_option autoImplicit false
set_option linter.unusedSectionVars false

namespace Verif.Datasets

open Verif.Text

/-! ### C31 -/

theorem clipSizes_length (n : ℕ) (sizes : List ℕ) (h : sizes ≠ []) : (clipSizes n sizes h).length = sizes.length := by
  unfold clipSizes; simp only; split <;> simp

theorem clipSizes_le (n : ℕ) (sizes : List ℕ) (h : sizes ≠ []) : ∀ x ∈ clipSizes n sizes h, x ≤ n := by
  intro x hx
  unfold clipSizes at hx
  simp only at hx
  split at hx
  · obtain ⟨y, _, rfl⟩ := List.mem_map.1 hx
    exact min_le_right _ _
  · next hlt => exact (List.le_max_of_mem hx).trans (not_lt.1 hlt)

theorem drawAll_spec (start n : ℕ) (sizes : List ℕ) (perms : List (List ℕ)) (hs : ∀ x ∈ sizes, x ≤ n)
    (hp : ∀ p ∈ perms, p.Perm (List.range n)) (hl : perms.length = sizes.length) :
    ∃ D, drawAll start n sizes perms = .ok D ∧ D.map List.length = sizes ∧
      ∀ t ∈ D, t.Nodup ∧ ∀ x ∈ t, start ≤ x ∧ x < start + n := by
  induction sizes generalizing perms with
  | nil =>
    refine ⟨[], ?_, rfl, fun t h => by cases h⟩
    cases perms <;> rfl
  | cons s sizes ih =>
    cases perms with
    | nil => simp at hl
    | cons p perms =>
      obtain ⟨D, h1, h2, h3⟩ := ih perms (fun x h => hs x (List.mem_cons_of_mem _ h)) (fun q h => hp q (List.mem_cons_of_mem _ h))
        (by simpa using hl)
      have hsn := hs s List.mem_cons_self
      have hpp := hp p List.mem_cons_self
      have hpl : p.length = n := by rw [hpp.length_eq, List.length_range]
      refine ⟨(p.take s).map (fun q => start + q) :: D, ?_, ?_, ?_⟩
      · rw [drawAll, choice, if_neg (by omega)]
        simp only
        rw [h1]
      · rw [List.map_cons, h2, List.length_map, List.length_take, hpl, min_eq_left hsn]
      · intro t ht
        rcases List.mem_cons.1 ht with ht | ht
        · subst ht
          constructor
          · refine List.Nodup.map (fun a b h => by simpa using h) ?_
            exact (hpp.nodup_iff.2 List.nodup_range).sublist (List.take_sublist _ _)
          · intro x hx
            obtain ⟨q, hq, rfl⟩ := List.mem_map.1 hx
            have := List.mem_range.1 (hpp.mem_iff.1 (List.mem_of_mem_take hq))
            omega
        · exact h3 t ht

/-- C31, `make_transactions`, partial: for at least one transaction and a density strictly between 0 and 1, whatever the generator draws,
`n_transactions` transactions without repeated items from the `n_items` items starting at `item_start`; and when no size
drawn exceeds `n_items`, they have the sizes drawn. Missing: no transaction, which raises (`make_transactions_none`). -/
theorem make_transactions_partial (nItems : ℕ) (density : ℚ) (start nTransactions : ℕ) (sizes : List ℕ) (perms : List (List ℕ))
    (hd : 0 < density ∧ density < 1) (hn : 0 < nTransactions) (hs : sizes.length = nTransactions) (hl : perms.length = nTransactions)
    (hp : ∀ p ∈ perms, p.Perm (List.range nItems)) :
    ∃ D, makeTransactions nItems density start sizes perms = .ok D ∧ D.length = nTransactions ∧
      (∀ t ∈ D, t.Nodup ∧ ∀ x ∈ t, start ≤ x ∧ x < start + nItems) ∧
      ((∀ x ∈ sizes, x ≤ nItems) → D.map List.length = sizes) := by
  have hne : sizes ≠ [] := by rintro rfl; simp at hs; omega
  obtain ⟨D, h1, h2, h3⟩ := drawAll_spec start nItems (clipSizes nItems sizes hne) perms (clipSizes_le nItems sizes hne) hp
    (by rw [clipSizes_length]; omega)
  refine ⟨D, ?_, ?_, h3, fun hle => ?_⟩
  · rw [makeTransactions, if_pos hd, dif_neg hne, h1]
  · rw [← List.length_map (f := List.length), h2, clipSizes_length, hs]
  · rw [h2]
    unfold clipSizes
    simp only
    rw [if_neg]
    have := hle _ (List.max_mem hne)
    omega

/-- C31 fails for no transaction: `make_transactions(0)` raises. -/
theorem make_transactions_none (nItems : ℕ) (density : ℚ) (start : ℕ) (perms : List (List ℕ)) :
    makeTransactions nItems density start [] perms = .error .value := by
  unfold makeTransactions
  split <;> rfl

/-- A density outside `(0, 1)` raises. -/
theorem make_transactions_density (nItems : ℕ) (density : ℚ) (start : ℕ) (sizes : List ℕ) (perms : List (List ℕ))
    (h : density ≤ 0 ∨ 1 ≤ density) : makeTransactions nItems density start sizes perms = .error .value := by
  rw [makeTransactions, if_neg]
  rintro ⟨h1, h2⟩
  rcases h with h | h
  · exact absurd h1 (not_lt.2 h)
  · exact absurd h2 (not_lt.2 h)

/-- Three items, sizes `2` and `4` drawn: the second is cut to `3`, the first raised to `3`. -/
example : (makeTransactions 3 (9 / 10) 10 [2, 4] [[2, 0, 1], [1, 2, 0]]).toOption = some [[12, 10, 11], [11, 12, 10]] := by decide +kernel

/-- What the loop over classes returns, from class `c` and padding `pad`. -/
theorem classLoop_spec (n step : ℕ) (ds : List ClassDraw) (pad c : ℕ)
    (hd : ∀ d ∈ ds, 0 < d.density ∧ d.density < 1 ∧ d.sizes ≠ [] ∧ d.perms.length = d.sizes.length ∧
      ∀ p ∈ d.perms, p.Perm (List.range n)) :
    ∃ rows, classLoop n step pad c ds = .ok rows ∧
      (∀ k, (rows.filter (fun r => r.2 = c + k)).length = ((ds[k]?).map (fun d => d.sizes.length)).getD 0) ∧
      rows.length = (ds.map (fun d => d.sizes.length)).sum ∧
      ∀ r ∈ rows, c ≤ r.2 ∧ r.2 < c + ds.length ∧ r.1.Nodup ∧
        ∀ x ∈ r.1, pad + (r.2 - c) * step ≤ x ∧ x < pad + (r.2 - c) * step + n := by
  induction ds generalizing pad c with
  | nil => exact ⟨[], rfl, fun k => rfl, rfl, fun r h => by cases h⟩
  | cons d ds ih =>
    obtain ⟨d1, d2, d3, d4, d5⟩ := hd d List.mem_cons_self
    obtain ⟨D, e1, e2, e3, _⟩ := make_transactions_partial n d.density pad d.sizes.length d.sizes d.perms ⟨d1, d2⟩
      (List.length_pos_iff.2 d3) rfl d4 d5
    obtain ⟨rest, r1, r2, r3, r4⟩ := ih (pad + step) (c + 1) (fun d h => hd d (List.mem_cons_of_mem _ h))
    refine ⟨D.map (fun t => (t, c)) ++ rest, ?_, fun k => ?_, ?_, ?_⟩
    · rw [classLoop, e1]; simp only; rw [r1]
    · rw [List.filter_append, List.length_append]
      cases k with
      | zero =>
        have h1 : (D.map (fun t => (t, c))).filter (fun r => decide (r.2 = c + 0)) = D.map (fun t => (t, c)) := by
          rw [List.filter_eq_self]; intro r hr; obtain ⟨t, _, rfl⟩ := List.mem_map.1 hr; simp
        have h2 : rest.filter (fun r => decide (r.2 = c + 0)) = [] := by
          rw [List.filter_eq_nil_iff]; intro r hr; have := (r4 r hr).1; simp; omega
        rw [h1, h2]; simp [e2]
      | succ k =>
        have h1 : (D.map (fun t => (t, c))).filter (fun r => decide (r.2 = c + (k + 1))) = [] := by
          rw [List.filter_eq_nil_iff]; intro r hr; obtain ⟨t, _, rfl⟩ := List.mem_map.1 hr; simp
        rw [h1, List.length_nil, Nat.zero_add, List.getElem?_cons_succ, ← r2 k]
        congr 2
        funext r
        congr 1
        rw [eq_iff_iff]
        omega
    · rw [List.length_append, List.length_map, e2, r3, List.map_cons, List.sum_cons]
    · intro r hr
      rcases List.mem_append.1 hr with hr | hr
      · obtain ⟨t, ht, rfl⟩ := List.mem_map.1 hr
        obtain ⟨t1, t2⟩ := e3 t ht
        refine ⟨le_refl _, by simp, t1, fun x hx => ?_⟩
        simpa using t2 x hx
      · obtain ⟨q1, q2, q3, q4⟩ := r4 r hr
        refine ⟨by omega, by rw [List.length_cons]; omega, q3, fun x hx => ?_⟩
        have := q4 x hx
        obtain ⟨j, hj⟩ : ∃ j, r.2 = c + 1 + j := ⟨r.2 - (c + 1), by omega⟩
        rw [hj] at this ⊢
        have e1 : c + 1 + j - (c + 1) = j := by omega
        have e2 : c + 1 + j - c = j + 1 := by omega
        rw [e1] at this
        rw [e2, Nat.succ_mul]
        omega

/-- C31, `make_classification`, partial: with valid arguments and at least one sample per class, class `c` gets exactly
`int(weights[c] * n_samples)` transactions without repeated items, all drawn from its own range of `n_items_per_class` items
starting at `c * step`; the total is the sum of these numbers. Missing: the total is `n_samples`, which is false when
products are not whole (`make_classification_loses`), and classes with no sample, which raise
(`make_classification_empty_class`). -/
theorem make_classification_partial (rnd : ℚ → ℚ) (nSamples nItems step nClasses : ℕ) (weights densities : List ℚ) (sep : ℚ)
    (draws : ℕ → List ℕ × List (List ℕ)) (shuffle : List (List ℕ × ℕ) → List (List ℕ × ℕ))
    (hsh : ∀ l, (shuffle l).Perm l) (h1 : 0 < nClasses) (h2 : weights.length = nClasses) (h3 : densities.length = nClasses)
    (h4 : 0 ≤ sep ∧ sep ≤ 1) (h5 : weights.sum = 1) (h6 : ∀ d ∈ densities, 0 < d ∧ d < 1)
    (h7 : ∀ (c : ℕ) (w : ℚ), weights[c]? = some w → 0 < classCount rnd nSamples w ∧ (draws c).1.length = classCount rnd nSamples w)
    (h8 : ∀ c, (draws c).2.length = (draws c).1.length ∧ ∀ p ∈ (draws c).2, p.Perm (List.range nItems)) :
    ∃ rows, makeClassification nItems step nClasses weights densities sep draws shuffle = .ok rows ∧
      (∀ (c : ℕ) (w : ℚ), weights[c]? = some w → (rows.filter (fun r => r.2 = c)).length = classCount rnd nSamples w) ∧
      rows.length = (weights.map (classCount rnd nSamples)).sum ∧
      ∀ r ∈ rows, r.2 < nClasses ∧ r.1.Nodup ∧ ∀ x ∈ r.1, r.2 * step ≤ x ∧ x < r.2 * step + nItems := by
  obtain ⟨ds, hds⟩ : ∃ ds : List ClassDraw, ds = densities.zipIdx.map (fun dc => ⟨dc.1, (draws dc.2).1, (draws dc.2).2⟩) :=
    ⟨_, rfl⟩
  have hget : ∀ k, ds[k]? = (densities[k]?).map (fun d => (⟨d, (draws k).1, (draws k).2⟩ : ClassDraw)) := by
    intro k
    rw [hds, List.getElem?_map, List.getElem?_zipIdx, Option.map_map]
    congr 1
    funext d
    simp
  have hlen : ds.length = nClasses := by rw [hds, List.length_map, List.length_zipIdx, h3]
  have hcnt : ∀ (k : ℕ) (w : ℚ), weights[k]? = some w → (ds[k]?).map (fun d => d.sizes.length) = some (classCount rnd nSamples w) := by
    intro k w hw
    have hk : k < densities.length := by have := (List.getElem?_eq_some_iff.1 hw).1; omega
    rw [hget, List.getElem?_eq_getElem hk, Option.map_some, Option.map_some, (h7 k w hw).2]
  obtain ⟨rows, r1, r2, r3, r4⟩ := classLoop_spec nItems step ds 0 0 (by
    intro d hd
    obtain ⟨k, hk⟩ := List.getElem?_of_mem hd
    have hkl : k < ds.length := (List.getElem?_eq_some_iff.1 hk).1
    rw [hget] at hk
    obtain ⟨q, hq, rfl⟩ := Option.map_eq_some_iff.1 hk
    obtain ⟨q1, q2⟩ := h6 q (List.mem_of_getElem? hq)
    obtain ⟨w, hw⟩ : ∃ w, weights[k]? = some w := ⟨_, List.getElem?_eq_getElem (by omega)⟩
    obtain ⟨p1, p2⟩ := h7 k w hw
    refine ⟨q1, q2, ?_, (h8 k).1, (h8 k).2⟩
    simp only
    intro he
    rw [he, List.length_nil] at p2
    omega)
  refine ⟨shuffle rows, ?_, ?_, ?_, ?_⟩
  · unfold makeClassification
    rw [if_pos ⟨h1, by omega, h3, h4.1, h4.2, by rw [h5]; norm_num, by rw [h5]; norm_num⟩, ← hds, r1]
  · intro c w hw
    rw [((hsh rows).filter _).length_eq]
    have := r2 c
    rw [Nat.zero_add, hcnt c w hw] at this
    exact this
  · rw [(hsh rows).length_eq, r3]
    congr 1
    apply List.ext_getElem?
    intro k
    rw [List.getElem?_map, List.getElem?_map]
    by_cases hk : k < weights.length
    · rw [hcnt k _ (List.getElem?_eq_getElem hk), List.getElem?_eq_getElem hk]; rfl
    · rw [List.getElem?_eq_none (l := ds) (by omega), List.getElem?_eq_none (l := weights) (by omega)]; rfl
  · intro r hr
    obtain ⟨q1, q2, q3, q4⟩ := r4 r ((hsh rows).mem_iff.1 hr)
    refine ⟨by omega, q3, fun x hx => ?_⟩
    simpa using q4 x hx

/-- With `class_sep = 1` (a step of at least `n_items_per_class`), samples of different classes share no item. -/
theorem classes_disjoint (nItems step : ℕ) (hstep : nItems ≤ step) (r r' : List ℕ × ℕ)
    (hr : ∀ x ∈ r.1, r.2 * step ≤ x ∧ x < r.2 * step + nItems) (hr' : ∀ x ∈ r'.1, r'.2 * step ≤ x ∧ x < r'.2 * step + nItems)
    (hne : r.2 ≠ r'.2) : ∀ x ∈ r.1, x ∉ r'.1 := by
  intro x hx hx'
  obtain ⟨a1, a2⟩ := hr x hx
  obtain ⟨b1, b2⟩ := hr' x hx'
  rcases Nat.lt_or_gt_of_ne hne with hlt | hlt
  · have := Nat.mul_le_mul_right step (Nat.succ_le_of_lt hlt)
    rw [Nat.succ_mul] at this
    omega
  · have := Nat.mul_le_mul_right step (Nat.succ_le_of_lt hlt)
    rw [Nat.succ_mul] at this
    omega

/-- C31 fails: a hundred samples of three balanced classes are 33 + 33 + 33. -/
theorem make_classification_loses :
    ([1 / 3, 1 / 3, 1 / 3] : List ℚ).sum = 1 ∧ (([1 / 3, 1 / 3, 1 / 3] : List ℚ).map (classCount id 100)).sum = 99 := by
  have h : classCount id 100 (1 / 3) = 33 := by
    unfold classCount
    rw [Nat.floor_eq_iff (by norm_num)]
    constructor <;> norm_num
  constructor
  · norm_num
  · rw [List.map_cons, List.map_cons, List.map_cons, List.map_nil, h]; rfl

/-- C31 fails: a class with no sample makes `make_classification` raise. -/
theorem make_classification_empty_class (nItems step nClasses : ℕ) (weights densities : List ℚ) (sep : ℚ)
    (draws : ℕ → List ℕ × List (List ℕ)) (shuffle : List (List ℕ × ℕ) → List (List ℕ × ℕ)) (c : ℕ) (hc : c < densities.length)
    (he : (draws c).1 = []) (rows : List (List ℕ × ℕ)) :
    makeClassification nItems step nClasses weights densities sep draws shuffle ≠ .ok rows := by
  have key : ∀ (ds : List ClassDraw) (pad k : ℕ) (rows : List (List ℕ × ℕ)), (∃ d ∈ ds, d.sizes = []) →
      classLoop nItems step pad k ds ≠ .ok rows := by
    intro ds
    induction ds with
    | nil => rintro pad k rows ⟨d, hd, _⟩; cases hd
    | cons d ds ih =>
      rintro pad k rows ⟨d', hd', hd2⟩ h
      rw [classLoop] at h
      rcases List.mem_cons.1 hd' with heq | hd'
      · rw [← heq, hd2, make_transactions_none] at h
        cases h
      · split at h
        · cases h
        · split at h
          · cases h
          · next _ _ rest hrest => exact ih _ _ rest ⟨d', hd', hd2⟩ hrest
  intro h
  unfold makeClassification at h
  split at h
  · split at h
    · cases h
    · next _ _ rs hrs =>
      refine key _ _ _ rs ⟨⟨densities[c], (draws c).1, (draws c).2⟩, ?_, he⟩ hrs
      refine List.mem_map.2 ⟨(densities[c], c), ?_, rfl⟩
      rw [List.mem_zipIdx_iff_getElem?]
      exact List.getElem?_eq_getElem hc
  · cases h

/-- Two classes, separated alphabets. -/
example : (makeClassification 2 2 2 [1 / 2, 1 / 2] [1 / 2, 1 / 2] 1 (fun c => if c = 0 then ([1, 2], [[1, 0], [0, 1]]) else ([1], [[0, 1]]))
    List.reverse).toOption = some [([2], 1), ([0, 1], 0), ([1], 0)] := by decide +kernel

/-! ### C32 -/

theorem splitlines_line (line rest cur : List Char) (h : ∀ c ∈ line, isBreak c = false) (b : Char) (hb : isBreak b = true) :
    splitlines cur (line ++ b :: rest) = (cur.reverse ++ line) :: splitlines [] rest := by
  induction line generalizing cur with
  | nil => rw [List.nil_append, splitlines, if_pos hb, List.append_nil]
  | cons c line ih =>
    rw [List.cons_append, splitlines, if_neg (by rw [h c List.mem_cons_self]; decide),
      ih (c :: cur) (fun d hd => h d (List.mem_cons_of_mem _ hd))]
    simp

theorem splitlines_last (line cur : List Char) (h : ∀ c ∈ line, isBreak c = false) :
    splitlines cur line = if cur.reverse ++ line = [] then [] else [cur.reverse ++ line] := by
  induction line generalizing cur with
  | nil => rw [splitlines]; simp
  | cons c line ih =>
    rw [splitlines, if_neg (by rw [h c List.mem_cons_self]; decide), ih (c :: cur) (fun d hd => h d (List.mem_cons_of_mem _ hd))]
    simp

theorem universalNewlines_id (s : List Char) (h : '\r' ∉ s) : universalNewlines s = s := by
  induction s with
  | nil => rfl
  | cons c s ih =>
    rw [List.mem_cons, not_or] at h
    have hc : c ≠ '\r' := fun e => h.1 e.symm
    have : universalNewlines (c :: s) = c :: universalNewlines s := by
      rw [universalNewlines]
      · intro cs e; exact absurd e hc
      · intro e; exact absurd e hc
    rw [this, ih h.2]

/-- C32, line by line: a file made of lines ended by newlines gives one transaction per line, each read from its own line only; the last
newline is optional when the last line is not empty. -/
theorem read_line_by_line {β : Type*} (parse : List Char → Option β) (sep : Char) (lines : List (List Char))
    (h : ∀ l ∈ lines, ∀ c ∈ l, isBreak c = false ∧ c ≠ '\r') :
    readDat parse sep (lines.flatMap (fun l => l ++ ['\n'])) = lines.mapM (readLine parse sep) ∧
    ∀ last : List Char, last ≠ [] → (∀ c ∈ last, isBreak c = false ∧ c ≠ '\r') →
      readDat parse sep (lines.flatMap (fun l => l ++ ['\n']) ++ last) = (lines ++ [last]).mapM (readLine parse sep) := by
  have hcr : ∀ (ls : List (List Char)), (∀ l ∈ ls, ∀ c ∈ l, isBreak c = false ∧ c ≠ '\r') →
      '\r' ∉ ls.flatMap (fun l => l ++ ['\n']) := by
    intro ls hls hm
    obtain ⟨l, hl, hc⟩ := List.mem_flatMap.1 hm
    rcases List.mem_append.1 hc with hc | hc
    · exact (hls l hl _ hc).2 rfl
    · rw [List.mem_singleton] at hc; exact absurd hc (by decide)
  have hsp : ∀ (ls : List (List Char)) (tail : List Char), (∀ l ∈ ls, ∀ c ∈ l, isBreak c = false ∧ c ≠ '\r') →
      splitlines [] (ls.flatMap (fun l => l ++ ['\n']) ++ tail) = ls ++ splitlines [] tail := by
    intro ls tail hls
    induction ls with
    | nil => rfl
    | cons l ls ih =>
      rw [List.flatMap_cons, List.append_assoc, List.append_assoc, List.singleton_append,
        splitlines_line l _ [] (fun c hc => (hls l List.mem_cons_self c hc).1) '\n' (by decide),
        ih (fun l hl => hls l (List.mem_cons_of_mem _ hl))]
      rfl
  constructor
  · have := hsp lines [] h
    rw [List.append_nil] at this
    rw [readDat, universalNewlines_id _ (hcr lines h), this, splitlines, if_pos rfl, List.append_nil]
  · intro last hne hl
    rw [readDat, universalNewlines_id, hsp lines last h, splitlines_last last [] (fun c hc => (hl c hc).1), if_neg (by simpa using hne)]
    · rfl
    · rw [List.mem_append, not_or]
      exact ⟨hcr lines h, fun hm => (hl _ hm).2 rfl⟩

theorem rstrip_append (s pad : List Char) (hs : s ≠ []) (hpad : ∀ c ∈ pad, isSpace c = true)
    (hlast : isSpace (s.getLast hs) = false) : rstrip (s ++ pad) = s := by
  unfold rstrip
  rw [List.reverse_append, List.dropWhile_append_of_pos (by simpa using hpad)]
  have : s.reverse.dropWhile isSpace = s.reverse := by
    obtain ⟨t, x, ht⟩ : ∃ t x, s = t ++ [x] := ⟨s.dropLast, s.getLast hs, (List.dropLast_append_getLast hs).symm⟩
    subst ht
    rw [List.getLast_append_singleton] at hlast
    rw [List.reverse_append, List.reverse_singleton, List.singleton_append, List.dropWhile_cons, if_neg (by rw [hlast]; decide)]
  rw [this, List.reverse_reverse]

/-- One line written as the items separated by `sep`, followed by optional blanks, is read back. -/
theorem readLine_roundtrip {β : Type*} (parse : List Char → Option β) (shw : β → List Char) (sep : Char)
    (hps : ∀ x, parse (shw x) = some x) (hsep : ∀ x, sep ∉ shw x) (hne : ∀ x, shw x ≠ [])
    (hsp : ∀ x, ∀ c ∈ shw x, isSpace c = false) (t : List β) (ht : t ≠ []) (pad : List Char) (hpad : ∀ c ∈ pad, isSpace c = true) :
    readLine parse sep (join sep (t.map shw) ++ pad) = some t := by
  have hlast : ∀ ws : List (List Char), ws ≠ [] → (∀ w ∈ ws, w ≠ [] ∧ ∀ c ∈ w, isSpace c = false) →
      ∃ h : join sep ws ≠ [], isSpace ((join sep ws).getLast h) = false := by
    intro ws
    induction ws with
    | nil => intro h; exact absurd rfl h
    | cons w ws ih =>
      intro _ hw
      obtain ⟨w1, w2⟩ := hw w List.mem_cons_self
      cases ws with
      | nil => exact ⟨w1, w2 _ (List.getLast_mem w1)⟩
      | cons w' ws' =>
        obtain ⟨h1, h2⟩ := ih (by simp) (fun v hv => hw v (List.mem_cons_of_mem _ hv))
        refine ⟨by rw [join]; simp; simp, ?_⟩
        have e : join sep (w :: w' :: ws') = (w ++ [sep]) ++ join sep (w' :: ws') := by
          rw [join]; simp; simp
        have : (join sep (w :: w' :: ws')).getLast (by rw [e]; simp) = (join sep (w' :: ws')).getLast h1 := by
          simp only [e]
          rw [List.getLast_append_of_ne_nil _ h1]
        rw [this]; exact h2
  obtain ⟨h1, h2⟩ := hlast (t.map shw) (by simpa using ht) (by
    intro w hw; obtain ⟨x, _, rfl⟩ := List.mem_map.1 hw; exact ⟨hne x, hsp x⟩)
  have hr : rstrip (join sep (t.map shw) ++ pad) = join sep (t.map shw) :=
    rstrip_append _ pad h1 hpad h2
  rw [readLine, hr, splitOn_join sep (t.map shw) (by simpa using ht) (by
    intro w hw; obtain ⟨x, _, rfl⟩ := List.mem_map.1 hw; exact hsep x)]
  clear ht h1 h2 hr
  induction t with
  | nil => rfl
  | cons x t ih => rw [List.map_cons, List.mapM_cons, hps, ih]; rfl

/-- C32, round trip: writing non-empty transactions one per line, items separated by `sep` and with any trailing blanks, then reading, is
the identity. For integers, `parse` is Python's `int` and `shw` its `str`; `sep` may be a blank, a comma or any other character not
occurring in an item. -/
theorem read_roundtrip {β : Type*} (parse : List Char → Option β) (shw : β → List Char) (sep : Char)
    (hps : ∀ x, parse (shw x) = some x) (hsep : ∀ x, sep ∉ shw x) (hne : ∀ x, shw x ≠ [])
    (hsp : ∀ x, ∀ c ∈ shw x, isSpace c = false) (hbr : isBreak sep = false ∧ sep ≠ '\r') (D : List (List β × List Char))
    (hD : ∀ d ∈ D, d.1 ≠ [] ∧ ∀ c ∈ d.2, isSpace c = true ∧ isBreak c = false ∧ c ≠ '\r') :
    readDat parse sep (D.flatMap (fun d => (join sep (d.1.map shw) ++ d.2) ++ ['\n'])) = some (D.map Prod.fst) := by
  have hb : ∀ c, isSpace c = false → isBreak c = false ∧ c ≠ '\r' := by
    intro c hc
    unfold isSpace at hc
    rw [Bool.or_eq_false_iff, Bool.or_eq_false_iff] at hc
    refine ⟨hc.1.1, ?_⟩
    rintro rfl
    exact absurd hc.1.2 (by decide)
  have e : D.flatMap (fun d => (join sep (d.1.map shw) ++ d.2) ++ ['\n']) =
      (D.map (fun d => join sep (d.1.map shw) ++ d.2)).flatMap (fun l => l ++ ['\n']) := by
    rw [List.flatMap_map]
  rw [e, (read_line_by_line parse sep _ ?_).1]
  · clear e
    induction D with
    | nil => rfl
    | cons d D ih =>
      obtain ⟨d1, d2⟩ := hD d List.mem_cons_self
      rw [List.map_cons, List.mapM_cons, readLine_roundtrip parse shw sep hps hsep hne hsp d.1 d1 d.2 (fun c hc => (d2 c hc).1),
        ih (fun d hd => hD d (List.mem_cons_of_mem _ hd))]
      rfl
  · intro l hl c hc
    obtain ⟨d, hd, rfl⟩ := List.mem_map.1 hl
    rcases List.mem_append.1 hc with hc | hc
    · rcases mem_join sep c _ hc with hc | ⟨w, hw, hc⟩
      · rw [hc]; exact hbr
      · obtain ⟨x, _, rfl⟩ := List.mem_map.1 hw
        exact hb c (hsp x c hc)
    · exact ((hD d hd).2 c hc).2

/-- C32 for integers: the files of the FIMI repository, items separated by blanks, each line ending with an optional blank. -/
theorem read_int_roundtrip (D : List (List ℤ × Bool)) (hD : ∀ d ∈ D, d.1 ≠ []) :
    readDat parseInt ' ' (D.flatMap (fun d => (join ' ' (d.1.map showInt) ++ if d.2 then [' '] else []) ++ ['\n'])) =
      some (D.map Prod.fst) := by
  have hch : ∀ (z : ℤ) (c : Char), c ∈ showInt z → isSpace c = false ∧ c ≠ ' ' := by
    intro z c hc
    have := mem_showInt z c hc
    have hall : ∀ c ∈ ['-', '0', '1', '2', '3', '4', '5', '6', '7', '8', '9'], isSpace c = false ∧ c ≠ ' ' := by decide
    exact hall c this
  have := read_roundtrip parseInt showInt ' ' parseInt_showInt (fun z hz => (hch z _ hz).2 rfl) showInt_ne_nil
    (fun z c hc => (hch z c hc).1) (by decide) (D.map (fun d => (d.1, if d.2 then [' '] else []))) (by
      intro d hd
      obtain ⟨d', hd', rfl⟩ := List.mem_map.1 hd
      refine ⟨hD d' hd', ?_⟩
      intro c hc
      simp only at hc
      split at hc
      · rw [List.mem_singleton] at hc; subst hc; decide
      · cases hc)
  rw [List.flatMap_map, List.map_map] at this
  exact this

/-- An empty line raises with integers. -/
example : readDat parseInt ' ' ['1', ' ', '2', '\n', '\n', '3'] = none := by decide

/-- Two lines, the first with a trailing blank and a carriage return. -/
example : readDat parseInt ' ' ['1', ' ', '-', '2', ' ', '\r', '\n', '3', '0'] = some [[1, -2], [30]] := by decide

end Verif.Datasets
