import Verif.LCM.MaxLemmas
import Verif.Util.SortSet

/-!
# C01-C05: `LCM` and `LCMMax`

`m` is the absolute threshold (`min_supp` itself, or `min_supp * len(D)` for a float), an arbitrary rational.
`OrderOk o.setOrder` only says that iterating over a set lists each element once.
-/

set_option autoImplicit false

set_option linter.unusedSectionVars false

namespace Verif.LCM

variable {α : Type*} [LinearOrder α]

/-- C01 (content of the rows). Whatever the options, every row returned by LCM holds a closed frequent itemset listed
without repetition, with its exact transaction ids and support, in increasing order if the lexicographic order is
requested. -/
theorem lcm_rows (m : ℚ) (o : Opts) (ho : OrderOk o.setOrder) (D : List (List α)) (r : Row α) (hr : r ∈ lcm m o D) :
    r.itemset.Nodup ∧ Frequent D m r.itemset.toFinset ∧ Closed D r.itemset.toFinset ∧
      r.tids = tidsOf D r.itemset.toFinset ∧ r.support = (tidsOf D r.itemset.toFinset).card ∧
      (o.lexicographic = true → r.itemset.Pairwise (· < ·)) := by
  have hF := fit_spec m D
  unfold lcm at hr
  rw [transform_eq_core, List.mem_filter, List.mem_map] at hr
  obtain ⟨⟨⟨C, t⟩, hc, rfl⟩, _⟩ := hr
  obtain ⟨hne, hcl⟩ := (mem_coreAll hF.allFrequent C t).1 hc
  obtain ⟨h1, h2, h3⟩ := hF.sound hne hcl
  refine ⟨mkRow_nodup hF ho C t, ?_, ?_, ?_, ?_, fun hlex => mkRow_sorted hF ho hlex C t⟩ <;>
    rw [mkRow_toFinset ho]
  · exact h1
  · exact h2
  · exact h3
  · exact congrArg Finset.card h3

/-- C01. LCM returns exactly the closed frequent itemsets. -/
theorem lcm_exact (m : ℚ) (o : Opts) (ho : OrderOk o.setOrder) (hmax : o.maxLength = -1) (D : List (List α))
    (X : Finset α) :
    (∃ r ∈ lcm m o D, r.itemset.toFinset = X) ↔ Frequent D m X ∧ Closed D X := by
  constructor
  · rintro ⟨r, hr, rfl⟩
    have := lcm_rows m o ho D r hr
    exact ⟨this.2.1, this.2.2.1⟩
  · rintro ⟨hf, hc⟩
    have hF := fit_spec m D
    refine ⟨mkRow (fit m D) o (idx (fit m D) X) (tidsOf D X), ?_, ?_⟩
    · unfold lcm
      rw [transform_eq_core, List.mem_filter, List.mem_map]
      refine ⟨⟨(idx (fit m D) X, tidsOf D X), ?_, rfl⟩, by simp [lengthOk, hmax]⟩
      exact (mem_coreAll hF.allFrequent _ _).2 ⟨hF.idx_nonempty hf, hF.complete hf hc⟩
    · rw [mkRow_toFinset ho, hF.its_idx hf]

/-- C02. No itemset is returned twice. -/
theorem lcm_nodup (m : ℚ) (o : Opts) (ho : OrderOk o.setOrder) (D : List (List α)) :
    ((lcm m o D).map (fun r => r.itemset.toFinset)).Nodup := by
  have hF := fit_spec m D
  unfold lcm
  rw [transform_eq_core]
  refine List.Nodup.sublist (List.filter_sublist.map _) ?_
  rw [List.map_map]
  have : ((fun r : Row α => r.itemset.toFinset) ∘ fun c : Finset ℕ × Finset ℕ => mkRow (fit m D) o c.1 c.2)
      = its (fit m D) ∘ Prod.fst := by
    funext c; exact mkRow_toFinset ho c.1 c.2
  rw [this, ← List.map_map]
  refine List.Nodup.map_on ?_ (nodup_coreAll hF.allFrequent)
  have hlt : ∀ C, C ∈ (coreAll (fit m D) m).map Prod.fst → ∀ i ∈ C, i < (fit m D).tids.length := by
    intro C hC
    obtain ⟨⟨C', t⟩, hc, rfl⟩ := List.mem_map.1 hC
    exact ClosedIdx.lt hF ((mem_coreAll hF.allFrequent C' t).1 hc).2
  intro C1 h1 C2 h2 he
  exact hF.its_inj (hlt C1 h1) (hlt C2 h2) he

/-- C03. `max_length = k` keeps exactly the rows of the unrestricted result with at most `k` items, in the same order,
for every integer `k` other than the special value -1. -/
theorem lcm_maxLength (m : ℚ) (o : Opts) (k : ℤ) (hk : k ≠ -1) (D : List (List α)) :
    lcm m { o with maxLength := k } D
      = (lcm m { o with maxLength := -1 } D).filter (fun r => (r.itemset.length : ℤ) ≤ k) := by
  unfold lcm
  rw [transform_eq_core, transform_eq_core, List.filter_filter]
  have hmk : (fun c : Finset ℕ × Finset ℕ => mkRow (fit m D) { o with maxLength := k } c.1 c.2)
      = (fun c => mkRow (fit m D) { o with maxLength := -1 } c.1 c.2) := rfl
  rw [hmk]
  apply List.filter_congr
  intro r _
  simp [lengthOk, hk]

/-- C04 (content of the rows), for every option. -/
theorem lcmMax_rows (m : ℚ) (k : ℤ) (lex : Bool) (so : Finset α → List α) (hso : OrderOk so) (D : List (List α))
    (r : Row α) (hr : r ∈ lcmMax m k lex so D) :
    r.itemset.Nodup ∧ MaximalFrequent D m r.itemset.toFinset ∧
      r.tids = tidsOf D r.itemset.toFinset ∧ r.support = (tidsOf D r.itemset.toFinset).card ∧
      (k ≠ -1 → (r.itemset.length : ℤ) ≤ k) ∧ (lex = true → r.itemset.Pairwise (· < ·)) := by
  have hF := fit_spec m D
  unfold lcmMax at hr
  rw [transformMax_eq] at hr
  rw [List.mem_map] at hr
  obtain ⟨q, hq, rfl⟩ := hr
  have hqq : (q ∈ rawMax (fit m D) m ∧ q.itemset ∈ Filter.filterMaximal ((rawMax (fit m D) m).map MaxRow.itemset)) ∧
      (k ≠ -1 → (q.itemset.card : ℤ) ≤ k) := by
    split at hq
    next =>
      rw [List.mem_filter, List.mem_filter, decide_eq_true_eq, decide_eq_true_eq] at hq
      exact ⟨hq.1, fun _ => hq.2⟩
    next hk =>
      rw [List.mem_filter, decide_eq_true_eq] at hq
      exact ⟨hq, fun h => absurd h hk⟩
  obtain ⟨⟨hraw, hmx⟩, hlen⟩ := hqq
  have hmaxf := (rawMax_filter hF (List.mem_map.2 ⟨q, hraw, rfl⟩)).1 hmx
  have htids := (rawMax_sound hF hraw).2
  set l := (if lex = true then (so q.itemset).insertionSort (· ≤ ·) else so q.itemset) with hl
  have hperm : l.Perm (so q.itemset) := by
    rw [hl]; split
    · exact List.perm_insertionSort _ _
    · exact List.Perm.refl _
  have hnd : l.Nodup := hperm.nodup_iff.2 (hso q.itemset).1
  have hset : l.toFinset = q.itemset := by
    ext x; rw [List.mem_toFinset, hperm.mem_iff, (hso q.itemset).2]
  refine ⟨hnd, hset ▸ hmaxf, hset ▸ htids, ?_, ?_, ?_⟩
  · change q.tids.card = _
    rw [hset, htids]
  · intro hk
    change (l.length : ℤ) ≤ k
    rw [← List.toFinset_card_of_nodup hnd, hset]
    exact hlen hk
  · intro hlex
    change l.Pairwise (· < ·)
    have hs : l.Pairwise (· ≤ ·) := by
      rw [hl, if_pos hlex]; exact List.pairwise_insertionSort _ _
    exact (hs.and hnd).imp (fun h => lt_of_le_of_ne h.1 h.2)

/-- C04. LCMMax returns exactly the maximal frequent itemsets. -/
theorem lcmMax_exact (m : ℚ) (lex : Bool) (so : Finset α → List α) (hso : OrderOk so) (D : List (List α))
    (X : Finset α) :
    (∃ r ∈ lcmMax m (-1) lex so D, r.itemset.toFinset = X) ↔ MaximalFrequent D m X := by
  constructor
  · rintro ⟨r, hr, rfl⟩
    exact (lcmMax_rows m (-1) lex so hso D r hr).2.1
  · intro h
    have hF := fit_spec m D
    have hraw := rawMax_complete hF h
    unfold lcmMax
    rw [transformMax_eq, if_neg (by simp)]
    refine ⟨_, List.mem_map.2 ⟨⟨X, tidsOf D X⟩, List.mem_filter.2 ⟨hraw, ?_⟩, rfl⟩, ?_⟩
    · exact decide_eq_true ((rawMax_filter hF (List.mem_map.2 ⟨_, hraw, rfl⟩)).2 h)
    · ext x
      rw [List.mem_toFinset]
      simp only
      split
      · rw [List.mem_insertionSort, (hso X).2]
      · rw [(hso X).2]

/-- C04. No itemset is returned twice, whatever the options. -/
theorem lcmMax_nodup (m : ℚ) (k : ℤ) (lex : Bool) (so : Finset α → List α) (hso : OrderOk so) (D : List (List α)) :
    ((lcmMax m k lex so D).map (fun r => r.itemset.toFinset)).Nodup := by
  have hF := fit_spec m D
  unfold lcmMax
  rw [transformMax_eq, List.map_map]
  have : ((fun r : Row α => r.itemset.toFinset) ∘ fun r : MaxRow α =>
      ({ itemset := if lex = true then (so r.itemset).insertionSort (· ≤ ·) else so r.itemset
         support := r.tids.card
         tids := r.tids } : Row α)) = MaxRow.itemset := by
    funext r
    ext x
    simp only [Function.comp, List.mem_toFinset]
    split
    · rw [List.mem_insertionSort, (hso _).2]
    · rw [(hso _).2]
  rw [this]
  refine List.Nodup.sublist (List.Sublist.map _ ?_) (rawMax_nodup hF)
  split
  · exact List.filter_sublist.trans List.filter_sublist
  · exact List.filter_sublist

/-- C05. Reordering the transactions, reordering or repeating the items inside them, or iterating over sets in
another order, does not change the set of (itemset, support) pairs. -/
theorem lcm_order_independent (m : ℚ) (o o' : Opts) (ho : OrderOk o.setOrder) (ho' : OrderOk o'.setOrder)
    (hmax : o.maxLength = -1) (hmax' : o'.maxLength = -1) (D D' : List (List α))
    (hperm : (D.map List.toFinset).Perm (D'.map List.toFinset)) (X : Finset α) (s : ℕ) :
    (∃ r ∈ lcm m o D, r.itemset.toFinset = X ∧ r.support = s) ↔
      (∃ r ∈ lcm m o' D', r.itemset.toFinset = X ∧ r.support = s) := by
  have hcard : ∀ Y, (tidsOf D Y).card = (tidsOf D' Y).card := by
    intro Y; rw [card_tidsOf, card_tidsOf]; exact (hperm.filter _).length_eq
  have hitems : itemsOf D = itemsOf D' := by
    have hE : ∀ (E : List (List α)) x, x ∈ itemsOf E ↔ ∃ t ∈ E.map List.toFinset, x ∈ t := by
      intro E x
      simp [itemsOf, List.mem_flatten]
    ext x
    rw [hE, hE]
    simp only [hperm.mem_iff]
  have hfreq : ∀ Y, Frequent D m Y ↔ Frequent D' m Y := by
    intro Y; unfold Frequent; rw [hitems, hcard]
  have hclosed : ∀ Y, Closed D Y ↔ Closed D' Y := by
    intro Y; unfold Closed; simp only [hitems, hcard]
  have main : ∀ (p p' : Opts) (hp : OrderOk p.setOrder) (hp' : OrderOk p'.setOrder) (_ : p'.maxLength = -1)
      (E E' : List (List α)) (_ : ∀ Y, (tidsOf E Y).card = (tidsOf E' Y).card)
      (_ : ∀ Y, Frequent E m Y ↔ Frequent E' m Y) (_ : ∀ Y, Closed E Y ↔ Closed E' Y),
      (∃ r ∈ lcm m p E, r.itemset.toFinset = X ∧ r.support = s) →
        (∃ r ∈ lcm m p' E', r.itemset.toFinset = X ∧ r.support = s) := by
    rintro p p' hp hp' hpm E E' h1 h2 h3 ⟨r, hr, rfl, rfl⟩
    have hrow := lcm_rows m p hp E r hr
    obtain ⟨r', hr', he⟩ := (lcm_exact m p' hp' hpm E' r.itemset.toFinset).2
      ⟨(h2 _).1 hrow.2.1, (h3 _).1 hrow.2.2.1⟩
    refine ⟨r', hr', he, ?_⟩
    have hrow' := lcm_rows m p' hp' E' r' hr'
    rw [hrow'.2.2.2.2.1, hrow.2.2.2.2.1, he, h1]
  exact ⟨main o o' ho ho' hmax' D D' hcard hfreq hclosed,
    main o' o ho' ho hmax D' D (fun Y => (hcard Y).symm) (fun Y => (hfreq Y).symm) (fun Y => (hclosed Y).symm)⟩

/-- The documentation example: two closed itemsets. -/
example : (lcm 2 ⟨-1, true, sortSet⟩ [[1, 2, 3, 4, 5, 6], [2, 3, 5], [2, 5]]).map
    (fun r => (r.itemset, r.support, r.tids)) = [([2, 5], 3, {0, 1, 2}), ([2, 3, 5], 2, {0, 1})] := by decide

/-- The iteration order used in the examples meets the hypothesis `OrderOk`. -/
theorem orderOk_sort {β : Type*} [LinearOrder β] : OrderOk (sortSet (β := β)) :=
  fun s => ⟨nodup_sortSet s, fun i => mem_sortSet s i⟩

/-- A database with an empty transaction, repeated items, and several roots. -/
example : (lcm 2 ⟨-1, true, sortSet⟩ [[3, 1, 3], [], [1, 2], [2, 3, 1], [4, 2]]).map
    (fun r => (r.itemset, r.support)) = [([1], 3), ([2], 3), ([1, 2], 2), ([1, 3], 2)] := by decide

example : (lcm 2 ⟨1, true, sortSet⟩ [[3, 1, 3], [], [1, 2], [2, 3, 1], [4, 2]]).map
    (fun r => (r.itemset, r.support)) = [([1], 3), ([2], 3)] := by decide

example : (lcmMax 2 (-1) true sortSet [[3, 1, 3], [], [1, 2], [2, 3, 1], [4, 2]]).map
    (fun r => (r.itemset, r.support)) = [([1, 2], 2), ([1, 3], 2)] := by decide

end Verif.LCM
