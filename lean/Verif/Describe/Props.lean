import Verif.Describe.Model
import Mathlib.Data.Finset.Card
import Mathlib.Algebra.Order.Field.Rat
import Mathlib.Algebra.Order.Field.Basic
import Mathlib.Algebra.Order.BigOperators.Group.List
import Mathlib.Algebra.BigOperators.Group.List.Lemmas
import Mathlib.Tactic.FieldSimp
import Mathlib.Tactic.NormNum
import Mathlib.Tactic.Ring
import Mathlib.Tactic.Positivity
import Mathlib.Tactic.Linarith

/-!
# Descriptions of datasets: properties (C168, C169)
-/

set_option autoImplicit false
set_option linter.unusedSectionVars false

namespace Verif.Describe

/-! ### Lemmas -/

theorem cast_sum (l : List ℕ) : ((l.sum : ℕ) : ℚ) = (l.map (fun n : ℕ => (n : ℚ))).sum := by
  induction l with
  | nil => simp
  | cons a l ih => rw [List.sum_cons, List.map_cons, List.sum_cons, Nat.cast_add, ih]

theorem mean_some (l : List ℚ) (h : l ≠ []) : mean l = some (l.sum / l.length) := if_neg h

theorem sum_le_mul (l : List ℕ) (n : ℕ) (h : ∀ x ∈ l, x ≤ n) : l.sum ≤ l.length * n := by
  induction l with
  | nil => simp
  | cons a l ih =>
    rw [List.sum_cons, List.length_cons, Nat.succ_mul]
    have := h a List.mem_cons_self
    have := ih (fun x hx => h x (List.mem_cons_of_mem _ hx))
    omega

theorem sum_eq_mul (l : List ℕ) (n : ℕ) (h : ∀ x ∈ l, x ≤ n) : l.sum = l.length * n ↔ ∀ x ∈ l, x = n := by
  induction l with
  | nil => simp
  | cons a l ih =>
    have h1 := h a List.mem_cons_self
    have h2 : ∀ x ∈ l, x ≤ n := fun x hx => h x (List.mem_cons_of_mem _ hx)
    have h3 := sum_le_mul l n h2
    rw [List.sum_cons, List.length_cons, Nat.succ_mul, List.forall_mem_cons, ← ih h2]
    omega

section Transactions

variable {α : Type*} [DecidableEq α]

/-- C168. The number of items is the number of different items, the number of transactions is that of the data, and the average size times the number of transactions is the number of all elements. Without transaction there is no average. -/
theorem describe_figures (D : List (List α)) :
    (describe D).nItems = (D.flatten.toFinset).card ∧ (describe D).nTransactions = D.length ∧ (D = [] → (describe D).avgSize = none) ∧
    (D ≠ [] → ∃ a, (describe D).avgSize = some a ∧ a * D.length = (D.flatten.length : ℕ)) := by
  refine ⟨(List.card_toFinset _).symm, rfl, fun h => by rw [h]; rfl, fun h => ⟨_, mean_some _ (by simpa using h), ?_⟩⟩
  have hl : ((D.length : ℕ) : ℚ) ≠ 0 := by exact_mod_cast (List.length_pos_iff.2 h).ne'
  rw [List.length_map, div_mul_cancel₀ _ hl, List.length_flatten, cast_sum, List.map_map]
  rfl

/-- C168 for transactions without repeated items (missing: repeated items, `density_above_one`, and data without item, `density_undefined`). The density is the share of the pairs of a transaction and an item in which the item is in the transaction. It is between 0 and 1,
and 1 exactly when all transactions have all items. -/
theorem density_partial (D : List (List α)) (hn : ∀ t ∈ D, t.Nodup) (hi : ∃ t ∈ D, t ≠ []) :
    ∃ d, (describe D).density = some d ∧ d * ((D.length : ℚ) * (D.flatten.toFinset).card) = ((D.map (fun t => t.toFinset.card)).sum : ℕ) ∧
      0 ≤ d ∧ d ≤ 1 ∧ (d = 1 ↔ ∀ t ∈ D, ∀ u ∈ D, ∀ x ∈ u, x ∈ t) := by
  obtain ⟨t0, ht0, hne⟩ := hi
  have hD : D ≠ [] := List.ne_nil_of_mem ht0
  obtain ⟨x0, hx0⟩ := List.exists_mem_of_ne_nil t0 hne
  have hcard : D.flatten.dedup.length = (D.flatten.toFinset).card := (List.card_toFinset _).symm
  have hpos : 0 < (D.flatten.toFinset).card :=
    Finset.card_pos.2 ⟨x0, List.mem_toFinset.2 (List.mem_flatten.2 ⟨t0, ht0, hx0⟩)⟩
  have hsub : ∀ t ∈ D, t.toFinset ⊆ D.flatten.toFinset := fun t ht x hx =>
    List.mem_toFinset.2 (List.mem_flatten.2 ⟨t, ht, List.mem_toFinset.1 hx⟩)
  have hlen : 0 < D.length := List.length_pos_iff.2 hD
  have hle : ∀ x ∈ D.map (fun t => t.toFinset.card), x ≤ (D.flatten.toFinset).card := by
    intro x hx
    obtain ⟨t, ht, rfl⟩ := List.mem_map.1 hx
    exact Finset.card_le_card (hsub t ht)
  have hs : (D.map (fun t => (t.length : ℚ))).sum = ((D.map (fun t => t.toFinset.card)).sum : ℕ) := by
    rw [cast_sum, List.map_map]
    congr 1
    apply List.map_congr_left
    intro t ht
    simp only [Function.comp, List.toFinset_card_of_nodup (hn t ht)]
  have hden : (describe D).density = some ((((D.map (fun t => t.toFinset.card)).sum : ℕ) : ℚ) / D.length / (D.flatten.toFinset).card) := by
    unfold describe
    simp only
    rw [mean_some _ (by simpa using hD), Option.bind_some, hcard, if_neg hpos.ne', hs, List.length_map]
  have h1 : ((D.length : ℕ) : ℚ) ≠ 0 := by exact_mod_cast hlen.ne'
  have h2 : (((D.flatten.toFinset).card : ℕ) : ℚ) ≠ 0 := by exact_mod_cast hpos.ne'
  have hle' := sum_le_mul _ _ hle
  have heq' := sum_eq_mul _ _ hle
  rw [List.length_map] at hle' heq'
  generalize hS : (D.map (fun t => t.toFinset.card)).sum = S at *
  generalize hC : (D.flatten.toFinset).card = C at *
  have hprod : (0 : ℚ) < (D.length : ℚ) * C := by positivity
  refine ⟨_, hden, ?_, by positivity, ?_, ?_⟩
  · field_simp
  · rw [div_div, div_le_one hprod]
    exact_mod_cast hle'
  · rw [div_div, div_eq_one_iff_eq hprod.ne']
    have : ((S : ℚ) = (D.length : ℚ) * C) ↔ S = D.length * C := by exact_mod_cast Iff.rfl
    rw [this, heq']
    constructor
    · intro h t ht u hu x hx
      have hc := h _ (List.mem_map.2 ⟨t, ht, rfl⟩)
      have := Finset.eq_of_subset_of_card_le (hsub t ht) (by rw [hc, hC])
      rw [← List.mem_toFinset, this, List.mem_toFinset, List.mem_flatten]
      exact ⟨u, hu, hx⟩
    · intro h x hx
      obtain ⟨t, ht, rfl⟩ := List.mem_map.1 hx
      rw [← hC]
      congr 1
      refine Finset.Subset.antisymm (hsub t ht) (fun y hy => ?_)
      obtain ⟨u, hu, hy⟩ := List.mem_flatten.1 (List.mem_toFinset.1 hy)
      exact List.mem_toFinset.2 (h t ht u hu y hy)

/-- C168 fails: repeated items are counted in the sizes but not among the items, and the density of one transaction with `n + 1` times the same item is `n + 1`. -/
theorem density_above_one (x : α) (n : ℕ) : (describe [List.replicate (n + 1) x]).density = some ((n : ℚ) + 1) := by
  have hd : (List.replicate (n + 1) x).dedup.length = 1 := by
    rw [List.replicate_dedup (by omega)]
    rfl
  unfold describe
  simp only [List.flatten_cons, List.flatten_nil, List.append_nil]
  rw [hd, mean_some _ (by simp)]
  simp

/-- C168. Data without any item have no density. -/
theorem density_undefined (D : List (List α)) (h : ∀ t ∈ D, t = []) : (describe D).density = none := by
  have : D.flatten = [] := List.flatten_eq_nil_iff.2 h
  unfold describe
  simp only [this, List.dedup_nil, List.length_nil, if_true]
  cases mean (D.map (fun t => (t.length : ℚ))) <;> rfl

/-- Two transactions over three items: five elements of six. -/
example : describe [[1, 2], [3, 1, 2]] = ⟨3, some (5 / 2), 2, some (5 / 6)⟩ := by decide +kernel

end Transactions

section Logs

variable {α : Type*} [LinearOrder α]

theorem foldl_max (ts : List ℤ) (t : ℤ) : ts.foldl max t ∈ t :: ts ∧ ∀ x ∈ t :: ts, x ≤ ts.foldl max t := by
  induction ts generalizing t with
  | nil => simp
  | cons a ts ih =>
    rw [List.foldl_cons]
    obtain ⟨h1, h2⟩ := ih (max t a)
    have hm := h2 (max t a) List.mem_cons_self
    refine ⟨?_, fun x hx => ?_⟩
    · rcases List.mem_cons.1 h1 with h | h
      · rw [h]; rcases max_choice t a with h' | h' <;> rw [h'] <;> simp
      · exact List.mem_cons_of_mem _ (List.mem_cons_of_mem _ h)
    · rcases List.mem_cons.1 hx with h | h
      · rw [h]; exact (le_max_left _ _).trans hm
      · rcases List.mem_cons.1 h with h | h
        · rw [h]; exact (le_max_right _ _).trans hm
        · exact h2 x (List.mem_cons_of_mem _ h)

theorem foldl_min (ts : List ℤ) (t : ℤ) : ts.foldl min t ∈ t :: ts ∧ ∀ x ∈ t :: ts, ts.foldl min t ≤ x := by
  induction ts generalizing t with
  | nil => simp
  | cons a ts ih =>
    rw [List.foldl_cons]
    obtain ⟨h1, h2⟩ := ih (min t a)
    have hm := h2 (min t a) List.mem_cons_self
    refine ⟨?_, fun x hx => ?_⟩
    · rcases List.mem_cons.1 h1 with h | h
      · rw [h]; rcases min_choice t a with h' | h' <;> rw [h'] <;> simp
      · exact List.mem_cons_of_mem _ (List.mem_cons_of_mem _ h)
    · rcases List.mem_cons.1 hx with h | h
      · rw [h]; exact hm.trans (min_le_left _ _)
      · rcases List.mem_cons.1 h with h | h
        · rw [h]; exact hm.trans (min_le_right _ _)
        · exact h2 x (List.mem_cons_of_mem _ h)

theorem spanOf_spec (l : List ℤ) (h : l ≠ []) : ∃ a ∈ l, ∃ b ∈ l, (∀ t ∈ l, a ≤ t ∧ t ≤ b) ∧ spanOf l = b - a := by
  cases l with
  | nil => exact absurd rfl h
  | cons t ts =>
    obtain ⟨h1, h2⟩ := foldl_max ts t
    obtain ⟨h3, h4⟩ := foldl_min ts t
    exact ⟨_, h3, _, h1, fun x hx => ⟨h4 x hx, h2 x hx⟩, rfl⟩

/-- The number of rows of a log with one of the events of a list without repetition. -/
theorem sum_counts (S : List (ℤ × Option α)) (es : List α) (hn : es.Nodup) :
    (es.map (fun e => (S.filter (fun r => r.2 = some e)).length)).sum = (S.filter (fun r => r.2.any (fun e => e ∈ es))).length := by
  induction S with
  | nil => simp
  | cons r S ih =>
    have hstep : ∀ e, ((r :: S).filter (fun r => r.2 = some e)).length = (if r.2 = some e then 1 else 0) + (S.filter (fun r => r.2 = some e)).length := by
      intro e
      rw [List.filter_cons]
      by_cases h : r.2 = some e
      · rw [if_pos (decide_eq_true h), if_pos h, List.length_cons]; omega
      · rw [if_neg (by simpa using h), if_neg h]; omega
    simp only [hstep]
    rw [List.sum_map_add, ih, List.filter_cons]
    have hcnt : (es.map (fun e => if r.2 = some e then 1 else 0)).sum = if r.2.any (fun e => e ∈ es) then 1 else 0 := by
      cases hr : r.2 with
      | none => simp
      | some f =>
        simp only [Option.any_some, Option.some.injEq, decide_eq_true_eq]
        clear ih hstep
        induction es with
        | nil => simp
        | cons e es ihe =>
          obtain ⟨h1, h2⟩ := List.nodup_cons.1 hn
          rw [List.map_cons, List.sum_cons, ihe h2]
          by_cases h : f = e
          · subst h; simp [h1]
          · simp [h]
    rw [hcnt]
    split_ifs <;> simp <;> omega

/-- C169. For a log with some event: the number of different events, the average number of rows of an event, and the average time between the first and the last row of an event. Averages are given by their products with the number of events. Rows without event are left
out. The average time is at most the duration of the log. -/
theorem logs_right (S : List (ℤ × Option α)) (h : ∃ r ∈ S, r.2 ≠ none) :
    ∃ r, describeLogs S = some r ∧ r.nEvents = (S.filterMap Prod.snd).toFinset.card ∧
      r.avgPoints * r.nEvents = ((S.filter (fun x => x.2.isSome)).length : ℕ) ∧
      (∃ span : α → ℤ, r.avgDelta * r.nEvents = ∑ e ∈ (S.filterMap Prod.snd).toFinset, (span e : ℚ) ∧
        ∀ e ∈ S.filterMap Prod.snd, ∃ a b, (a, some e) ∈ S ∧ (b, some e) ∈ S ∧ (∀ t, (t, some e) ∈ S → a ≤ t ∧ t ≤ b) ∧ span e = b - a) ∧
      0 ≤ r.avgDelta ∧ ∀ first last : ℤ, (∀ x ∈ S, first ≤ x.1 ∧ x.1 ≤ last) → r.avgDelta ≤ last - first := by
  obtain ⟨⟨t0, o0⟩, hr0, ho0⟩ := h
  obtain ⟨e0, rfl⟩ := Option.ne_none_iff_exists'.1 ho0
  set es := (S.filterMap Prod.snd).dedup.insertionSort (· ≤ ·) with hes
  have hperm : es.Perm (S.filterMap Prod.snd).dedup := List.perm_insertionSort _ _
  have hnd : es.Nodup := hperm.nodup_iff.2 (List.nodup_dedup _)
  have hmem : ∀ e, e ∈ es ↔ e ∈ S.filterMap Prod.snd := fun e => by rw [hperm.mem_iff, List.mem_dedup]
  have he0 : e0 ∈ es := (hmem e0).2 (List.mem_filterMap.2 ⟨_, hr0, rfl⟩)
  have hne : es ≠ [] := List.ne_nil_of_mem he0
  have hfin : es.toFinset = (S.filterMap Prod.snd).toFinset := by ext e; rw [List.mem_toFinset, List.mem_toFinset, hmem]
  have hcard : es.length = (S.filterMap Prod.snd).toFinset.card := by rw [← hfin, List.toFinset_card_of_nodup hnd]
  set tm : α → List ℤ := fun e => (S.filter (fun r => r.2 = some e)).map Prod.fst with htm
  have htmem : ∀ e t, t ∈ tm e ↔ (t, some e) ∈ S := by
    intro e t
    simp only [htm, List.mem_map, List.mem_filter, decide_eq_true_eq]
    constructor
    · rintro ⟨⟨t', o⟩, ⟨h1, h2⟩, rfl⟩
      simp only at h2
      rw [← h2]; exact h1
    · intro h; exact ⟨(t, some e), ⟨h, rfl⟩, rfl⟩
  have htne : ∀ e ∈ es, tm e ≠ [] := by
    intro e he
    obtain ⟨⟨t, o⟩, h1, h2⟩ := List.mem_filterMap.1 ((hmem e).1 he)
    simp only at h2
    exact List.ne_nil_of_mem ((htmem e t).2 (by rw [← h2]; exact h1))
  have hgr : groups S = es.map (fun e => (e, tm e)) := rfl
  have hlen : ((es.length : ℕ) : ℚ) ≠ 0 := by exact_mod_cast (List.length_pos_iff.2 hne).ne'
  have hlp : (0 : ℚ) < es.length := by exact_mod_cast List.length_pos_iff.2 hne
  have hspan : ∀ e ∈ es, ∃ a b, (a, some e) ∈ S ∧ (b, some e) ∈ S ∧ (∀ t, (t, some e) ∈ S → a ≤ t ∧ t ≤ b) ∧ spanOf (tm e) = b - a := by
    intro e he
    obtain ⟨a, ha, b, hb, hab, hs⟩ := spanOf_spec _ (htne e he)
    exact ⟨a, b, (htmem e a).1 ha, (htmem e b).1 hb, fun t ht => hab t ((htmem e t).2 ht), hs⟩
  have hd : describeLogs S = some ⟨es.length, (es.map (fun e => (spanOf (tm e) : ℚ))).sum / es.length, (es.map (fun e => ((tm e).length : ℚ))).sum / es.length⟩ := by
    unfold describeLogs
    simp only [hgr, List.map_map, Function.comp_def]
    rw [mean_some _ (by simpa using hne), mean_some _ (by simpa using hne)]
    simp only [List.length_map]
  refine ⟨_, hd, hcard, ?_, ⟨fun e => spanOf (tm e), ?_, fun e he => hspan e ((hmem e).2 he)⟩, ?_, fun first last hfl => ?_⟩
  · simp only
    rw [div_mul_cancel₀ _ hlen]
    have hc := sum_counts S es hnd
    have hf : S.filter (fun r => r.2.any (fun e => e ∈ es)) = S.filter (fun x => x.2.isSome) := by
      apply List.filter_congr
      intro x hx
      cases hx2 : x.2 with
      | none => rfl
      | some f =>
        have : f ∈ es := (hmem f).2 (List.mem_filterMap.2 ⟨x, hx, hx2⟩)
        simp [this]
    rw [hf] at hc
    rw [← hc, cast_sum, List.map_map]
    simp only [htm, Function.comp_def, List.length_map]
  · simp only
    rw [div_mul_cancel₀ _ hlen, ← hfin, List.sum_toFinset _ hnd]
  · simp only
    refine div_nonneg (List.sum_nonneg ?_) hlp.le
    intro x hx
    obtain ⟨e, he, rfl⟩ := List.mem_map.1 hx
    obtain ⟨a, b, ha, _, hab, hs⟩ := hspan e he
    have := (hab a ha).2
    rw [hs]
    exact_mod_cast (by omega : 0 ≤ b - a)
  · simp only
    rw [div_le_iff₀ hlp]
    have : ∀ l : List ℚ, ∀ c : ℚ, (∀ x ∈ l, x ≤ c) → l.sum ≤ c * l.length := by
      intro l c
      induction l with
      | nil => intro _; simp
      | cons a l ih =>
        intro h
        rw [List.sum_cons, List.length_cons]
        have h1 := h a List.mem_cons_self
        have h2 := ih (fun x hx => h x (List.mem_cons_of_mem _ hx))
        push_cast
        linarith
    have hk := this (es.map (fun e => (spanOf (tm e) : ℚ))) ((last : ℚ) - first) (fun x hx => by
      obtain ⟨e, he, rfl⟩ := List.mem_map.1 hx
      obtain ⟨a, b, ha, hb, _, hs⟩ := hspan e he
      have h1 := (hfl _ ha).1
      have h2 := (hfl _ hb).2
      simp only at h1 h2
      rw [hs]
      exact_mod_cast (by omega : b - a ≤ last - first))
    rwa [List.length_map] at hk

/-- Event `a = 0` at 3, 10, 4 and `b = 1` at 5; one row without event. -/
example : describeLogs [(3, some 0), (10, some 0), (5, some 1), (4, some 0), (90, none)] = some ⟨2, 7 / 2, 2⟩ := by decide +kernel

end Logs

end Verif.Describe
