import Verif.Slim.SizeProps
import Mathlib.Tactic.Linarith
import Mathlib.Tactic.LinearCombination

/-! # The estimated gain of a candidate of SLIM (C99) -/

set_option autoImplicit false
set_option linter.unusedSectionVars false

namespace Verif.Slim

variable {α κ : Type*} [LinearOrder α] [LinearOrder κ]

/-- The table where the union of `x` and `y` takes over the transactions in which both are used. -/
def mergeTable (tab : Table α) (x y : Finset α × Finset ℕ) : Table α :=
  (x.1 ∪ y.1, x.2 ∩ y.2) :: tab.map (fun e => if e = x ∨ e = y then (e.1, e.2 \ (x.2 ∩ y.2)) else e)

/-- The part of the size that depends on one entry only. -/
noncomputable def entryPart (D : List (List α)) (e : Finset α × Finset ℕ) : ℝ :=
  -(e.2.card : ℝ) * Real.logb 2 e.2.card + (if e.2.card = 0 then 0 else ∑ a ∈ e.1, stdLen D a - Real.logb 2 e.2.card)

theorem bits_closed (D : List (List α)) (tab : Table α) (h : ∀ e ∈ tab, ∀ t ∈ e.2, t < D.length) :
    bits D tab = ((uses tab : ℝ) + (tab.countP (fun e => decide (0 < e.2.card)) : ℕ)) * Real.logb 2 (uses tab) + (tab.map (entryPart D)).sum := by
  unfold bits modelBits
  rw [← double_count _ _ _ h]
  obtain ⟨S, hS⟩ : ∃ S, S = uses tab := ⟨_, rfl⟩
  have hcl : ∀ e ∈ tab, 0 < e.2.card → codeLen tab e = Real.logb 2 S - Real.logb 2 e.2.card := by
    intro e he hc
    have hS0 : (0 : ℝ) < S := by
      have : e.2.card ≤ S := by
        rw [hS]
        unfold uses
        exact List.single_le_sum (fun _ _ => Nat.zero_le _) _ (List.mem_map_of_mem he)
      exact_mod_cast lt_of_lt_of_le hc this
    have hc' : (0 : ℝ) < e.2.card := by exact_mod_cast hc
    unfold codeLen
    rw [← hS, Real.logb_div hc'.ne' hS0.ne']
    ring
  have hu : (S : ℝ) = (tab.map (fun e => (e.2.card : ℝ))).sum := by
    rw [hS]
    unfold uses
    rw [Nat.cast_list_sum, List.map_map]
    rfl
  rw [← hS]
  generalize codeLen tab = cl at hcl
  generalize Real.logb 2 (S : ℝ) = L at hcl
  rw [hu]
  clear hu hS h
  induction tab with
  | nil => simp
  | cons e tab ih =>
    have ih' := ih (fun e' he' => hcl e' (List.mem_cons_of_mem _ he'))
    by_cases hc : e.2.card = 0
    · have he : e.2 = ∅ := Finset.card_eq_zero.1 hc
      rw [List.filter_cons_of_neg (by simpa using he), List.countP_cons_of_neg (by simp [hc])]
      simp only [List.map_cons, List.sum_cons]
      unfold entryPart
      rw [if_pos hc, hc]
      have := ih'
      unfold entryPart at this
      simp only [Nat.cast_zero]
      linear_combination this
    · have he : e.2 ≠ ∅ := fun h0 => hc (by rw [h0]; rfl)
      rw [List.filter_cons_of_pos (by simpa using he), List.countP_cons_of_pos (by simpa using Nat.pos_of_ne_zero hc)]
      simp only [List.map_cons, List.sum_cons]
      rw [hcl e List.mem_cons_self (Nat.pos_of_ne_zero hc)]
      have h2 : entryPart D e = -(e.2.card : ℝ) * Real.logb 2 e.2.card + (∑ a ∈ e.1, stdLen D a - Real.logb 2 e.2.card) := by
        unfold entryPart
        rw [if_neg hc]
      rw [h2]
      push_cast
      linear_combination ih'

theorem merge_perm (x y : Finset α × Finset ℕ) (rest tab : Table α) (hp : tab.Perm (x :: y :: rest)) (hnd : (tab.map Prod.fst).Nodup) :
    (mergeTable tab x y).Perm ((x.1 ∪ y.1, x.2 ∩ y.2) :: (x.1, x.2 \ (x.2 ∩ y.2)) :: (y.1, y.2 \ (x.2 ∩ y.2)) :: rest) := by
  unfold mergeTable
  refine List.Perm.cons _ ?_
  refine (hp.map _).trans ?_
  rw [List.map_cons, List.map_cons, if_pos (Or.inl rfl), if_pos (Or.inr rfl)]
  have hnd2 : (x :: y :: rest).Nodup := (List.Nodup.of_map _ hnd).perm hp
  rw [List.nodup_cons, List.nodup_cons] at hnd2
  have : rest.map (fun e => if e = x ∨ e = y then (e.1, e.2 \ (x.2 ∩ y.2)) else e) = rest := by
    conv_rhs => rw [← List.map_id rest]
    refine List.map_congr_left (fun e he => ?_)
    rw [if_neg]
    · rfl
    · rintro (rfl | rfl)
      · exact hnd2.1 (List.mem_cons_of_mem _ he)
      · exact hnd2.2.1 he
  rw [this]

theorem gain_aux (D : List (List α)) (tab rest : Table α) (x y : Finset α × Finset ℕ) (hp : tab.Perm (x :: y :: rest)) (hnd : (tab.map Prod.fst).Nodup)
    (hlt : ∀ e ∈ tab, ∀ t ∈ e.2, t < D.length) (hxy : (x.2 ∩ y.2).Nonempty) (hd : Disjoint x.1 y.1) :
    gainOf (stdLen D) tab x y = (bits D tab - bits D (mergeTable tab x y)) + max (∑ a ∈ x.1, stdLen D a) (∑ a ∈ y.1, stdLen D a)
      - (if y.2 ⊆ x.2 then 2 * (∑ a ∈ y.1, stdLen D a - Real.logb 2 y.2.card) else 0) := by
  have hp2 := merge_perm x y rest tab hp hnd
  have hlt' : ∀ e ∈ mergeTable tab x y, ∀ t ∈ e.2, t < D.length := by
    intro e he t ht
    have hx : x ∈ tab := hp.mem_iff.2 List.mem_cons_self
    have hy : y ∈ tab := hp.mem_iff.2 (List.mem_cons_of_mem _ List.mem_cons_self)
    rcases List.mem_cons.1 (hp2.mem_iff.1 he) with rfl | he
    · exact hlt x hx t (Finset.mem_inter.1 ht).1
    · rcases List.mem_cons.1 he with rfl | he
      · exact hlt x hx t (Finset.mem_sdiff.1 ht).1
      · rcases List.mem_cons.1 he with rfl | he
        · exact hlt y hy t (Finset.mem_sdiff.1 ht).1
        · exact hlt e (hp.mem_iff.2 (List.mem_cons_of_mem _ (List.mem_cons_of_mem _ he))) t ht
  rw [bits_closed D tab hlt, bits_closed D _ hlt', uses_perm hp2, hp2.countP_eq, (hp2.map _).sum_eq, uses_perm hp, hp.countP_eq, (hp.map _).sum_eq]
  have hcx : (x.2 \ (x.2 ∩ y.2)).card = x.2.card - (x.2 ∩ y.2).card := Finset.card_sdiff_of_subset Finset.inter_subset_left
  have hcy : (y.2 \ (x.2 ∩ y.2)).card = y.2.card - (x.2 ∩ y.2).card := Finset.card_sdiff_of_subset Finset.inter_subset_right
  have hc : 0 < (x.2 ∩ y.2).card := Finset.card_pos.2 hxy
  have hlex : (x.2 ∩ y.2).card ≤ x.2.card := Finset.card_le_card Finset.inter_subset_left
  have hley : (x.2 ∩ y.2).card ≤ y.2.card := Finset.card_le_card Finset.inter_subset_right
  have hsub : y.2 ⊆ x.2 ↔ y.2.card - (x.2 ∩ y.2).card = 0 := by
    rw [← hcy, Finset.card_eq_zero, Finset.sdiff_eq_empty_iff_subset]
    constructor
    · intro h t ht; exact Finset.mem_inter.2 ⟨h ht, ht⟩
    · intro h t ht; exact (Finset.mem_inter.1 (h ht)).1
  have hso : ∀ X : Finset α, ((sortSet X).map (stdLen D)).sum = ∑ a ∈ X, stdLen D a := by
    intro X
    rw [← List.sum_toFinset _ (nodup_sortSet X)]
    refine Finset.sum_congr ?_ (fun _ _ => rfl)
    ext a
    rw [List.mem_toFinset, mem_sortSet]
  have hun : ∑ a ∈ x.1 ∪ y.1, stdLen D a = ∑ a ∈ x.1, stdLen D a + ∑ a ∈ y.1, stdLen D a := Finset.sum_union hd
  unfold gainOf
  simp only [log2z_eq, hso, Finset.inter_comm y.2 x.2]
  rw [hp.countP_eq, (hp.map (fun e => e.2.card)).sum_eq]
  unfold uses
  simp only [List.map_cons, List.sum_cons, List.countP_cons, hcx, hcy, if_congr hsub rfl rfl]
  unfold entryPart
  simp only [hcx, hcy, hun]
  generalize ∑ a ∈ x.1, stdLen D a = sx
  generalize ∑ a ∈ y.1, stdLen D a = sy
  generalize (x.2 ∩ y.2).card = c at hc hlex hley
  obtain ⟨nx, hnx⟩ : ∃ nx, x.2.card = c + nx := ⟨_, (Nat.add_sub_cancel' hlex).symm⟩
  obtain ⟨ny, hny⟩ : ∃ ny, y.2.card = c + ny := ⟨_, (Nat.add_sub_cancel' hley).symm⟩
  rw [hnx, hny]
  simp only [Nat.add_sub_cancel_left]
  generalize (rest.map (fun e => e.2.card)).sum = R
  generalize rest.countP (fun e => decide (0 < e.2.card)) = K
  generalize (rest.map (fun e : Finset α × Finset ℕ => -(e.2.card : ℝ) * Real.logb 2 e.2.card + (if e.2.card = 0 then 0 else ∑ a ∈ e.1, stdLen D a - Real.logb 2 e.2.card))).sum = G
  have hS' : c + nx + (c + ny + R) - c = c + (nx + (ny + R)) := by omega
  rw [hS']
  have hcc : c ≠ 0 := by omega
  have e1 : nx ≠ c + nx := by omega
  have e2 : ny ≠ c + ny := by omega
  have e3 : c + nx ≠ 0 := by omega
  have e4 : c + ny ≠ 0 := by omega
  have hmm : max sx sy = sx + sy - min sx sy := by rw [← max_add_min sx sy]; ring
  rw [hmm]
  simp only [e1, e2, e3, e4, hcc, hc, Nat.pos_of_ne_zero e3, Nat.pos_of_ne_zero e4, ne_eq, not_false_eq_true, if_true, if_false, decide_true]
  generalize Real.logb 2 ((c + nx + (c + ny + R) : ℕ) : ℝ) = lS
  generalize Real.logb 2 ((c + (nx + (ny + R)) : ℕ) : ℝ) = lS'
  generalize Real.logb 2 (c : ℝ) = lc
  generalize Real.logb 2 ((c + nx : ℕ) : ℝ) = lux
  generalize Real.logb 2 ((c + ny : ℕ) : ℝ) = luy
  rcases Nat.eq_zero_or_pos nx with rfl | hx0
  · rcases Nat.eq_zero_or_pos ny with rfl | hy0
    · simp
      ring
    · have hy1 : ny ≠ 0 := by omega
      simp [hy0, hy1]
      ring
  · have hx1 : nx ≠ 0 := by omega
    rcases Nat.eq_zero_or_pos ny with rfl | hy0
    · simp [hx0, hx1]
      ring
    · have hy1 : ny ≠ 0 := by omega
      simp [hy0, hy1, hx0, hx1]
      ring

theorem perm_two {tab : Table α} {x y : Finset α × Finset ℕ} (hx : x ∈ tab) (hy : y ∈ tab) (hne : x ≠ y) : ∃ rest, tab.Perm (x :: y :: rest) := by
  obtain ⟨l1, l2, rfl⟩ := List.append_of_mem hx
  have h1 : (l1 ++ x :: l2).Perm (x :: (l1 ++ l2)) := List.perm_middle
  have hy2 : y ∈ l1 ++ l2 := by
    rcases List.mem_cons.1 (h1.mem_iff.1 hy) with h | h
    · exact absurd h.symm hne
    · exact h
  obtain ⟨m1, m2, hm⟩ := List.append_of_mem hy2
  refine ⟨m1 ++ m2, h1.trans (List.Perm.cons _ ?_)⟩
  rw [hm]
  exact List.perm_middle

/-- C99, what holds. Let `x`, `y` be two entries of the code table used together in a transaction. The gain estimated for their union is the number of bits saved when the union takes over the transactions in which both are used
(`mergeTable`), plus the larger of the standard lengths of `x` and `y`, minus, when `y` is not used any more, twice the difference between the standard length of `y` and the logarithm of its old usage. Missing: the estimate is not the
number of bits saved. -/
theorem gain_exact_partial (key : Finset α → κ) (pruning : Bool) (items : List α) (D : List (List α)) (st : State α ℝ) (h : ReachExact key pruning items D st)
    (x y : Finset α × Finset ℕ) (hx : x ∈ st.ct) (hy : y ∈ st.ct) (hne : x ≠ y) (hxy : ∃ t, t ∈ x.2 ∧ t ∈ y.2) :
    gainOf (startCode (toVertical ∅ D)) st.ct x y =
      ((dataBits (codeLen st.ct) st.ct D.length + modelBits D st.ct)
        - (dataBits (codeLen (mergeTable st.ct x y)) (mergeTable st.ct x y) D.length + modelBits D (mergeTable st.ct x y)))
      + max (∑ a ∈ x.1, stdLen D a) (∑ a ∈ y.1, stdLen D a) - (if y.2 ⊆ x.2 then 2 * (∑ a ∈ y.1, stdLen D a - Real.logb 2 y.2.card) else 0) := by
  obtain ⟨hg, hk, ho⟩ := reach_inv items D st h.reach
  have hl := lossless_of_good hg ho
  obtain ⟨rest, hp⟩ := perm_two hx hy hne
  obtain ⟨t, h1, h2⟩ := hxy
  have hst : startCode (toVertical ∅ D) = stdLen D := by funext a; exact startCode_eq D a
  rw [hst]
  refine gain_aux D st.ct rest x y hp hl.nodup (tids_lt hl (fun e he => hg.keys.nonempty _ (mem_key_of_mem he))) ⟨t, Finset.mem_inter.2 ⟨h1, h2⟩⟩ ?_
  rw [Finset.disjoint_left]
  intro a ha ha'
  exact hne (hl.unique x hx y hy a ha t h1 ha' h2)

/-- The table after the union took over is a lossless cover, provided that the union is not in the table. -/
theorem merge_lossless {D : List (List α)} {tab : Table α} (hl : Lossless (Occurs D) tab) (x y : Finset α × Finset ℕ) (hx : x ∈ tab) (hy : y ∈ tab) (hne : x ≠ y)
    (hnew : x.1 ∪ y.1 ∉ tab.map Prod.fst) : Lossless (Occurs D) (mergeTable tab x y) := by
  obtain ⟨rest, hp⟩ := perm_two hx hy hne
  have hp2 := merge_perm x y rest tab hp hl.nodup
  have hm : ∀ e, e ∈ mergeTable tab x y ↔ e = (x.1 ∪ y.1, x.2 ∩ y.2) ∨ ∃ e' ∈ tab, e = (e'.1, if e' = x ∨ e' = y then e'.2 \ (x.2 ∩ y.2) else e'.2) := by
    intro e
    unfold mergeTable
    rw [List.mem_cons, List.mem_map]
    refine or_congr Iff.rfl ⟨?_, ?_⟩
    · rintro ⟨e', he', rfl⟩
      refine ⟨e', he', ?_⟩
      split_ifs <;> rfl
    · rintro ⟨e', he', rfl⟩
      refine ⟨e', he', ?_⟩
      split_ifs <;> rfl
  have hsub : ∀ e' : Finset α × Finset ℕ, ∀ t, (t ∈ if e' = x ∨ e' = y then e'.2 \ (x.2 ∩ y.2) else e'.2) → t ∈ e'.2 := by
    intro e' t ht
    split_ifs at ht
    · exact (Finset.mem_sdiff.1 ht).1
    · exact ht
  refine ⟨?_, ?_, ?_, ?_⟩
  · unfold mergeTable
    rw [List.map_cons, List.map_map]
    have : (Prod.fst ∘ fun e : Finset α × Finset ℕ => if e = x ∨ e = y then (e.1, e.2 \ (x.2 ∩ y.2)) else e) = Prod.fst := by
      funext e
      rw [Function.comp_apply]
      split_ifs <;> rfl
    rw [this]
    exact List.nodup_cons.2 ⟨hnew, hl.nodup⟩
  · intro a t hat
    obtain ⟨e, he, ha, ht⟩ := hl.complete a t hat
    by_cases hc : (e = x ∨ e = y) ∧ t ∈ x.2 ∩ y.2
    · refine ⟨_, (hm _).2 (Or.inl rfl), ?_, hc.2⟩
      rcases hc.1 with rfl | rfl
      · exact Finset.mem_union_left _ ha
      · exact Finset.mem_union_right _ ha
    · refine ⟨_, (hm _).2 (Or.inr ⟨e, he, rfl⟩), ha, ?_⟩
      by_cases hexy : e = x ∨ e = y
      · simp only [if_pos hexy]
        exact Finset.mem_sdiff.2 ⟨ht, fun h => hc ⟨hexy, h⟩⟩
      · simp only [if_neg hexy]
        exact ht
  · intro e he a ha t ht
    rcases (hm e).1 he with rfl | ⟨e', he', rfl⟩
    · rcases Finset.mem_union.1 ha with ha | ha
      · exact hl.sound x hx a ha t (Finset.mem_inter.1 ht).1
      · exact hl.sound y hy a ha t (Finset.mem_inter.1 ht).2
    · exact hl.sound e' he' a ha t (hsub e' t ht)
  · have aux : ∀ e' ∈ tab, ∀ a ∈ e'.1, ∀ t, (t ∈ if e' = x ∨ e' = y then e'.2 \ (x.2 ∩ y.2) else e'.2) → a ∈ x.1 ∪ y.1 → t ∈ x.2 ∩ y.2 → False := by
      intro e' he' a ha t ht ha2 ht2
      have hin : e' = x ∨ e' = y := by
        rcases Finset.mem_union.1 ha2 with h | h
        · exact Or.inl (hl.unique e' he' x hx a ha t (hsub e' t ht) h (Finset.mem_inter.1 ht2).1)
        · exact Or.inr (hl.unique e' he' y hy a ha t (hsub e' t ht) h (Finset.mem_inter.1 ht2).2)
      rw [if_pos hin] at ht
      exact (Finset.mem_sdiff.1 ht).2 ht2
    intro e he e2 he2 a ha t ht ha2 ht2
    rcases (hm e).1 he with rfl | ⟨e', he', rfl⟩
    · rcases (hm e2).1 he2 with rfl | ⟨e2', he2', rfl⟩
      · rfl
      · exact (aux e2' he2' a ha2 t ht2 ha ht).elim
    · rcases (hm e2).1 he2 with rfl | ⟨e2', he2', rfl⟩
      · exact (aux e' he' a ha t ht ha2 ht2).elim
      · rw [hl.unique e' he' e2' he2' a ha t (hsub e' t ht) ha2 (hsub e2' t ht2)]

/-! ## A candidate that is not tried -/

/-- Two transactions. -/
def missD : List (List ℕ) := [[2, 3], [3]]

/-- `_standard_cover_order`: longest first, then most frequent first (there are no ties here). -/
def missKey (X : Finset ℕ) : ℕ := (3 - X.card) * 10 + (2 - (interTids (lookup (toVertical ∅ missD)) X).card)

theorem miss_prefit (pruning : Bool) : (prefit (exactP missKey pruning missD) [] missD).ct = [({3}, {0, 1}), ({2}, {0})] := by
  cases pruning <;> decide

theorem miss_std : stdLen missD 2 = Real.logb 2 3 ∧ stdLen missD 3 = Real.logb 2 3 - 1 := by
  have h1 : freq missD 2 = 1 := by decide
  have h2 : freq missD 3 = 2 := by decide
  have h3 : volume missD = 3 := by decide
  unfold stdLen
  rw [h1, h2, h3]
  constructor
  · rw [Real.logb_div (by norm_num) (by norm_num)]
    simp
  · rw [Real.logb_div (by norm_num) (by norm_num)]
    norm_num

theorem miss_before : bits missD [({3}, {0, 1}), ({2}, {0})] = 7 * Real.logb 2 3 - 4 := by
  rw [bits_closed missD _ (by decide)]
  have h1 : uses [(({3} : Finset ℕ), ({0, 1} : Finset ℕ)), ({2}, {0})] = 3 := by decide
  have h2 : [(({3} : Finset ℕ), ({0, 1} : Finset ℕ)), ({2}, {0})].countP (fun e => decide (0 < e.2.card)) = 2 := by decide
  have h3 : ({0, 1} : Finset ℕ).card = 2 := by decide
  rw [h1, h2]
  simp only [List.map_cons, List.map_nil, List.sum_cons, List.sum_nil, entryPart, h3, Finset.card_singleton, Finset.sum_singleton, miss_std]
  norm_num
  ring

theorem miss_after : bits missD [({2, 3}, {0}), ({3}, {1}), ({2}, ∅)] = 3 * Real.logb 2 3 + 2 := by
  rw [bits_closed missD _ (by decide)]
  have h1 : uses [(({2, 3} : Finset ℕ), ({0} : Finset ℕ)), ({3}, {1}), ({2}, ∅)] = 2 := by decide
  have h2 : [(({2, 3} : Finset ℕ), ({0} : Finset ℕ)), ({3}, {1}), ({2}, ∅)].countP (fun e => decide (0 < e.2.card)) = 2 := by decide
  rw [h1, h2]
  simp only [List.map_cons, List.map_nil, List.sum_cons, List.sum_nil, entryPart, Finset.card_singleton, Finset.card_empty, Finset.sum_singleton, miss_std,
    Finset.sum_pair (show (2 : ℕ) ≠ 3 by decide)]
  norm_num
  ring

theorem log23 : 3 / 2 < Real.logb 2 3 ∧ Real.logb 2 3 < 2 := by
  constructor
  · rw [Real.lt_logb_iff_rpow_lt (by norm_num) (by norm_num)]
    have h1 : ((2 : ℝ) ^ (3 / 2 : ℝ)) ^ 2 = 8 := by
      rw [← Real.rpow_natCast, ← Real.rpow_mul (by norm_num)]
      norm_num
    have h2 : (0 : ℝ) < (2 : ℝ) ^ (3 / 2 : ℝ) := by positivity
    nlinarith
  · rw [Real.logb_lt_iff_lt_rpow (by norm_num) (by norm_num)]
    norm_num

theorem miss_update (pruning : Bool) (choose : Chooser ℕ) : ∃ st', update (exactP missKey pruning missD) choose (prefit (exactP missKey pruning missD) [] missD) {2, 3} =
    some (.ok st') ∧ st'.ct = [({2, 3}, {0}), ({3}, {1}), ({2}, ∅)] := by
  have key : ((update (exactP missKey pruning missD) choose (prefit (exactP missKey pruning missD) [] missD) {2, 3}).bind Except.toOption).any
      (fun st => decide (st.ct = [({2, 3}, {0}), ({3}, {1}), ({2}, ∅)])) = true := by
    cases pruning <;> rfl
  rcases hx : update (exactP missKey pruning missD) choose (prefit (exactP missKey pruning missD) [] missD) {2, 3} with _ | _ | st
  · rw [hx] at key; cases key
  · rw [hx] at key; cases key
  · rw [hx] at key
    exact ⟨st, rfl, of_decide_eq_true key⟩

theorem miss_gain : gainOf (startCode (toVertical ∅ missD)) [({3}, {0, 1}), ({2}, {0})] ({3}, {0, 1}) ({2}, {0}) = 3 * Real.logb 2 3 - 6 := by
  have hst : startCode (toVertical ∅ missD) = stdLen missD := by funext a; exact startCode_eq missD a
  rw [hst, gain_aux missD _ [] _ _ (List.Perm.refl _) (by decide) (by decide) (by decide) (by decide)]
  have hm : mergeTable [(({3} : Finset ℕ), ({0, 1} : Finset ℕ)), ({2}, {0})] ({3}, {0, 1}) ({2}, {0}) = [({2, 3}, {0}), ({3}, {1}), ({2}, ∅)] := by decide
  rw [hm, miss_before, miss_after, if_pos (by decide)]
  simp only [Finset.sum_singleton, miss_std, Finset.card_singleton, Nat.cast_one, Real.logb_one]
  rw [max_eq_right (by linarith)]
  ring

/-- C99 fails. On `[[2, 3], [3]]`, with or without pruning, `fit` returns the singletons although the evaluation of `{2, 3}`, the only candidate, would show that it decreases the size: its estimated gain is negative. -/
theorem fit_misses (pruning : Bool) (O : Oracle ℕ) (henum : ∀ tab, O.enum 0 tab = tab)
    (hgain : ∀ tab x y, 0 < O.gain 0 tab x y ↔ 0 < gainOf (startCode (toVertical ∅ missD)) tab x y) (fuel : ℕ) :
    fit (exactP missKey pruning missD) O [] (fuel + 1) missD = some (.ok (prefit (exactP missKey pruning missD) [] missD)) ∧
    ∀ choose, ChooserOk choose → ∃ st', update (exactP missKey pruning missD) choose (prefit (exactP missKey pruning missD) [] missD) {2, 3} = some (.ok st') ∧
      st'.size < (prefit (exactP missKey pruning missD) [] missD).size := by
  obtain ⟨hl1, hl2⟩ := log23
  constructor
  · unfold fit fitLoop
    simp only
    rw [henum, miss_prefit]
    have hg : ¬ 0 < O.gain 0 [({3}, {0, 1}), ({2}, {0})] ({3}, {0, 1}) ({2}, {0}) := by
      rw [hgain, miss_gain]
      linarith
    have hc : (generateCandidates (O.gain 0 [({3}, {0, 1}), ({2}, {0})]) [({3}, {0, 1}), ({2}, {0})]
        ([(({3} : Finset ℕ), ({0, 1} : Finset ℕ)), ({2}, {0})].map Prod.fst).toFinset).1 = [] := by
      generalize O.gain 0 [({3}, {0, 1}), ({2}, {0})] = g at hg
      unfold generateCandidates genOuter genInner
      simp only [genInner, genOuter]
      rw [if_neg (by decide), if_neg (by decide), if_neg (by decide), if_neg (by decide), if_neg hg]
      rfl
    rw [hc]
    rfl
  · intro choose hch
    obtain ⟨st', hs, hct⟩ := miss_update pruning choose
    refine ⟨st', hs, ?_⟩
    have hr : ReachExact missKey pruning [] missD (prefit (exactP missKey pruning missD) [] missD) := .prefit
    have h1 := history_bits missKey pruning [] missD _ hr
    have h2 := history_bits missKey pruning [] missD _ (.update choose _ _ {2, 3} hr hch (by
      intro u hu
      rw [miss_prefit] at hu
      have h5 : ({2, 3} : Finset ℕ) ∉ [(({3} : Finset ℕ), ({0, 1} : Finset ℕ)), ({2}, {0})].map Prod.fst := by decide
      exact h5 (mem_key_of_mem hu)) hs)
    have h3 := miss_before
    have h4 := miss_after
    unfold bits at h3 h4
    rw [miss_prefit, h3] at h1
    rw [hct, h4] at h2
    rw [h1, h2]
    linarith

/-- Such an environment exists. -/
example : ∃ O : Oracle ℕ, OracleOk O ∧ (∀ tab, O.enum 0 tab = tab) ∧ ∀ tab x y, 0 < O.gain 0 tab x y ↔ 0 < gainOf (startCode (toVertical ∅ missD)) tab x y := by
  classical
  obtain ⟨choose, hch⟩ := chooserOk_exists (α := ℕ)
  refine ⟨⟨fun _ tab => tab, fun _ tab x y => if 0 < gainOf (startCode (toVertical ∅ missD)) tab x y then 1 else 0, fun _ _ => choose, fun _ => false⟩,
    ⟨fun _ _ => List.Perm.refl _, fun _ _ => hch⟩, fun _ => rfl, fun tab x y => ?_⟩
  simp only
  split_ifs with h
  · simp [h]
  · simp [h]

/-- The hypotheses of `gain_exact_partial` after `prefit([[2, 3], [3]])`. -/
example : ∃ x ∈ (prefit (exactP missKey true missD) [] missD).ct, ∃ y ∈ (prefit (exactP missKey true missD) [] missD).ct, x ≠ y ∧ ∃ t, t ∈ x.2 ∧ t ∈ y.2 := by
  rw [miss_prefit]
  exact ⟨({3}, {0, 1}), by decide, ({2}, {0}), by decide, by decide, 0, by decide, by decide⟩

/-- C99. The estimate depends on which of the two itemsets comes first: with `{2}` first the candidate would be kept. -/
theorem gain_order : gainOf (startCode (toVertical ∅ missD)) [({3}, {0, 1}), ({2}, {0})] ({3}, {0, 1}) ({2}, {0}) < 0 ∧
    0 < gainOf (startCode (toVertical ∅ missD)) [({2}, {0}), ({3}, {0, 1})] ({2}, {0}) ({3}, {0, 1}) := by
  obtain ⟨hl1, hl2⟩ := log23
  refine ⟨by rw [miss_gain]; linarith, ?_⟩
  have hst : startCode (toVertical ∅ missD) = stdLen missD := by funext a; exact startCode_eq missD a
  rw [hst, gain_aux missD _ [] _ _ (List.Perm.refl _) (by decide) (by decide) (by decide) (by decide)]
  have hm : mergeTable [(({2} : Finset ℕ), ({0} : Finset ℕ)), ({3}, {0, 1})] ({2}, {0}) ({3}, {0, 1}) = [({2, 3}, {0}), ({2}, ∅), ({3}, {1})] := by decide
  rw [hm, bits_perm missD (List.Perm.swap _ _ _), miss_before, bits_perm missD (List.Perm.cons _ (List.Perm.swap _ _ _)), miss_after, if_neg (by decide)]
  simp only [Finset.sum_singleton, miss_std]
  rw [max_eq_left (by linarith)]
  linarith

end Verif.Slim
