import Verif.Slim.SizeModel
import Verif.Slim.SizeSpec
import Verif.Slim.Props
import Mathlib.Algebra.BigOperators.Group.List.Lemmas
import Mathlib.Algebra.BigOperators.Group.Finset.Basic
import Mathlib.Algebra.BigOperators.Field
import Mathlib.Data.Finset.Dedup
import Mathlib.Data.List.Induction

/-! # The sizes of SLIM are code lengths (C98) -/

set_option autoImplicit false
set_option linter.unusedSectionVars false

namespace Verif.Slim

variable {α κ : Type*} [LinearOrder α] [LinearOrder κ]

theorem log2z_eq (x : ℝ) : log2z x = Real.logb 2 x := by
  unfold log2z
  split_ifs with h
  · rw [h, Real.logb_zero]
  · rfl

theorem zipWith_codes (usages : List ℕ) :
    (List.zipWith (fun (c : ℝ) (u : ℕ) => c * (u : ℝ)) (codesOf usages) usages).sum = (usages.map (fun u : ℕ => -Real.logb 2 ((u : ℝ) / (usages.sum : ℕ)) * (u : ℝ))).sum := by
  unfold codesOf
  rw [List.zipWith_map_left]
  congr 1
  rw [List.zipWith_self]
  simp only [log2z_eq]

theorem codes_sum (usages : List ℕ) : (codesOf usages).sum = (usages.map (fun u : ℕ => -Real.logb 2 ((u : ℝ) / (usages.sum : ℕ)))).sum := by
  unfold codesOf
  simp only [log2z_eq]

/-- Counting by itemset or by transaction. -/
theorem double_count (len : Finset α × Finset ℕ → ℝ) (tab : Table α) (n : ℕ) (h : ∀ e ∈ tab, ∀ t ∈ e.2, t < n) :
    (tab.map (fun e => len e * (e.2.card : ℝ))).sum = dataBits len tab n := by
  unfold dataBits transBits
  induction tab with
  | nil => simp
  | cons e tab ih =>
    rw [List.map_cons, List.sum_cons, ih (fun e' he' => h e' (List.mem_cons_of_mem _ he'))]
    have h1 : ∀ t, (((e :: tab).filter (fun e => decide (t ∈ e.2))).map len).sum = (if t ∈ e.2 then len e else 0) + ((tab.filter (fun e => decide (t ∈ e.2))).map len).sum := by
      intro t
      by_cases ht : t ∈ e.2
      · rw [List.filter_cons_of_pos (by simpa using ht), List.map_cons, List.sum_cons, if_pos ht]
      · rw [List.filter_cons_of_neg (by simpa using ht), if_neg ht, zero_add]
    simp only [h1]
    rw [Finset.sum_add_distrib]
    congr 1
    rw [← Finset.sum_filter, Finset.sum_const, nsmul_eq_mul, mul_comm]
    congr 3
    ext t
    rw [Finset.mem_filter, Finset.mem_range]
    exact ⟨fun ht => ⟨h e List.mem_cons_self t ht, ht⟩, fun ht => ht.2⟩

theorem uses_filter (tab : Table α) : uses (tab.filter (fun e => decide (e.2 ≠ ∅))) = uses tab := by
  unfold uses
  induction tab with
  | nil => rfl
  | cons e tab ih =>
    by_cases he : e.2 = ∅
    · rw [List.filter_cons_of_neg (by simpa using he), ih, List.map_cons, List.sum_cons, he, Finset.card_empty, zero_add]
    · rw [List.filter_cons_of_pos (by simpa using he), List.map_cons, List.sum_cons, ih, List.map_cons, List.sum_cons]

theorem dataBits_filter (len : Finset α × Finset ℕ → ℝ) (tab : Table α) (n : ℕ) : dataBits len (tab.filter (fun e => decide (e.2 ≠ ∅))) n = dataBits len tab n := by
  unfold dataBits transBits
  refine Finset.sum_congr rfl (fun t _ => ?_)
  rw [List.filter_filter]
  congr 2
  refine List.filter_congr (fun e _ => ?_)
  by_cases ht : t ∈ e.2
  · have : e.2 ≠ ∅ := Finset.ne_empty_of_mem ht
    simp [ht, this]
  · simp [ht]

theorem dataBits_congr (len len' : Finset α × Finset ℕ → ℝ) (tab : Table α) (n : ℕ) (h : ∀ e ∈ tab, len e = len' e) : dataBits len tab n = dataBits len' tab n := by
  unfold dataBits transBits
  refine Finset.sum_congr rfl (fun t _ => ?_)
  congr 1
  exact List.map_congr_left (fun e he => h e (List.mem_filter.1 he).1)

/-- C98. The two sizes computed for a code table: the data size is the sum over the transactions of the code lengths of the itemsets that cover them, the model size is the length of the itemsets in use written with the standard codes plus
that of their codes. `st` are the standard codes. -/
theorem compute_sizes (st : α → ℝ) (tab : Table α) (n : ℕ) (h : ∀ e ∈ tab, ∀ t ∈ e.2, t < n) :
    sizesOf st (tab.filter (fun e => decide (e.2 ≠ ∅))) =
      (dataBits (codeLen tab) tab n, ((tab.filter (fun e => decide (e.2 ≠ ∅))).map (fun e => ∑ a ∈ e.1, st a + codeLen tab e)).sum) := by
  obtain ⟨used, hu⟩ : ∃ used, used = tab.filter (fun e => decide (e.2 ≠ ∅)) := ⟨_, rfl⟩
  have hcl : ∀ e, codeLen tab e = -Real.logb 2 ((e.2.card : ℝ) / ((used.map (fun e => e.2.card)).sum : ℕ)) := by
    intro e
    unfold codeLen
    rw [← uses_filter tab, ← hu]
    rfl
  unfold sizesOf
  simp only
  rw [← hu]
  refine Prod.ext ?_ ?_
  · simp only
    rw [zipWith_codes, List.map_map, ← dataBits_filter, ← hu, ← double_count _ _ _ (fun e he t ht => h e (List.mem_of_mem_filter (hu ▸ he)) t ht)]
    congr 1
    refine List.map_congr_left (fun e _ => ?_)
    rw [hcl]
    rfl
  · simp only
    rw [codes_sum, List.map_map]
    have h1 : ((used.flatMap (fun e => sortSet e.1)).dedup.map (fun i => st i * ((used.flatMap (fun e => sortSet e.1)).count i : ℕ))).sum = ((used.flatMap (fun e => sortSet e.1)).map st).sum := by
      rw [← List.sum_toFinset _ (List.nodup_dedup _), Finset.sum_list_map_count]
      have hd : (used.flatMap (fun e => sortSet e.1)).dedup.toFinset = (used.flatMap (fun e => sortSet e.1)).toFinset := by
        ext a
        rw [List.mem_toFinset, List.mem_toFinset, List.mem_dedup]
      rw [hd]
      refine Finset.sum_congr rfl (fun a _ => ?_)
      rw [nsmul_eq_mul, mul_comm]
    have h2 : ((used.flatMap (fun e => sortSet e.1)).map st).sum = (used.map (fun e => ∑ a ∈ e.1, st a)).sum := by
      clear h1 hcl hu
      induction used with
      | nil => rfl
      | cons e l ih =>
        rw [List.flatMap_cons, List.map_append, List.sum_append, ih, List.map_cons, List.sum_cons]
        congr 1
        rw [← List.sum_toFinset _ (nodup_sortSet e.1)]
        refine Finset.sum_congr ?_ (fun _ _ => rfl)
        ext a
        rw [List.mem_toFinset, mem_sortSet]
    rw [h1, h2, List.sum_map_add]
    congr 2
    refine List.map_congr_left (fun e _ => ?_)
    rw [hcl]
    rfl

/-! ## The vertical representation -/

theorem freq_eq (D : List (List α)) (a : α) : (lookup (toVertical ∅ D) a).card = freq D a := by
  have h : lookup (toVertical ∅ D) a = (Finset.range D.length).filter (fun t => a ∈ (D[t]?).getD []) := by
    ext t
    rw [mem_lookup_toVertical, Finset.mem_filter, Finset.mem_range]
    constructor
    · rintro ⟨⟨tr, htr, ha⟩, _⟩
      refine ⟨(List.getElem?_eq_some_iff.1 htr).1, ?_⟩
      rw [htr]
      exact ha
    · rintro ⟨ht, ha⟩
      rw [List.getElem?_eq_getElem ht] at ha
      exact ⟨⟨_, List.getElem?_eq_getElem ht, ha⟩, by simp⟩
  rw [h]
  unfold freq
  clear h
  induction D using List.reverseRecOn with
  | nil => rfl
  | append_singleton D tr ih =>
    rw [List.countP_append, ← ih, List.length_append, List.length_singleton, Finset.range_add_one, Finset.filter_insert]
    have h1 : (Finset.range D.length).filter (fun t => a ∈ ((D ++ [tr])[t]?).getD []) = (Finset.range D.length).filter (fun t => a ∈ (D[t]?).getD []) := by
      refine Finset.filter_congr (fun t ht => ?_)
      rw [List.getElem?_append_left (Finset.mem_range.1 ht)]
    rw [h1]
    by_cases ha : a ∈ tr
    · rw [if_pos (by simpa using ha), Finset.card_insert_of_notMem (by simp)]
      simp [ha]
    · rw [if_neg (by simpa using ha)]
      simp [ha]

theorem volume_eq_of (D : List (List α)) (K : Finset α) (h : ∀ tr ∈ D, ∀ a ∈ tr, a ∈ K) : ∑ a ∈ K, freq D a = volume D := by
  unfold freq volume
  induction D with
  | nil => simp
  | cons tr D ih =>
    simp only [List.countP_cons]
    rw [Finset.sum_add_distrib, ih (fun tr' htr' => h tr' (List.mem_cons_of_mem _ htr')), List.map_cons, List.sum_cons, add_comm]
    congr 1
    simp only [decide_eq_true_eq]
    rw [← Finset.sum_filter, Finset.sum_const, smul_eq_mul, mul_one]
    congr 1
    ext a
    rw [Finset.mem_filter, List.mem_toFinset]
    exact ⟨fun ha => ha.2, fun ha => ⟨h tr List.mem_cons_self a ha, ha⟩⟩

theorem volume_eq (D : List (List α)) (sct : Sct α) (hnd : (sct.map Prod.fst).Nodup) (hk : ∀ a t, Occurs D a t → a ∈ sct.map Prod.fst)
    (hl : ∀ a, lookup sct a = lookup (toVertical ∅ D) a) : (sct.map (fun e => e.2.card)).sum = volume D := by
  rw [← volume_eq_of D (sct.map Prod.fst).toFinset, List.sum_toFinset _ hnd, List.map_map]
  · congr 1
    refine List.map_congr_left (fun e he => ?_)
    rw [Function.comp_apply, ← freq_eq, ← hl, lookup_of_mem hnd he]
  · intro tr htr a ha
    obtain ⟨t, ht, rfl⟩ := List.mem_iff_getElem.1 htr
    exact List.mem_toFinset.2 (hk a t ⟨_, List.getElem?_eq_getElem ht, ha⟩)

theorem startCode_eq (D : List (List α)) (a : α) : startCode (toVertical ∅ D) a = stdLen D a := by
  unfold startCode stdLen
  rw [log2z_eq, freq_eq, volume_eq D _ (toVertical_nodup ∅ D) (fun a t h => (mem_toVertical_keys ∅ D a).2 ⟨⟨t, h⟩, by simp⟩) (fun _ => rfl)]

theorem total_eq (key : Finset α → κ) (pruning : Bool) (D : List (List α)) (tab : Table α) (h : ∀ e ∈ tab, ∀ t ∈ e.2, t < D.length) :
    (exactP key pruning D).total (tab.filter (fun e => decide (e.2 ≠ ∅))) = dataBits (codeLen tab) tab D.length + modelBits D tab := by
  change (sizesOf (startCode (toVertical ∅ D)) _).1 + (sizesOf (startCode (toVertical ∅ D)) _).2 = _
  rw [compute_sizes _ tab D.length h]
  simp only [startCode_eq]
  rfl

theorem uses_perm {tab tab' : Table α} (h : tab.Perm tab') : uses tab = uses tab' := (h.map _).sum_eq

theorem codeLen_perm {tab tab' : Table α} (h : tab.Perm tab') : codeLen tab = codeLen tab' := by
  funext e
  unfold codeLen
  rw [uses_perm h]

theorem dataBits_perm (len : Finset α × Finset ℕ → ℝ) {tab tab' : Table α} (h : tab.Perm tab') (n : ℕ) : dataBits len tab n = dataBits len tab' n := by
  unfold dataBits transBits
  exact Finset.sum_congr rfl (fun t _ => ((h.filter _).map _).sum_eq)

theorem modelBits_perm (D : List (List α)) {tab tab' : Table α} (h : tab.Perm tab') : modelBits D tab = modelBits D tab' := by
  unfold modelBits
  rw [codeLen_perm h]
  exact ((h.filter _).map _).sum_eq

/-- The size of the data base compressed with the table. -/
noncomputable def bits (D : List (List α)) (tab : Table α) : ℝ := dataBits (codeLen tab) tab D.length + modelBits D tab

theorem bits_perm (D : List (List α)) {tab tab' : Table α} (h : tab.Perm tab') : bits D tab = bits D tab' := by
  unfold bits
  rw [codeLen_perm h, dataBits_perm _ h, modelBits_perm D h]

theorem tids_lt {D : List (List α)} {tab : Table α} (hl : Lossless (Occurs D) tab) (hne : ∀ e ∈ tab, e.1.Nonempty) : ∀ e ∈ tab, ∀ t ∈ e.2, t < D.length := by
  intro e he t ht
  obtain ⟨a, ha⟩ := hne e he
  obtain ⟨tr, htr, _⟩ := hl.sound e he a ha t ht
  exact (List.getElem?_eq_some_iff.1 htr).1

theorem prefit_bits (key : Finset α → κ) (pruning : Bool) (items : List α) (D : List (List α)) :
    (prefit (exactP key pruning D) items D).size = bits D (prefit (exactP key pruning D) items D).ct := by
  have hnd := toVertical_nodup ∅ D
  obtain ⟨h1, h2, h3⟩ := prefit_sct (exactP key pruning D) items _ hnd
  obtain ⟨hg, hk, ho⟩ := reach_inv items D (prefit (exactP key pruning D) items D) (.prefit _)
  have hlt := tids_lt (lossless_of_good hg ho) (fun e he => hg.keys.nonempty _ (mem_key_of_mem he))
  obtain ⟨sct, hs⟩ : ∃ sct, sct = (prefitVertical (exactP key pruning D) items (toVertical ∅ D)).sct := ⟨_, rfl⟩
  have hct : (prefit (exactP key pruning D) items D).ct.Perm (sct.map (fun e => ({e.1}, e.2))) := by
    rw [hs]
    exact sortTable_perm _ _
  have hsz : (prefit (exactP key pruning D) items D).size = (initSizes sct).1 + (initSizes sct).2 := by rw [hs]; rfl
  rw [hsz, bits_perm D hct]
  rw [← hs] at h1 h2 h3
  have hv := volume_eq D sct h1 (fun a t h => (h2 a).2 (Or.inl ((mem_toVertical_keys ∅ D a).2 ⟨⟨t, h⟩, by simp⟩))) h3
  have hus : uses (sct.map (fun e => (({e.1} : Finset α), e.2))) = volume D := by
    unfold uses
    rw [List.map_map, ← hv]
    rfl
  unfold bits initSizes
  simp only
  rw [zipWith_codes, codes_sum, hv, ← double_count _ _ _ (fun e he t ht => hlt e (hct.mem_iff.2 he) t ht), List.map_map, List.map_map, List.map_map]
  have hcl : ∀ e : Finset α × Finset ℕ, codeLen (sct.map (fun e => (({e.1} : Finset α), e.2))) e = -Real.logb 2 ((e.2.card : ℝ) / volume D) := by
    intro e
    unfold codeLen
    rw [hus]
  congr 1
  · congr 1
    refine List.map_congr_left (fun e _ => ?_)
    rw [Function.comp_apply, Function.comp_apply, hcl]
  · unfold modelBits
    have hst : ∀ e ∈ sct, stdLen D e.1 = -Real.logb 2 ((e.2.card : ℝ) / volume D) := by
      intro e he
      unfold stdLen
      rw [← freq_eq, ← h3, lookup_of_mem h1 he]
    clear hsz hct hs h2 h3 hv hlt h1 hus
    generalize codeLen (sct.map (fun e => (({e.1} : Finset α), e.2))) = cl at hcl
    induction sct with
    | nil => simp
    | cons e sct ih =>
      have ih' := ih (fun e' he' => hst e' (List.mem_cons_of_mem _ he'))
      rw [List.map_cons, List.sum_cons, mul_add, ih']
      by_cases he : e.2 = ∅
      · rw [List.map_cons, List.filter_cons_of_neg (by simpa using he), Function.comp_apply, he]
        simp
      · rw [List.map_cons, List.filter_cons_of_pos (by simpa using he), List.map_cons, List.sum_cons, Function.comp_apply, Finset.sum_singleton, hst e List.mem_cons_self, hcl]
        congr 1
        ring

/-- The states reached from `prefit(D)` by calls of `update(candidate)` with candidates that are not in the code table. -/
inductive ReachExact (key : Finset α → κ) (pruning : Bool) (items : List α) (D : List (List α)) : State α ℝ → Prop
  | prefit : ReachExact key pruning items D (prefit (exactP key pruning D) items D)
  | update (choose : Chooser α) (st st' : State α ℝ) (c : Finset α) (h : ReachExact key pruning items D st) (hch : ChooserOk choose)
      (hnew : ∀ u, (c, u) ∉ st.ct) (hu : update (exactP key pruning D) choose st c = some (.ok st')) : ReachExact key pruning items D st'

theorem ReachExact.reach {key : Finset α → κ} {pruning : Bool} {items : List α} {D : List (List α)} {st : State α ℝ} (h : ReachExact key pruning items D st) :
    Reach (κ := κ) items D st := by
  induction h with
  | prefit => exact .prefit _
  | update choose st st' c _ hch hnew hu ih => exact .update _ choose st st' c ih hch hnew hu

/-- C98. After `prefit(D)` and any sequence of updates the sum of the data size and the model size is the number of bits of the data compressed with the code table: every transaction written as the codes of the itemsets covering it, and the
table itself. -/
theorem history_bits (key : Finset α → κ) (pruning : Bool) (items : List α) (D : List (List α)) (st : State α ℝ) (h : ReachExact key pruning items D st) :
    st.size = dataBits (codeLen st.ct) st.ct D.length + modelBits D st.ct := by
  induction h with
  | prefit => exact prefit_bits key pruning items D
  | update choose st st' c h hch hnew hu _ =>
    obtain ⟨hg, hk, ho⟩ := reach_inv items D st h.reach
    unfold update at hu
    cases he : evaluate (exactP key pruning D) choose st c with
    | none => rw [he] at hu; cases hu
    | some r =>
      cases r with
      | error e => rw [he] at hu; cases hu
      | ok r =>
        rw [he] at hu
        simp only [Option.some.injEq, Except.ok.injEq] at hu
        subst hu
        obtain ⟨h1, h2⟩ := evaluate_known _ choose st c r he
        have h3 : c ∉ st.ct.map Prod.fst := by
          intro hc
          obtain ⟨e, hce, rfl⟩ := List.mem_map.1 hc
          exact hnew e.2 hce
        obtain ⟨tab, g1, g2, _⟩ := evaluate_spec (exactP key pruning D) choose hch st hg (inhabited_of_update (exactP key pruning D) choose st c hg h1 h2 h3 r he) c h1 h2 h3
        rw [g1] at he
        simp only [Option.some.injEq, Except.ok.injEq] at he
        subst he
        have hp := updateUsages_perm (exactP key pruning D) st hg tab g2 (sizeOf (exactP key pruning D) tab)
        have hlt : ∀ e ∈ tab, ∀ t ∈ e.2, t < D.length := tids_lt
          ⟨g2.lossless.nodup, fun a t h => g2.lossless.complete a t ((ho a t).2 h), fun e he a ha t ht => (ho a t).1 (g2.lossless.sound e he a ha t ht), g2.lossless.unique⟩
          (fun e he => g2.keys.nonempty _ (mem_key_of_mem he))
        have hb := bits_perm D hp
        unfold bits at hb
        rw [← hb, ← total_eq key pruning D tab hlt]
        rfl

/-- C98. So it is after `fit`. -/
theorem fit_bits (key : Finset α → κ) (pruning : Bool) (O : Oracle α) (hO : OracleOk O) (items : List α) (D : List (List α)) (fuel : ℕ)
    (st : State α ℝ) (h : fit (exactP key pruning D) O items fuel D = some (.ok st)) :
    st.size = dataBits (codeLen st.ct) st.ct D.length + modelBits D st.ct := by
  obtain ⟨hl, hs⟩ := fit_lossless (exactP key pruning D) O hO items D fuel st h
  rcases hs with rfl | ⟨_, tab, hp, hsz⟩
  · exact prefit_bits key pruning items D
  · obtain ⟨st', h1, h2⟩ := fit_result (exactP key pruning D) O hO items D fuel _ h
    simp only [Except.ok.injEq] at h1
    subst h1
    have hlt := tids_lt (D := D) hl (fun e he => h2.good.keys.nonempty _ (mem_key_of_mem he))
    have hb := bits_perm D hp
    unfold bits at hb
    rw [hsz, ← hb, ← total_eq key pruning D tab (fun e he => hlt e (hp.mem_iff.1 he))]

/-! ## The codes -/

/-- C98. The lengths of the codes of the itemsets in use satisfy the Kraft equality: a prefix code with (the real) lengths exists and is complete. -/
theorem kraft (tab : Table α) (h : 0 < uses tab) : ((tab.filter (fun e => decide (e.2 ≠ ∅))).map (fun e => (2 : ℝ) ^ (-codeLen tab e))).sum = 1 := by
  have h1 : ∀ e ∈ tab.filter (fun e => decide (e.2 ≠ ∅)), (2 : ℝ) ^ (-codeLen tab e) = (e.2.card : ℝ) * ((uses tab : ℝ))⁻¹ := by
    intro e he
    have hne : e.2 ≠ ∅ := by simpa using (List.mem_filter.1 he).2
    have hc : 0 < e.2.card := Finset.card_pos.2 (Finset.nonempty_iff_ne_empty.2 hne)
    unfold codeLen
    rw [neg_neg, Real.rpow_logb (by norm_num) (by norm_num) (by positivity), div_eq_mul_inv]
  rw [List.map_congr_left h1, List.sum_map_mul_right]
  have h2 : ((tab.filter (fun e => decide (e.2 ≠ ∅))).map (fun e => (e.2.card : ℝ))).sum = (uses tab : ℝ) := by
    rw [← uses_filter]
    unfold uses
    rw [Nat.cast_list_sum, List.map_map]
    rfl
  rw [h2]
  exact mul_inv_cancel₀ (by positivity)

/-- C98. No other code lengths give a shorter data size: the lengths `len` of any prefix code (those whose Kraft sum is at most one) of the itemsets in use lead to at least as many bits. -/
theorem optimal (tab : Table α) (n : ℕ) (h : ∀ e ∈ tab, ∀ t ∈ e.2, t < n) (len : Finset α × Finset ℕ → ℝ)
    (hk : ((tab.filter (fun e => decide (e.2 ≠ ∅))).map (fun e => (2 : ℝ) ^ (-len e))).sum ≤ 1) : dataBits (codeLen tab) tab n ≤ dataBits len tab n := by
  by_cases hu : uses tab = 0
  · rw [← double_count _ _ _ h, ← double_count _ _ _ h]
    have h0 : ∀ e ∈ tab, e.2.card = 0 := by
      unfold uses at hu
      intro e he
      exact List.sum_eq_zero_iff.1 hu _ (List.mem_map_of_mem he)
    have h1 : ∀ l : Finset α × Finset ℕ → ℝ, tab.map (fun e => l e * (e.2.card : ℝ)) = tab.map (fun _ => (0 : ℝ)) :=
      fun l => List.map_congr_left (fun e he => by rw [h0 e he]; simp)
    rw [h1, h1]
  · have hpos : (0 : ℝ) < uses tab := by exact_mod_cast Nat.pos_of_ne_zero hu
    rw [← dataBits_filter, ← dataBits_filter (len := len)]
    obtain ⟨used, hused⟩ : ∃ used, used = tab.filter (fun e => decide (e.2 ≠ ∅)) := ⟨_, rfl⟩
    rw [← hused] at hk ⊢
    have hlt : ∀ e ∈ used, ∀ t ∈ e.2, t < n := fun e he => h e (List.mem_of_mem_filter (hused ▸ he))
    rw [← double_count _ _ _ hlt, ← double_count _ _ _ hlt]
    have hlog : (0 : ℝ) < Real.log 2 := Real.log_pos (by norm_num)
    have hus : (used.map (fun e => (e.2.card : ℝ))).sum = (uses tab : ℝ) := by
      rw [← uses_filter, ← hused]
      unfold uses
      rw [Nat.cast_list_sum, List.map_map]
      rfl
    have key : ∀ e ∈ used, codeLen tab e * (e.2.card : ℝ) ≤ len e * (e.2.card : ℝ) + ((2 : ℝ) ^ (-len e) * (uses tab / Real.log 2) - (e.2.card : ℝ) * (Real.log 2)⁻¹) := by
      intro e he
      have hne : e.2 ≠ ∅ := by
        rw [hused, List.mem_filter] at he
        exact of_decide_eq_true he.2
      have hc : (0 : ℝ) < e.2.card := by exact_mod_cast Finset.card_pos.2 (Finset.nonempty_iff_ne_empty.2 hne)
      have hq : (0 : ℝ) < (2 : ℝ) ^ (-len e) := Real.rpow_pos_of_pos (by norm_num) _
      have hl := Real.log_le_sub_one_of_pos (show (0 : ℝ) < (2 : ℝ) ^ (-len e) * uses tab / e.2.card by positivity)
      rw [Real.log_div (by positivity) (by positivity), Real.log_mul (by positivity) (by positivity), Real.log_rpow (by norm_num)] at hl
      have hcl : codeLen tab e = (Real.log (uses tab) - Real.log (e.2.card)) / Real.log 2 := by
        unfold codeLen Real.logb
        rw [Real.log_div (by positivity) (by positivity)]
        ring
      rw [hcl]
      have h5 : (-len e * Real.log 2 + Real.log (uses tab) - Real.log e.2.card) * e.2.card ≤ (2 : ℝ) ^ (-len e) * uses tab - e.2.card := by
        have := mul_le_mul_of_nonneg_right hl hc.le
        have h9 : ((2 : ℝ) ^ (-len e) * uses tab / e.2.card - 1) * e.2.card = (2 : ℝ) ^ (-len e) * uses tab - e.2.card := by
          field_simp
        rw [h9] at this
        exact this
      have h6 : ((Real.log (uses tab) - Real.log e.2.card) / Real.log 2 - len e) * e.2.card = (-len e * Real.log 2 + Real.log (uses tab) - Real.log e.2.card) * e.2.card / Real.log 2 := by
        field_simp
        ring
      have h7 : (-len e * Real.log 2 + Real.log (uses tab) - Real.log e.2.card) * e.2.card / Real.log 2 ≤ ((2 : ℝ) ^ (-len e) * uses tab - e.2.card) / Real.log 2 :=
        div_le_div_of_nonneg_right h5 hlog.le
      have h8 : ((2 : ℝ) ^ (-len e) * uses tab - e.2.card) / Real.log 2 = (2 : ℝ) ^ (-len e) * (uses tab / Real.log 2) - (e.2.card : ℝ) * (Real.log 2)⁻¹ := by
        ring
      nlinarith
    refine (List.sum_le_sum key).trans ?_
    have hsub : ∀ (f g : Finset α × Finset ℕ → ℝ) (l : List (Finset α × Finset ℕ)), (l.map (fun e => f e - g e)).sum = (l.map f).sum - (l.map g).sum := by
      intro f g l
      induction l with
      | nil => simp
      | cons e l ih => simp only [List.map_cons, List.sum_cons, ih]; ring
    rw [List.sum_map_add, hsub, List.sum_map_mul_right, List.sum_map_mul_right, hus]
    have : ((used.map (fun e => (2 : ℝ) ^ (-len e))).sum) * (uses tab / Real.log 2) ≤ 1 * (uses tab / Real.log 2) := mul_le_mul_of_nonneg_right hk (by positivity)
    rw [div_eq_mul_inv] at this ⊢
    linarith

/-- Two items of frequency 1 and one of frequency 2: the codes have lengths 1, 2, 2. -/
theorem codeLen_ex : codeLen [(({1} : Finset ℕ), {0, 1}), ({2}, {2}), ({3}, {3})] ({1}, {0, 1}) = 1 ∧
    codeLen [(({1} : Finset ℕ), {0, 1}), ({2}, {2}), ({3}, {3})] ({2}, {2}) = 2 ∧ codeLen [(({1} : Finset ℕ), {0, 1}), ({2}, {2}), ({3}, {3})] ({3}, {3}) = 2 := by
  have h2 : Real.logb 2 (2 / 4) = -1 := by
    rw [show (2 : ℝ) / 4 = 2 ^ (-1 : ℝ) by rw [Real.rpow_neg (by norm_num), Real.rpow_one]; norm_num, Real.logb_rpow (by norm_num) (by norm_num)]
  have h1 : Real.logb 2 (1 / 4) = -2 := by
    rw [show (1 : ℝ) / 4 = 2 ^ (-2 : ℝ) by rw [Real.rpow_neg (by norm_num), Real.rpow_two]; norm_num, Real.logb_rpow (by norm_num) (by norm_num)]
  have hu : uses [(({1} : Finset ℕ), ({0, 1} : Finset ℕ)), ({2}, {2}), ({3}, {3})] = 4 := by decide
  have hc : ({0, 1} : Finset ℕ).card = 2 := by decide
  unfold codeLen
  rw [hu]
  simp only [hc, Finset.card_singleton, Nat.cast_ofNat, Nat.cast_one, h1, h2]
  norm_num

/-- The hypotheses of `history_bits` on `[[1], [1], [2], [3]]`: the data takes 6 bits. A code with lengths 2, 2, 2 would take 8. -/
example : ReachExact (fun X : Finset ℕ => X.card) true [] [[1], [1], [2], [3]] (prefit (exactP (fun X : Finset ℕ => X.card) true [[1], [1], [2], [3]]) [] [[1], [1], [2], [3]]) ∧
    dataBits (codeLen [(({1} : Finset ℕ), {0, 1}), ({2}, {2}), ({3}, {3})]) [(({1} : Finset ℕ), {0, 1}), ({2}, {2}), ({3}, {3})] 4 = 6 ∧
    dataBits (fun _ => 2) [(({1} : Finset ℕ), {0, 1}), ({2}, {2}), ({3}, {3})] 4 = 8 ∧
    (([(({1} : Finset ℕ), ({0, 1} : Finset ℕ)), ({2}, {2}), ({3}, {3})].filter (fun e => decide (e.2 ≠ ∅))).map (fun _ => (2 : ℝ) ^ (-(2 : ℝ)))).sum ≤ 1 := by
  obtain ⟨h1, h2, h3⟩ := codeLen_ex
  have hlt : ∀ e ∈ [(({1} : Finset ℕ), ({0, 1} : Finset ℕ)), ({2}, {2}), ({3}, {3})], ∀ t ∈ e.2, t < 4 := by decide
  have hc : ({0, 1} : Finset ℕ).card = 2 := by decide
  refine ⟨.prefit, ?_, ?_, ?_⟩
  · rw [← double_count _ _ _ hlt]
    simp only [List.map_cons, List.map_nil, List.sum_cons, List.sum_nil, h1, h2, h3, hc, Finset.card_singleton]
    norm_num
  · rw [← double_count _ _ _ hlt]
    simp only [List.map_cons, List.map_nil, List.sum_cons, List.sum_nil, hc, Finset.card_singleton]
    norm_num
  · have : [(({1} : Finset ℕ), ({0, 1} : Finset ℕ)), ({2}, {2}), ({3}, {3})].filter (fun e => decide (e.2 ≠ ∅)) = [({1}, {0, 1}), ({2}, {2}), ({3}, {3})] := by decide
    rw [this]
    simp only [List.map_cons, List.map_nil, List.sum_cons, List.sum_nil]
    rw [Real.rpow_neg (by norm_num), Real.rpow_two]
    norm_num

end Verif.Slim
