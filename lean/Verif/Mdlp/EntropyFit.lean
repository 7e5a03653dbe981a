import Verif.Mdlp.EntropyProps

/-! # `MDLPDiscretizer` computes the discretization of Fayyad and Irani (C96) -/

set_option autoImplicit false
set_option linter.unusedSectionVars false

namespace Verif.Mdlp

open FI

/-- C96. On an interval of at least one sample, `generate_cut_point` answers "none" exactly when all labels are equal, and otherwise the first cut whose class entropy is least among ALL cuts of the interval, although it
evaluates only the cuts between different labels. -/
theorem generate_cut_best (y : List ℕ) (s e : ℕ) (hse : s < e) (he : e ≤ y.length) :
    (generateCut y (scoreOf y) s e = none ↔ ∀ a ∈ part y s e, ∀ b ∈ part y s e, a = b) ∧
    ∀ k, generateCut y (scoreOf y) s e = some k ↔ BestCut y s e k ∧ ¬ ∀ a ∈ part y s e, ∀ b ∈ part y s e, a = b := by
  have hone : ∀ k, BestCut y s e k → ∀ k', BestCut y s e k' → k = k' := by
    intro k ⟨a1, a2, a3⟩ k' ⟨b1, b2, b3⟩
    rcases lt_trichotomy k k' with h | h | h
    · exact absurd ((b3 k a1 a2).2 h) (not_lt.2 (a3 k' b1 b2).1)
    · exact h
    · exact absurd ((a3 k' b1 b2).2 h) (not_lt.2 (b3 k a1 a2).1)
  rcases generateCut_spec y (scoreOf y) s e hse he with ⟨h1, h2⟩ | ⟨k, h1, h2⟩
  · have hc : Const y s e := by
      by_contra hc
      have h3 : s + 1 < e := by
        by_contra hlt
        apply hc
        have : e = s + 1 := by omega
        intro a ha b hb
        obtain ⟨i, i1, i2, i3⟩ := mem_part.1 ha
        obtain ⟨j, j1, j2, j3⟩ := mem_part.1 hb
        have : i = j := by omega
        rw [this, j3] at i3
        exact (Option.some.inj i3).symm
      obtain ⟨k, hk⟩ := exists_first_min (sides y s e) h3
      have := (best_iff he).2 ⟨(bestCut_sides he).2 hk, hc⟩
      exact h2 k this.1 this.2.1 this.2.2.1
    rw [h1]
    refine ⟨⟨fun _ => hc, fun _ => rfl⟩, fun k => ⟨fun h => (Option.some_ne_none _ h.symm).elim, fun h => absurd hc h.2⟩⟩
  · have hb := (best_iff he).1 h2
    rw [h1]
    refine ⟨⟨fun h => (Option.some_ne_none _ h).elim, fun h => absurd h hb.2⟩, fun k' => ⟨fun h => ?_, fun h => ?_⟩⟩
    · rw [← Option.some.inj h]; exact hb
    · rw [hone k hb.1 k' h.1]

/-- C96. The first best cut of labels that are not all equal strictly lowers the class entropy. -/
theorem best_gain_pos {y : List ℕ} {s e k : ℕ} (he : e ≤ y.length) (hb : BestCut y s e k) (hc : ¬ ∀ a ∈ part y s e, ∀ b ∈ part y s e, a = b) : 0 < Gain (part y s k) (part y k e) := by
  obtain ⟨b1, b2, b3⟩ := (bestCut_sides he).1 hb
  have hpos : (0 : ℝ) < ((e - s : ℕ) : ℝ) * Real.log 2 := mul_pos (by exact_mod_cast (by omega : 0 < e - s)) log_two_pos
  unfold Gain
  rw [part_append b1.le b2.le, Ent_eq, length_part he, CutEnt_sides b1.le b2.le he, ← sub_div]
  apply div_pos _ hpos
  have h1 := (b3 (s + 1) (by omega) (by omega)).1
  obtain ⟨c, hs⟩ : ∃ c, y[s]? = some c := ⟨_, List.getElem?_eq_getElem (by omega)⟩
  have e1 : part y s e = c :: part y (s + 1) e := part_first (by omega) hs
  have e2 : part y s (s + 1) = [c] := by
    rw [part_last le_rfl hs]
    have : part y s s = [] := by rw [← slice_eq, slice]; simp
    rw [this]; rfl
  have e3 : sides y s e (s + 1) = Hs (part y (s + 1) e) := by
    rw [sides, e2, Hs_const (c := c) (by simp), zero_add]
  have : ∃ d ∈ part y (s + 1) e, d ≠ c := by
    by_contra hno
    push Not at hno
    apply hc
    have hall : ∀ a ∈ part y s e, a = c := by
      intro a ha
      rw [e1] at ha
      rcases List.mem_cons.1 ha with h | h
      · exact h
      · exact hno a h
    intro a ha b hb
    rw [hall a ha, hall b hb]
  obtain ⟨d, d1, d2⟩ := this
  have := Hs_cons_lt d1 d2
  rw [e3] at h1
  rw [e1]
  linarith

theorem classes_part_le (y : List ℕ) (s e : ℕ) : classes (part y s e) ≤ classes y := by
  apply Finset.card_le_card
  intro a ha
  rw [List.mem_toFinset] at ha ⊢
  obtain ⟨j, _, _, h⟩ := mem_part.1 ha
  exact List.mem_of_getElem? h

theorem split_iff {y : List ℕ} {s e k : ℕ} (he : e ≤ y.length) (hc : classes y < 40) :
    Split y (scoreOf y) (betterOf y) s e k ↔ BestCut y s e k ∧ Accept (part y s k) (part y k e) := by
  have hc' := (classes_part_le y s e).trans_lt hc
  rw [split_best, best_iff he]
  constructor
  · rintro ⟨⟨h1, _⟩, h3⟩
    exact ⟨h1, (betterOf_iff h1.1 h1.2.1 he hc').1 h3⟩
  · rintro ⟨h1, h2⟩
    exact ⟨⟨h1, accept_not_const h1.1 h1.2.1 he h2⟩, (betterOf_iff h1.1 h1.2.1 he hc').2 h2⟩

theorem piece_le {y : List ℕ} {s e : ℕ} (h : Piece y s e) : e ≤ y.length := by
  induction h with
  | all => exact le_rfl
  | left s e k _ h2 _ ih => exact h2.2.1.le.trans ih
  | right s e k _ _ _ ih => exact ih

theorem interval_le {y : List ℕ} {score : ℕ → ℕ → ℕ → ℝ} {better : ℕ → ℕ → ℕ → Bool} {s e : ℕ} (h : Interval y score better s e) : e ≤ y.length := by
  induction h with
  | all => exact le_rfl
  | left s e k _ h2 ih => exact h2.2.1.le.trans ih
  | right s e k _ _ ih => exact ih

theorem cutAt_fi {y : List ℕ} (hc : classes y < 40) (k : ℕ) : CutAt y (scoreOf y) (betterOf y) k ↔ Cut y k := by
  have h1 : ∀ s e, Interval y (scoreOf y) (betterOf y) s e → Piece y s e := by
    intro s e h
    induction h with
    | all => exact Piece.all
    | left s e k hi hs ih =>
      have := (split_iff (interval_le hi) hc).1 hs
      exact Piece.left s e k ih this.1 this.2
    | right s e k hi hs ih =>
      have := (split_iff (interval_le hi) hc).1 hs
      exact Piece.right s e k ih this.1 this.2
  have h2 : ∀ s e, Piece y s e → Interval y (scoreOf y) (betterOf y) s e := by
    intro s e h
    induction h with
    | all => exact Interval.all
    | left s e k hi hb ha ih => exact Interval.left s e k ih ((split_iff (piece_le hi) hc).2 ⟨hb, ha⟩)
    | right s e k hi hb ha ih => exact Interval.right s e k ih ((split_iff (piece_le hi) hc).2 ⟨hb, ha⟩)
  constructor
  · rintro ⟨s, e, hi, hs⟩
    exact ⟨s, e, h1 s e hi, (split_iff (interval_le hi) hc).1 hs⟩
  · rintro ⟨s, e, hi, hs⟩
    exact ⟨s, e, h2 s e hi, (split_iff (piece_le hi) hc).2 hs⟩

/-- C96. For fewer than 40 classes, the cut points of a column are, in increasing order, the midpoints at the positions where the recursive splitting of Fayyad and Irani cuts the samples ordered by value: every interval is cut at
its first cut of least class entropy as long as the acceptance test holds. -/
theorem fit_fayyad_irani_partial (s : List (ℚ × ℕ)) (hne : s ≠ []) (hsort : s.Pairwise (fun a b => a.1 ≤ b.1)) (hc : classes (s.map Prod.snd) < 40) (fuel : ℕ) (hfuel : 2 * s.length ≤ fuel) :
    ∃ cuts, fitColumn fuel s = some (.ok cuts) ∧ cuts.Pairwise (· < ·) ∧
      ∀ c, c ∈ cuts ↔ ∃ (k : ℕ) (a b : ℚ × ℕ), Cut (s.map Prod.snd) k ∧ s[k - 1]? = some a ∧ s[k]? = some b ∧ c = (a.1 + b.1) / 2 := by
  obtain ⟨cuts, h1, h2, h3⟩ := fit_cuts (scoreOf (s.map Prod.snd)) (betterOf (s.map Prod.snd)) s s hne (List.Perm.refl s) hsort fuel hfuel
  refine ⟨cuts, h1, h2, fun c => ?_⟩
  rw [h3 c]
  constructor
  · rintro ⟨k, a, b, h, rest⟩
    exact ⟨k, a, b, (cutAt_fi hc k).1 h, rest⟩
  · rintro ⟨k, a, b, h, rest⟩
    exact ⟨k, a, b, (cutAt_fi hc k).2 h, rest⟩

/-- C96 fails for many classes: with 40 to 43 classes the power of three overflows and no cut is ever made, whatever the data. -/
theorem many_classes_no_cut (s : List (ℚ × ℕ)) (hsort : s.Pairwise (fun a b => a.1 ≤ b.1)) (h1 : 40 ≤ classes (s.map Prod.snd)) (h2 : classes (s.map Prod.snd) ≤ 43) (fuel : ℕ) (hfuel : 2 * s.length ≤ fuel) :
    fitColumn fuel s = some (.ok []) := by
  have hne : s ≠ [] := by rintro rfl; simp [classes] at h1
  obtain ⟨cuts, c1, _, c3⟩ := fit_cuts (scoreOf (s.map Prod.snd)) (betterOf (s.map Prod.snd)) s s hne (List.Perm.refl s) hsort fuel hfuel
  have hno : ∀ k, ¬ Split (s.map Prod.snd) (scoreOf (s.map Prod.snd)) (betterOf (s.map Prod.snd)) 0 (s.map Prod.snd).length k := by
    intro k hk
    have hp : part (s.map Prod.snd) 0 (s.map Prod.snd).length = s.map Prod.snd := by simp [part]
    have := betterOf_refused (y := s.map Prod.snd) (s := 0) (k := k) (e := (s.map Prod.snd).length) (by rw [hp]; exact h1) (by rw [hp]; exact h2)
    rw [hk.2.2.2.1] at this
    exact Bool.noConfusion this
  have : cuts = [] := by
    rw [List.eq_nil_iff_forall_not_mem]
    intro c hcm
    obtain ⟨k, _, _, hk, _⟩ := (c3 c).1 hcm
    rw [cutAt_iff] at hk
    cases hk with
    | here _ _ _ h => exact hno _ h
    | left _ _ _ _ h _ => exact hno _ h
    | right _ _ _ _ h _ => exact hno _ h
  rw [← this]
  exact c1

/-! ## Samples whose halves have no class in common are cut -/

theorem Ent_nonneg (S : List ℕ) : 0 ≤ Ent S := by
  rw [Ent_eq]
  exact div_nonneg (Hs_nonneg S) (mul_nonneg (Nat.cast_nonneg _) log_two_pos.le)

theorem Ent_le (S : List ℕ) (hS : S ≠ []) : Ent S ≤ Real.logb 2 S.length := by
  have hn : (0 : ℝ) < S.length := by exact_mod_cast List.length_pos_iff.2 hS
  rw [Ent_eq, Real.logb, ← div_div, div_le_div_iff_of_pos_right log_two_pos, div_le_iff₀ hn, Hs, xlog, mul_comm]
  have : 0 ≤ ∑ c ∈ S.toFinset, xlog (S.count c) := Finset.sum_nonneg (fun c _ => mul_nonneg (Nat.cast_nonneg _) (Real.log_natCast_nonneg _))
  linarith

theorem Gain_disjoint {S T : List ℕ} (h0 : S ≠ []) (hl : S.length = T.length) (hd : ∀ a ∈ S, a ∉ T) : Gain S T = 1 := by
  have hn : (0 : ℝ) < S.length := by exact_mod_cast List.length_pos_iff.2 h0
  have hlog := log_two_pos
  unfold Gain
  rw [Ent_eq, CutEnt_eq, ← sub_div, div_eq_one_iff_eq (by rw [List.length_append]; push_cast; positivity), Hs, Hs, Hs, List.toFinset_append, Finset.sum_union]
  · have e1 : ∑ c ∈ S.toFinset, xlog ((S ++ T).count c) = ∑ c ∈ S.toFinset, xlog (S.count c) := by
      apply Finset.sum_congr rfl
      intro c hc
      rw [List.count_append, List.count_eq_zero_of_not_mem (hd c (List.mem_toFinset.1 hc)), Nat.add_zero]
    have e2 : ∑ c ∈ T.toFinset, xlog ((S ++ T).count c) = ∑ c ∈ T.toFinset, xlog (T.count c) := by
      apply Finset.sum_congr rfl
      intro c hc
      rw [List.count_append, List.count_eq_zero_of_not_mem (fun h => hd c h (List.mem_toFinset.1 hc)), Nat.zero_add]
    rw [e1, e2, List.length_append, ← hl]
    push_cast
    unfold xlog
    rw [← two_mul, Real.log_mul (by norm_num) hn.ne']
    ring
  · rw [Finset.disjoint_left]
    intro a ha hb
    exact hd a (List.mem_toFinset.1 ha) (List.mem_toFinset.1 hb)

/-- If the two halves have no class in common and there are enough samples, the criterion cuts. -/
theorem halves_cut (y : List ℕ) (n L : ℕ) (hn : 0 < n) (hlen : y.length = 2 * n) (hd : ∀ a ∈ part y 0 n, a ∉ part y n (2 * n)) (hL : 2 * n ≤ 2 ^ L)
    (hbig : L + 2 * classes y + 2 * classes y * L < 2 * n) : ∃ k, Cut y k := by
  have hall : part y 0 (2 * n) = y := by rw [part, List.drop_zero, ← hlen, List.take_length]
  have g1 : Gain (part y 0 n) (part y n (2 * n)) = 1 := by
    apply Gain_disjoint _ _ hd
    · intro h
      have := length_part (y := y) (s := 0) (e := n) (by omega)
      rw [h] at this
      simp at this
      omega
    · rw [length_part (by omega), length_part (by omega)]; omega
  obtain ⟨k, hk⟩ := exists_first_min (sides y 0 (2 * n)) (s := 0) (e := 2 * n) (by omega)
  have hb := (bestCut_sides (y := y) (by omega)).2 hk
  refine ⟨k, 0, 2 * n, hlen ▸ Piece.all, hb, ?_⟩
  obtain ⟨b1, b2, b3⟩ := hb
  have happ := part_append (y := y) b1.le b2.le
  have g2 : 1 ≤ Gain (part y 0 k) (part y k (2 * n)) := by
    have := (b3 n hn (by omega)).1
    rw [← g1]
    unfold Gain
    rw [happ, part_append (by omega) (by omega)]
    linarith
  have bound : ∀ s e, s < e → e ≤ 2 * n → Ent (part y s e) ≤ L := by
    intro s e h1 h2
    have hl := length_part (y := y) (s := s) (e := e) (by omega)
    have hne : part y s e ≠ [] := by
      intro h
      rw [h] at hl
      simp at hl
      omega
    refine (Ent_le _ hne).trans ?_
    rw [hl, Real.logb_le_iff_le_rpow (by norm_num) (by exact_mod_cast (by omega : 0 < e - s)), Real.rpow_natCast]
    exact_mod_cast (by omega : e - s ≤ 2 * n).trans hL
  unfold Accept
  simp only
  rw [happ, hall, hlen]
  refine lt_of_lt_of_le ?_ g2
  rw [div_lt_one (by exact_mod_cast (by omega : 0 < 2 * n))]
  have p1 : Real.logb 2 ((2 * n : ℕ) - 1) ≤ L := by
    have h2 : (2 : ℝ) ≤ (2 * n : ℕ) := by exact_mod_cast (by omega : 2 ≤ 2 * n)
    rw [Real.logb_le_iff_le_rpow (by norm_num) (by linarith), Real.rpow_natCast]
    have : ((2 * n : ℕ) : ℝ) ≤ 2 ^ L := by exact_mod_cast hL
    linarith
  have hc1 : 1 ≤ classes y := classes_pos (by intro h; rw [h] at hlen; simp at hlen; omega)
  have p2 : Real.logb 2 (3 ^ classes y - 2) ≤ 2 * classes y := by
    have h3 : (3 : ℝ) ^ 1 ≤ 3 ^ classes y := pow_le_pow_right₀ (by norm_num) hc1
    have h4 : (3 : ℝ) ^ classes y ≤ 4 ^ classes y := by gcongr; norm_num
    rw [Real.logb_le_iff_le_rpow (by norm_num) (by linarith), Real.rpow_mul (by norm_num), Real.rpow_natCast]
    norm_num
    linarith
  have q0 : 0 ≤ (classes y : ℝ) * Ent y := mul_nonneg (Nat.cast_nonneg _) (Ent_nonneg _)
  have q : ∀ s e, s < e → e ≤ 2 * n → (classes (part y s e) : ℝ) * Ent (part y s e) ≤ classes y * L := by
    intro s e h1 h2
    exact mul_le_mul (by exact_mod_cast classes_part_le y s e) (bound s e h1 h2) (Ent_nonneg _) (Nat.cast_nonneg _)
  have q1 := q 0 k b1 b2.le
  have q2 := q k (2 * n) b2 le_rfl
  have hb' : (L : ℝ) + 2 * classes y + 2 * classes y * L < (2 * n : ℕ) := by exact_mod_cast hbig
  linarith

/-- 32 samples of two classes: the hypotheses of `fit_fayyad_irani_partial` hold, and there is a cut. -/
example : ∃ s : List (ℚ × ℕ), s ≠ [] ∧ s.Pairwise (fun a b => a.1 ≤ b.1) ∧ classes (s.map Prod.snd) < 40 ∧ ∃ k, Cut (s.map Prod.snd) k := by
  refine ⟨(List.range 32).map (fun i : ℕ => ((i : ℚ), i / 16)), by decide, ?_, ?_, ?_⟩
  · rw [List.pairwise_map]
    exact List.pairwise_lt_range.imp (fun h => by simpa using h.le)
  · decide
  · refine halves_cut _ 16 5 (by norm_num) (by simp) ?_ (by norm_num) ?_ <;> decide

/-- C96 fails: 2000 samples of 40 classes, where the criterion cuts and the discretizer does not. -/
theorem many_classes_wrong : ∃ s : List (ℚ × ℕ), s.Pairwise (fun a b => a.1 < b.1) ∧ (∃ k, Cut (s.map Prod.snd) k) ∧ ∀ fuel, 2 * s.length ≤ fuel → fitColumn fuel s = some (.ok []) := by
  obtain ⟨N, hN⟩ : ∃ N : ℕ, N = 2000 := ⟨_, rfl⟩
  have hmap : (((List.range N).map (fun i : ℕ => ((i : ℚ), i / 50))).map Prod.snd) = (List.range N).map (· / 50) := by rw [List.map_map]; rfl
  have hcl : classes ((List.range N).map (· / 50)) = 40 := by
    have : ((List.range N).map (· / 50)).toFinset = Finset.range 40 := by
      ext a
      simp only [List.mem_toFinset, List.mem_map, List.mem_range, Finset.mem_range]
      constructor
      · rintro ⟨i, h1, rfl⟩
        omega
      · intro h
        exact ⟨50 * a, by omega, by omega⟩
    rw [classes, this, Finset.card_range]
  have hsort : ((List.range N).map (fun i : ℕ => ((i : ℚ), i / 50))).Pairwise (fun a b => a.1 < b.1) := by
    rw [List.pairwise_map]
    exact List.pairwise_lt_range.imp (fun h => by simpa using h)
  refine ⟨(List.range N).map (fun i : ℕ => ((i : ℚ), i / 50)), hsort, ?_, fun fuel hf => ?_⟩
  · rw [hmap]
    refine halves_cut _ 1000 11 (by norm_num) (by rw [List.length_map, List.length_range, hN]) ?_ (by norm_num) (by rw [hcl]; norm_num)
    intro a h1 h2
    obtain ⟨i, i1, i2, i3⟩ := mem_part.1 h1
    obtain ⟨j, j1, j2, j3⟩ := mem_part.1 h2
    rw [List.getElem?_map, List.getElem?_range (by omega)] at i3 j3
    simp only [Option.map_some, Option.some.injEq] at i3 j3
    omega
  · exact many_classes_no_cut _ (hsort.imp (fun h => h.le)) (by rw [hmap, hcl]) (by rw [hmap, hcl]; norm_num) fuel hf

end Verif.Mdlp
