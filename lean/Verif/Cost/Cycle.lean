import Verif.Cost.Message
import Verif.Mine.Period

set_option autoImplicit false
set_option linter.unusedSectionVars false

namespace Verif.Cost

open Verif.PTree

variable {α : Type} [DecidableEq α]

theorem diff_sum : ∀ (t : ℤ) (l : List ℤ), (Mine.diff (t :: l)).sum = (t :: l).getLast (by simp) - t
  | t, [] => by simp [Mine.diff]
  | t, u :: l => by
    have := diff_sum u l
    simp only [Mine.diff, List.sum_cons, List.getLast_cons_cons] at this ⊢
    omega

theorem diff_len : ∀ (t : ℤ) (l : List ℤ), (Mine.diff (t :: l)).length = l.length
  | t, [] => rfl
  | t, u :: l => by
    have := diff_len u l
    simp only [Mine.diff, List.length_cons] at this ⊢
    omega

theorem computeE_len (t : ℤ) (l : List ℤ) (p : ℤ) : (computeE (t :: l) p).length = l.length := by
  rw [computeE, List.length_map, diff_len]

theorem computeE_sum (t : ℤ) (l : List ℤ) (p : ℤ) : (computeE (t :: l) p).sum = (t :: l).getLast (by simp) - t - p * (l.length : ℤ) := by
  rw [← diff_sum, computeE, ← diff_len t l]
  generalize Mine.diff (t :: l) = m
  induction m with
  | nil => simp
  | cons a m ih =>
    simp only [List.map_cons, List.sum_cons, List.length_cons] at ih ⊢
    push_cast
    rw [ih]
    ring

theorem lengthEOccs_eq (occs : List ℤ) (p : ℤ) : lengthEOccs occs p = codeLengthE (computeE occs p) := by
  simp [lengthEOccs, codeLengthE, computeE, List.map_map, Function.comp_def]

theorem lengthCycle_eq (D : Details α) (alpha : Alpha α) (occs : List ℤ) (cp : ℤ) (h : 1 < occs.length) (hm : 0 < D.deltaT - (computeE occs cp).sum - cp * ((occs.length : ℤ) - 1) + 1) :
    lengthCycle D alpha occs cp false = (alphaAndR D alpha).bind (fun ar => (log2 (((D.deltaT - (computeE occs cp).sum) / ((occs.length : ℤ) - 1) : ℤ) : ℝ)).bind
      (fun p => some (ar + p + Real.logb 2 ((D.deltaT - (computeE occs cp).sum - cp * ((occs.length : ℤ) - 1) + 1 : ℤ) : ℝ) + (codeLengthE (computeE occs cp) : ℝ)))) := by
  unfold lengthCycle
  simp only [Bool.false_eq_true, if_false, if_neg (not_le.2 h), if_neg (not_le.2 hm), log2_some hm, lengthEOccs_eq]
  rfl

/-- The tree of a cycle. -/
abbrev cycle (r : ℕ) (p : ℤ) (a : α) : PTree.Tree α := .node r p (.cons 0 (.leaf a) .nil)

theorem cycle_keys (r : ℕ) (p : ℤ) (a : α) : keys (cycle r p a) = (List.range r).map (fun i => [(0, i)]) := by
  simp only [keys, pos, posF, List.map_cons, List.map_nil, List.append_nil, List.map_flatMap]
  rw [List.map_eq_flatMap]

theorem cycle_corr (r : ℕ) (p : ℤ) (a : α) (v : Path → ℤ) (i : ℕ) : corr (cycle r p a) v [(0, i)] = ((List.range (i + 1)).map (fun j => v [(0, j)])).sum := by
  rw [corr, List.range_succ, List.map_append, List.sum_append]
  simp only [gT, gF, lmF, lm, List.map_nil, List.nil_append, List.map_map, List.map_cons, List.sum_cons, List.sum_nil]
  rw [add_comm]
  simp [Function.comp_def]

/-- C72. The pattern of one event repeated and the cycle it was made from have the same cost, when the occurrences fit the window. -/
theorem cost_cycle (D : Details α) (a : α) (k : ℕ) (ha : D.nb.lookup a = some k) (t0 : ℤ) (l : List ℤ) (hl : l ≠ []) (p : ℤ) (hw : (t0 :: l).getLast (by simp) - t0 ≤ D.deltaT) :
    codeLength (cycle (l.length + 1) p a) t0 (some (computeE (t0 :: l) p)) D = lengthCycle D (.one a) (t0 :: l) p false := by
  obtain ⟨T, hTe⟩ : ∃ T, T = cycle (l.length + 1) p a := ⟨_, rfl⟩
  have hT : T.Regular := by rw [hTe]; simp [Tree.Regular, Forest.Regular, Forest.NonEmpty, Forest.firstDist]
  have hn : (computeE (t0 :: l) p).length + 1 = nbOccs T := by
    rw [computeE_len, hTe]; simp [nbOccs, nbOccsF]
  obtain ⟨v, v0, vE, vA⟩ := exists_corrs T hT _ hn
  have hkT : keys T = (List.range (l.length + 1)).map (fun i => [(0, i)]) := by rw [hTe, cycle_keys]
  have hza : ([(0, l.length)] : Path) ∈ keys T := by
    rw [hkT]; exact List.mem_map.2 ⟨_, List.mem_range.2 (Nat.lt_succ_self _), rfl⟩
  have hc : corr T v [(0, l.length)] = (computeE (t0 :: l) p).sum := by
    rw [hTe, cycle_corr]
    have := congrArg List.sum vA
    rw [hkT, List.map_map, List.sum_cons, zero_add] at this
    exact this
  have hcc : getCCorr T [(0, l.length)] (getEDict (occsStar T [] t0) (computeE (t0 :: l) p)) = some (computeE (t0 :: l) p).sum := by
    rw [← hc, corr, ← getCCorr_eq hT v hza, ← edict_eq T hT t0 v v0, vE]
  have hlp : 0 < l.length := List.length_pos_iff.2 hl
  have hlk : leafKeyFromRep (cycle (l.length + 1) p a) [] l.length = some [(0, l.length)] := by
    have := (za_ok (l.length + 1) p (.cons 0 (.leaf a) .nil) (by rw [hTe] at hT; exact hT)).1
    simpa [lmF, lm] using this
  rw [hTe] at hcc
  unfold codeLength
  simp only [Nat.add_sub_cancel, hlk, hcc, Option.bind_eq_bind, Option.bind_some]
  have hm : 0 < D.deltaT - (computeE (t0 :: l) p).sum - p * (((t0 :: l).length : ℤ) - 1) + 1 := by
    rw [computeE_sum, List.length_cons]
    push_cast
    have : p * ((l.length : ℤ) + 1 - 1) = p * (l.length : ℤ) := by ring
    rw [this]
    omega
  rw [lengthCycle_eq D _ _ _ (by rw [List.length_cons]; omega) hm]
  rw [List.length_cons] at hm ⊢
  simp only [alphaAndR, ha, codeLengthEvents, codeLengthEventsF, codeLengthR, getMinOccs, getMinOccsF, npMin, sumLog2, codeLengthPTop, codeLengthT0, adjFreq,
    blckDelim, log2_delim, hasNestedPDs, isInterm, Option.bind_eq_bind, Option.bind_some, Option.map_some, Option.pure_def, List.foldl_nil, List.nil_append,
    List.mapM_cons, List.mapM_nil, Bool.false_eq_true, if_false]
  rw [if_neg (show ¬ (l.length + 1 = 1) by omega), log2_some hm]
  cases log2 ((k : ℝ) / (3 * (D.total : ℝ))) with
  | none => simp
  | some x =>
    cases log2 (k : ℝ) with
    | none => simp
    | some y =>
      cases log2 (((D.deltaT - (computeE (t0 :: l) p).sum) / (((l.length + 1 : ℕ) : ℤ) - 1) : ℤ) : ℝ) with
      | none => simp
      | some z =>
        simp
        ring

/-- C72. Three occurrences: the cost computed for a triple is that of the cycle whose period is the smaller gap. -/
theorem cost_triple_eq (D : Details α) (alpha : Alpha α) (t0 t1 t2 : ℤ) (hw : t2 - t0 ≤ D.deltaT) :
    costTriple D alpha (min (t2 - t1) (t1 - t0)) |t2 - t1 - (t1 - t0)| = lengthCycle D alpha [t0, t1, t2] (min (t2 - t1) (t1 - t0)) false := by
  have e1 : |t2 - t1 - (t1 - t0)| = (computeE [t0, t1, t2] (min (t2 - t1) (t1 - t0))).sum := by
    simp only [computeE, Mine.diff, List.map_cons, List.map_nil, List.sum_cons, List.sum_nil]
    rcases le_total (t2 - t1) (t1 - t0) with h | h
    · rw [min_eq_left h, abs_of_nonpos (by omega)]; ring
    · rw [min_eq_right h, abs_of_nonneg (by omega)]; ring
  have e2 : codeLengthE (computeE [t0, t1, t2] (min (t2 - t1) (t1 - t0))) = 4 + |t2 - t1 - (t1 - t0)| := by
    simp only [codeLengthE, computeE, Mine.diff, List.map_cons, List.map_nil, List.sum_cons, List.sum_nil]
    rcases le_total (t2 - t1) (t1 - t0) with h | h
    · rw [min_eq_left h, abs_of_nonneg (by omega : 0 ≤ t1 - t0 - (t2 - t1)), abs_of_nonneg (by omega : 0 ≤ t2 - t1 - (t2 - t1)), abs_of_nonpos (by omega)]; ring
    · rw [min_eq_right h, abs_of_nonneg (by omega : 0 ≤ t1 - t0 - (t1 - t0)), abs_of_nonneg (by omega : 0 ≤ t2 - t1 - (t1 - t0))]; ring
  have e3 := computeE_sum t0 [t1, t2] (min (t2 - t1) (t1 - t0))
  simp only [List.getLast_cons_cons, List.getLast_singleton, List.length_cons, List.length_nil] at e3
  have h2 : ((([t0, t1, t2].length : ℕ) : ℤ) - 1) = 2 := by norm_num
  have hm : 0 < D.deltaT - |t2 - t1 - (t1 - t0)| - 2 * min (t2 - t1) (t1 - t0) + 1 := by
    rw [e1, e3]; push_cast; omega
  rw [lengthCycle_eq D alpha _ _ (by simp) (by rw [h2, ← e1, mul_comm]; exact hm), h2, e2, ← e1, mul_comm _ (2 : ℤ), costTriple, log2_some hm]
  cases alphaAndR D alpha with
  | none => simp
  | some x =>
    cases log2 (((D.deltaT - |t2 - t1 - (t1 - t0)|) / 2 : ℤ) : ℝ) with
    | none => simp
    | some y =>
      simp
      ring

theorem period_triple (t0 t1 t2 : ℤ) : Mine.computePeriod [t0, t1, t2] = some ((t2 - t0) / 2) := by
  have e : t1 - t0 + (t2 - t1) = t2 - t0 := by ring
  have e' : t2 - t1 + (t1 - t0) = t2 - t0 := by ring
  by_cases h : t1 - t0 ≤ t2 - t1
  · simp [Mine.computePeriod, Mine.diff, Mine.periodDiffs, h, e]
  · simp [Mine.computePeriod, Mine.diff, Mine.periodDiffs, h, e']

/-- C72. What is recorded for three occurrences is the period in the middle of the two gaps, with the cost of the smaller gap: the cost recorded is below that of the cycle recorded by the
difference of two logarithms. -/
theorem cost_triple_gap (D : Details α) (alpha : Alpha α) (ar : ℝ) (ha : alphaAndR D alpha = some ar) (t0 t1 t2 : ℤ) (h01 : t0 < t1) (h12 : t1 < t2) (hw : t2 - t0 ≤ D.deltaT) :
    ∃ c, costTriple D alpha (min (t2 - t1) (t1 - t0)) |t2 - t1 - (t1 - t0)| = some c ∧
      lengthCycleNone D alpha [t0, t1, t2] =
        some (c + (Real.logb 2 (((D.deltaT - (t2 - t0) % 2) / 2 : ℤ) : ℝ) - Real.logb 2 (((D.deltaT - |t2 - t1 - (t1 - t0)|) / 2 : ℤ) : ℝ))) ∧
      0 ≤ Real.logb 2 (((D.deltaT - (t2 - t0) % 2) / 2 : ℤ) : ℝ) - Real.logb 2 (((D.deltaT - |t2 - t1 - (t1 - t0)|) / 2 : ℤ) : ℝ) := by
  have e3 := computeE_sum t0 [t1, t2] ((t2 - t0) / 2)
  simp only [List.getLast_cons_cons, List.getLast_singleton, List.length_cons, List.length_nil] at e3
  have e3 : (computeE [t0, t1, t2] ((t2 - t0) / 2)).sum = (t2 - t0) % 2 := by rw [e3]; push_cast; omega
  have h2 : ((([t0, t1, t2].length : ℕ) : ℤ) - 1) = 2 := by norm_num
  have habs : |t2 - t1 - (t1 - t0)| ≤ t2 - t0 - 2 := by rw [abs_le]; constructor <;> omega
  have hodd : (t2 - t0) % 2 ≤ |t2 - t1 - (t1 - t0)| := by
    rcases abs_cases (t2 - t1 - (t1 - t0)) with h | h <;> omega
  have hp1 : 0 < (D.deltaT - |t2 - t1 - (t1 - t0)|) / 2 := by omega
  have hle : (D.deltaT - |t2 - t1 - (t1 - t0)|) / 2 ≤ (D.deltaT - (t2 - t0) % 2) / 2 := by omega
  have hm : 0 < D.deltaT - (t2 - t0) % 2 - (t2 - t0) / 2 * 2 + 1 := by omega
  have hme : D.deltaT - |t2 - t1 - (t1 - t0)| - 2 * min (t2 - t1) (t1 - t0) + 1 = D.deltaT - (t2 - t0) % 2 - (t2 - t0) / 2 * 2 + 1 := by
    rcases le_total (t2 - t1) (t1 - t0) with h | h
    · rw [min_eq_left h, abs_of_nonpos (by omega)]; omega
    · rw [min_eq_right h, abs_of_nonneg (by omega)]; omega
  have hE : codeLengthE (computeE [t0, t1, t2] ((t2 - t0) / 2)) = 4 + |t2 - t1 - (t1 - t0)| := by
    simp only [codeLengthE, computeE, Mine.diff, List.map_cons, List.map_nil, List.sum_cons, List.sum_nil]
    rcases le_total (t2 - t1) (t1 - t0) with h | h
    · rw [abs_of_nonneg (by omega : 0 ≤ t1 - t0 - (t2 - t0) / 2), abs_of_nonpos (by omega : t2 - t1 - (t2 - t0) / 2 ≤ 0 ), abs_of_nonpos (by omega)]; ring
    · rcases eq_or_lt_of_le h with h' | h'
      · have : t1 - t0 - (t2 - t0) / 2 = 0 := by omega
        have h3 : t2 - t1 - (t2 - t0) / 2 = 0 := by omega
        have h4 : t2 - t1 - (t1 - t0) = 0 := by omega
        rw [this, h3, h4]; rfl
      · rw [abs_of_nonpos (by omega : t1 - t0 - (t2 - t0) / 2 ≤ 0), abs_of_nonneg (by omega : 0 ≤ t2 - t1 - (t2 - t0) / 2), abs_of_nonneg (by omega)]; ring
  refine ⟨ar + Real.logb 2 ((D.deltaT - (t2 - t0) % 2 - (t2 - t0) / 2 * 2 + 1 : ℤ) : ℝ) + Real.logb 2 (((D.deltaT - |t2 - t1 - (t1 - t0)|) / 2 : ℤ) : ℝ) + 4 +
    ((|(|t2 - t1 - (t1 - t0)|)| : ℤ) : ℝ), ?_, ?_, ?_⟩
  · rw [costTriple, ha, hme, log2_some hm, log2_some hp1]
    simp only [Option.bind_eq_bind, Option.bind_some, Option.pure_def]
  · rw [lengthCycleNone, period_triple, Option.bind_some, lengthCycle_eq D alpha _ _ (by simp) (by rw [h2, e3]; exact hm), ha, h2, e3, hE, log2_some (hp1.trans_le hle)]
    simp only [Option.bind_some, abs_abs]
    congr 1
    push_cast
    ring
  · rw [sub_nonneg]
    exact Real.logb_le_logb_of_le (by norm_num) (by exact_mod_cast hp1) (by exact_mod_cast hle)

/-- Three occurrences of the event 0 in a window of 11 time units. -/
def exD : Details ℕ := ⟨[(0, 3)], 0, 10⟩

theorem exD_alpha : ∃ ar, alphaAndR exD (.one 0) = some ar := by
  simp only [alphaAndR, exD, adjFreq, Details.total, blckDelim, log2_delim, List.lookup, beq_self_eq_true, Option.bind_eq_bind, Option.bind_some, Option.map_some, Option.pure_def]
  rw [log2, if_pos (by norm_num), log2_nat (by norm_num)]
  exact ⟨_, rfl⟩

/-- C72, negated for triples. Occurrences at 0, 1 and 6: the pattern made from the triple costs strictly more than the cost recorded for it. -/
theorem triple_underpriced : ∃ c c' : ℝ, costTriple exD (.one 0) (min (6 - 1) (1 - 0)) |6 - 1 - (1 - 0)| = some c ∧ Mine.computePeriod [0, 1, 6] = some 3 ∧
    codeLength (cycle 3 3 0) 0 (some (computeE [0, 1, 6] 3)) exD = some c' ∧ c < c' := by
  obtain ⟨ar, har⟩ := exD_alpha
  obtain ⟨c, h1, h2, _⟩ := cost_triple_gap exD (.one 0) ar har 0 1 6 (by norm_num) (by norm_num) (by decide)
  have h3 : codeLength (cycle 3 3 0) 0 (some (computeE [0, 1, 6] 3)) exD = lengthCycleNone exD (.one 0) [0, 1, 6] := by
    rw [lengthCycleNone, show Mine.computePeriod [0, 1, 6] = some 3 by decide, Option.bind_some]
    exact cost_cycle exD 0 3 rfl 0 [1, 6] (by simp) 3 (by decide)
  have h4 : Real.logb 2 ((((exD.deltaT - |6 - 1 - (1 - 0)|) / 2 : ℤ)) : ℝ) < Real.logb 2 (((exD.deltaT - (6 - 0) % 2) / 2 : ℤ) : ℝ) :=
    Real.logb_lt_logb (by norm_num) (by exact_mod_cast (by decide : (0 : ℤ) < (exD.deltaT - |6 - 1 - (1 - 0)|) / 2))
      (by exact_mod_cast (by decide : (exD.deltaT - |6 - 1 - (1 - 0)|) / 2 < (exD.deltaT - (6 - 0) % 2) / 2))
  exact ⟨c, _, h1, by decide, h3.trans h2, by linarith⟩

/-- A case of `cost_cycle` with corrections, and one of `cost_triple_eq`. -/
example : codeLength (cycle 4 2 0) 1 (some (computeE [1, 3, 6, 8] 2)) exD = lengthCycle exD (.one 0) [1, 3, 6, 8] 2 false :=
  cost_cycle exD 0 3 rfl 1 [3, 6, 8] (by simp) 2 (by decide)
example : costTriple exD (.one 0) 3 1 = lengthCycle exD (.one 0) [1, 4, 8] 3 false := cost_triple_eq exD (.one 0) 1 4 8 (by decide)
example : computeE [1, 3, 6, 8] 2 = [0, 1, 0] := by decide

end Verif.Cost
