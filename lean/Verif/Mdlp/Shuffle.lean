import Verif.Mdlp.EntropyFit
import Mathlib.Tactic.IntervalCases
import Mathlib.Data.List.Sort

/-! # Cut points and the shuffling of the rows (C97) -/

set_option autoImplicit false
set_option linter.unusedSectionVars false

namespace Verif.Mdlp

open FI

/-- `order` sorts samples by value; samples of equal values come in any order. -/
def Sorts (order : List (ℚ × ℕ) → List (ℚ × ℕ)) : Prop := ∀ l, (order l).Perm l ∧ (order l).Pairwise (fun a b => a.1 ≤ b.1)

theorem sorted_unique {l l' : List (ℚ × ℕ)} (hp : l.Perm l') (h1 : l.Pairwise (fun a b => a.1 ≤ b.1)) (h2 : l'.Pairwise (fun a b => a.1 ≤ b.1))
    (ht : ∀ a ∈ l, ∀ b ∈ l, a.1 = b.1 → a.2 = b.2) : l = l' := by
  refine List.Perm.eq_of_pairwise (le := fun a b : ℚ × ℕ => a.1 ≤ b.1) ?_ h1 h2 hp
  intro a b ha hb hab hba
  have e := le_antisymm hab hba
  exact Prod.ext e (ht a ha b (hp.mem_iff.2 hb) e)

theorem mapM_congr_mem {α β : Type} {f g : α → Option β} : ∀ {l : List α}, (∀ a ∈ l, f a = g a) → l.mapM f = l.mapM g
  | [], _ => rfl
  | a :: l, h => by
    rw [List.mapM_cons, List.mapM_cons, h a (List.mem_cons_self ..), mapM_congr_mem (fun b hb => h b (List.mem_cons_of_mem _ hb))]

theorem column_sorted {order order' : List (ℚ × ℕ) → List (ℚ × ℕ)} (ho : Sorts order) (ho' : Sorts order') {rows l l' : List (List ℚ × ℕ)} (hp : l.Perm rows) (hp' : l'.Perm rows) (j : ℕ)
    (ht : ∀ r ∈ rows, ∀ r' ∈ rows, r.1.getD j 0 = r'.1.getD j 0 → r.2 = r'.2) :
    order (l.map (fun r => (r.1.getD j 0, r.2))) = order' (l'.map (fun r => (r.1.getD j 0, r.2))) := by
  refine sorted_unique ?_ (ho _).2 (ho' _).2 ?_
  · exact (ho _).1.trans (((hp.trans hp'.symm).map _).trans (ho' _).1.symm)
  · intro a ha b hb e
    obtain ⟨r, h1, rfl⟩ := List.mem_map.1 ((ho _).1.mem_iff.1 ha)
    obtain ⟨r', h2, rfl⟩ := List.mem_map.1 ((ho _).1.mem_iff.1 hb)
    exact ht r (hp.mem_iff.1 h1) r' (hp.mem_iff.1 h2) e

/-- C97. When samples of equal value in a column have equal labels, the cut points depend neither on the shuffling of the rows nor on the order given to ties. The full statement has no condition `hties`; `shuffle_matters` refutes it
otherwise. -/
theorem shuffle_irrelevant_partial (fuel width : ℕ) (perm perm' : List (List ℚ × ℕ) → List (List ℚ × ℕ)) (order order' : List (ℚ × ℕ) → List (ℚ × ℕ)) (ho : Sorts order) (ho' : Sorts order')
    (rows : List (List ℚ × ℕ)) (hp : (perm rows).Perm rows) (hp' : (perm' rows).Perm rows)
    (hties : ∀ j, j < width → ∀ r ∈ rows, ∀ r' ∈ rows, r.1.getD j 0 = r'.1.getD j 0 → r.2 = r'.2) :
    fitAll fuel width perm order rows = fitAll fuel width perm' order' rows := by
  have key : ∀ j ∈ List.range width, order ((perm rows).map (fun r => (r.1.getD j 0, r.2))) = order' ((perm' rows).map (fun r => (r.1.getD j 0, r.2))) := by
    intro j hj
    exact column_sorted ho ho' hp hp' j (hties j (List.mem_range.1 hj))
  unfold fitAll
  congr 1
  exact mapM_congr_mem (fun j hj => congrArg (fitColumn fuel) (key j hj))

/-- Two columns without conflicting ties. -/
example : ∀ j, j < 2 → ∀ r ∈ [([1, 5], 0), ([1, 7], 0), ([(2 : ℚ), 6], 1)], ∀ r' ∈ [([1, 5], 0), ([1, 7], 0), ([(2 : ℚ), 6], 1)], r.1.getD j 0 = r'.1.getD j 0 → r.2 = r'.2 := by
  decide +kernel

/-! ## A constant column -/

theorem logb_le {x : ℝ} {n : ℕ} (h0 : 0 < x) (h : x ≤ 2 ^ n) : Real.logb 2 x ≤ n := by
  rw [Real.logb_le_iff_le_rpow (by norm_num) h0, Real.rpow_natCast]
  exact h

theorem le_logb {x : ℝ} {n : ℕ} (h : (2 : ℝ) ^ n ≤ x) : n ≤ Real.logb 2 x := by
  rw [Real.le_logb_iff_rpow_le (by norm_num) (lt_of_lt_of_le (by positivity) h), Real.rpow_natCast]
  exact h

theorem logb_three : 3 / 2 ≤ Real.logb 2 3 := by
  have h : ((3 : ℕ) : ℝ) ≤ Real.logb 2 9 := le_logb (by norm_num)
  have e : Real.logb 2 9 = 2 * Real.logb 2 3 := by
    rw [show (9 : ℝ) = 3 ^ 2 by norm_num, Real.logb_pow]
    norm_num
  rw [e] at h
  push_cast at h
  linarith

theorem grouped_best : BestCut [0, 0, 1, 1] 0 4 2 := by
  rw [bestCut_sides (by simp)]
  have h0 : sides [0, 0, 1, 1] 0 4 2 = 0 := by
    unfold sides part
    simp only [List.take, List.drop]
    rw [Hs_const (c := 0) (by simp), Hs_const (c := 1) (by simp), add_zero]
  refine ⟨by norm_num, by norm_num, fun j h1 h2 => ?_⟩
  rw [h0]
  refine ⟨add_nonneg (Hs_nonneg _) (Hs_nonneg _), fun h3 => ?_⟩
  have : j = 1 := by omega
  subst this
  refine add_pos_of_nonneg_of_pos (Hs_nonneg _) ?_
  have : part [0, 0, 1, 1] 1 4 = [0, 1, 1] := rfl
  rw [this]
  exact lt_of_le_of_lt (Hs_nonneg [1, 1]) (Hs_cons_lt (c := 0) (d := 1) (by simp) (by norm_num))

/-- The first best cut of `0 0 1 1` is found, and has positive gain. -/
example : generateCut [0, 0, 1, 1] (scoreOf [0, 0, 1, 1]) 0 4 = some 2 ∧ 0 < Gain (part [0, 0, 1, 1] 0 2) (part [0, 0, 1, 1] 2 4) := by
  have hne : ¬ ∀ a ∈ part [0, 0, 1, 1] 0 4, ∀ b ∈ part [0, 0, 1, 1] 0 4, a = b := by decide
  exact ⟨((generate_cut_best [0, 0, 1, 1] 0 4 (by decide) (by decide)).2 2).2 ⟨grouped_best, hne⟩, best_gain_pos (by decide) grouped_best hne⟩

theorem grouped_cut : Cut [0, 0, 1, 1] 2 := by
  refine ⟨0, 4, Piece.all, grouped_best, ?_⟩
  have e1 : part [0, 0, 1, 1] 0 2 = [0, 0] := rfl
  have e2 : part [0, 0, 1, 1] 2 4 = [1, 1] := rfl
  rw [e1, e2]
  have g : Gain [0, 0] [1, 1] = 1 := Gain_disjoint (by simp) (by simp) (by simp)
  have c0 : classes [0, 0, 1, 1] = 2 := by decide
  have z0 : Ent [0, 0] = 0 := by rw [Ent_eq, Hs_const (c := 0) (by simp), zero_div]
  have z1 : Ent [1, 1] = 0 := by rw [Ent_eq, Hs_const (c := 1) (by simp), zero_div]
  have g' : Ent [0, 0, 1, 1] = 1 := by
    have := g
    unfold Gain CutEnt at this
    rw [z0, z1] at this
    simpa using this
  unfold Accept
  simp only [List.cons_append, List.nil_append]
  rw [g, c0, z0, z1, g']
  have l1 : Real.logb 2 ((([0, 0, 1, 1] : List ℕ).length : ℝ) - 1) ≤ (2 : ℕ) := logb_le (by norm_num) (by norm_num)
  have l2 : Real.logb 2 ((3 : ℝ) ^ 2 - 2) ≤ (3 : ℕ) := logb_le (by norm_num) (by norm_num)
  have l3 : (([0, 0, 1, 1] : List ℕ).length : ℝ) = 4 := by norm_num
  rw [gt_iff_lt, div_lt_one (by rw [l3]; norm_num)]
  rw [l3] at l1 ⊢
  push_cast at l1 l2 ⊢
  linarith

theorem Ent_alt : Ent [0, 1, 0, 1] = 1 := by
  have e : Hs [0, 1, 0, 1] = Hs ([0, 0] ++ [1, 1]) := Hs_perm (by decide)
  have g : Gain [0, 0] [1, 1] = 1 := Gain_disjoint (by simp) (by simp) (by simp)
  have z0 : Ent [0, 0] = 0 := by rw [Ent_eq, Hs_const (c := 0) (by simp), zero_div]
  have z1 : Ent [1, 1] = 0 := by rw [Ent_eq, Hs_const (c := 1) (by simp), zero_div]
  unfold Gain CutEnt at g
  rw [z0, z1] at g
  simp only [mul_zero, add_zero, sub_zero] at g
  rw [← g, Ent_eq, Ent_eq, e]
  rfl

theorem Hs_two (a b : ℕ) (h : a ≠ b) : Hs [a, b] = 2 * Real.log 2 := by
  rw [Hs_cons, Hs_const (c := b) (by simp), List.count_eq_zero_of_not_mem (by simpa using h)]
  norm_num [xlog]

theorem Hs_aab (a b : ℕ) (h : a ≠ b) : Hs [a, a, b] = 3 * Real.log 3 - 2 * Real.log 2 := by
  rw [Hs_cons, Hs_two a b h, List.count_cons_self, List.count_eq_zero_of_not_mem (by simpa using h)]
  norm_num [xlog]

theorem Ent_aab {S : List ℕ} (a b : ℕ) (h : a ≠ b) (hp : S.Perm [a, a, b]) : Ent S = Real.logb 2 3 - 2 / 3 := by
  have := log_two_pos
  rw [Ent_eq, Hs_perm hp, Hs_aab a b h, hp.length_eq, Real.logb]
  simp only [List.length_cons, List.length_nil]
  push_cast
  field_simp

theorem alternating_not_accepted (k : ℕ) (h1 : 0 < k) (h2 : k < 4) : ¬ Accept (part [0, 1, 0, 1] 0 k) (part [0, 1, 0, 1] k 4) := by
  have hl := logb_three
  have l7 : ((2 : ℕ) : ℝ) ≤ Real.logb 2 ((3 : ℝ) ^ 2 - 2) := le_logb (by norm_num)
  have l3 : (([0, 1, 0, 1] : List ℕ).length : ℝ) = 4 := by norm_num
  have c0 : classes [0, 1, 0, 1] = 2 := by decide
  have e3 : Real.logb 2 ((4 : ℝ) - 1) = Real.logb 2 3 := by norm_num
  have key : ∀ S T : List ℕ, S ++ T = [0, 1, 0, 1] → Accept S T → (4 : ℝ) - (S.length * Ent S + T.length * Ent T) > Real.logb 2 3 + (Real.logb 2 ((3 : ℝ) ^ 2 - 2) - (2 - classes S * Ent S - classes T * Ent T)) := by
    intro S T hST hA
    unfold Accept Gain CutEnt at hA
    simp only [hST] at hA
    rw [l3, c0, Ent_alt, e3] at hA
    push_cast at hA
    rw [gt_iff_lt, div_lt_iff₀ (by norm_num)] at hA
    ring_nf at hA ⊢
    linarith
  intro hA
  push_cast at l7
  interval_cases k
  · have e1 : part [0, 1, 0, 1] 0 1 = [0] := rfl
    have e2 : part [0, 1, 0, 1] 1 4 = [1, 0, 1] := rfl
    rw [e1, e2] at hA
    have := key _ _ rfl hA
    have c1 : classes [0] = 1 := by decide
    have c2 : classes [1, 0, 1] = 2 := by decide
    rw [Ent_aab 1 0 (by norm_num) (S := [1, 0, 1]) (by decide), Ent_eq [0], Hs_const (c := 0) (by simp), c1, c2] at this
    norm_num at this l7
    linarith
  · have e1 : part [0, 1, 0, 1] 0 2 = [0, 1] := rfl
    have e2 : part [0, 1, 0, 1] 2 4 = [0, 1] := rfl
    rw [e1, e2] at hA
    have := key _ _ rfl hA
    have c2 : classes [0, 1] = 2 := by decide
    have hlog := log_two_pos
    have z : Ent [0, 1] = 1 := by
      rw [Ent_eq, Hs_two 0 1 (by norm_num)]
      norm_num
    rw [z, c2] at this
    norm_num at this l7
    linarith
  · have e1 : part [0, 1, 0, 1] 0 3 = [0, 1, 0] := rfl
    have e2 : part [0, 1, 0, 1] 3 4 = [1] := rfl
    rw [e1, e2] at hA
    have := key _ _ rfl hA
    have c1 : classes [1] = 1 := by decide
    have c2 : classes [0, 1, 0] = 2 := by decide
    rw [Ent_aab 0 1 (by norm_num) (S := [0, 1, 0]) (by decide), Ent_eq [1], Hs_const (c := 1) (by simp), c1, c2] at this
    norm_num at this l7
    linarith

theorem alternating_no_cut (k : ℕ) : ¬ Cut [0, 1, 0, 1] k := by
  have h : ∀ s e, Piece [0, 1, 0, 1] s e → s = 0 ∧ e = 4 := by
    intro s e h
    induction h with
    | all => exact ⟨rfl, rfl⟩
    | left s e k _ hb ha ih => obtain ⟨rfl, rfl⟩ := ih; exact absurd ha (alternating_not_accepted k hb.1 hb.2.1)
    | right s e k _ hb ha ih => obtain ⟨rfl, rfl⟩ := ih; exact absurd ha (alternating_not_accepted k hb.1 hb.2.1)
  rintro ⟨s, e, hp, hb, ha⟩
  obtain ⟨rfl, rfl⟩ := h s e hp
  exact alternating_not_accepted k hb.1 hb.2.1 ha

/-- C97 fails with ties: four samples with the same value, two of each class. If the shuffle groups the classes the column is cut at that value, if it alternates them it is not cut. -/
theorem shuffle_matters : ∃ rows shuffled shuffled' : List (List ℚ × ℕ), shuffled.Perm rows ∧ shuffled'.Perm rows ∧ ∃ order, Sorts order ∧
    fitAll 8 1 (fun _ => shuffled) order rows = some (.ok [[0]]) ∧ fitAll 8 1 (fun _ => shuffled') order rows = some (.ok [[]]) := by
  have hord : Sorts (fun l => l.insertionSort (fun a b => a.1 ≤ b.1)) := by
    intro l
    refine ⟨List.perm_insertionSort _ l, ?_⟩
    have : Std.Total (fun a b : ℚ × ℕ => a.1 ≤ b.1) := ⟨fun a b => le_total _ _⟩
    have : IsTrans (ℚ × ℕ) (fun a b => a.1 ≤ b.1) := ⟨fun a b c => le_trans⟩
    exact List.pairwise_insertionSort _ l
  have hA : fitColumn 8 [((0 : ℚ), 0), (0, 0), (0, 1), (0, 1)] = some (.ok [0]) := by
    obtain ⟨cuts, h1, h2, h3⟩ := fit_fayyad_irani_partial [((0 : ℚ), 0), (0, 0), (0, 1), (0, 1)] (by simp) (by simp) (by decide) 8 (by simp)
    have hin : (0 : ℚ) ∈ cuts := (h3 0).2 ⟨2, (0, 0), (0, 1), grouped_cut, rfl, rfl, by norm_num⟩
    have hall : ∀ c ∈ cuts, c = 0 := by
      intro c hc
      obtain ⟨k, a, b, -, ha, hb, rfl⟩ := (h3 c).1 hc
      have e1 : ∀ x : ℚ × ℕ, x ∈ [((0 : ℚ), 0), (0, 0), (0, 1), (0, 1)] → x.1 = 0 := by simp
      rw [e1 a (List.mem_of_getElem? ha), e1 b (List.mem_of_getElem? hb)]
      norm_num
    have : cuts = [0] := by
      match cuts, h2, hin, hall with
      | [c], _, _, hall => rw [hall c (by simp)]
      | c :: d :: t, h2, _, hall =>
        have := (List.pairwise_cons.1 h2).1 d (by simp)
        rw [hall c (by simp), hall d (by simp)] at this
        exact absurd this (lt_irrefl _)
    rw [h1, this]
  have hB : fitColumn 8 [((0 : ℚ), 0), (0, 1), (0, 0), (0, 1)] = some (.ok []) := by
    obtain ⟨cuts, h1, h2, h3⟩ := fit_fayyad_irani_partial [((0 : ℚ), 0), (0, 1), (0, 0), (0, 1)] (by simp) (by simp) (by decide) 8 (by simp)
    have : cuts = [] := by
      rw [List.eq_nil_iff_forall_not_mem]
      intro c hc
      obtain ⟨k, a, b, hk, -⟩ := (h3 c).1 hc
      exact alternating_no_cut k hk
    rw [h1, this]
  refine ⟨[([0], 0), ([0], 0), ([0], 1), ([0], 1)], [([0], 0), ([0], 0), ([0], 1), ([0], 1)], [([0], 0), ([0], 1), ([0], 0), ([0], 1)], List.Perm.refl _, ?_, _, hord, ?_, ?_⟩
  · exact ((List.Perm.swap _ _ _).cons _)
  · have e : ([([(0 : ℚ)], 0), ([0], 0), ([0], 1), ([0], 1)].map (fun r => (r.1.getD 0 0, r.2))).insertionSort (fun a b => a.1 ≤ b.1) = [((0 : ℚ), 0), (0, 0), (0, 1), (0, 1)] := by decide +kernel
    unfold fitAll
    rw [List.range_one, List.mapM_cons, List.mapM_nil]
    simp only
    rw [e, hA]
    rfl
  · have e : ([([(0 : ℚ)], 0), ([0], 1), ([0], 0), ([0], 1)].map (fun r => (r.1.getD 0 0, r.2))).insertionSort (fun a b => a.1 ≤ b.1) = [((0 : ℚ), 0), (0, 1), (0, 0), (0, 1)] := by decide +kernel
    unfold fitAll
    rw [List.range_one, List.mapM_cons, List.mapM_nil]
    simp only
    rw [e, hB]
    rfl

end Verif.Mdlp
