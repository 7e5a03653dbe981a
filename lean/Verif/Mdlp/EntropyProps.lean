import Verif.Mdlp.EntropyLemmas
import Verif.Mdlp.Props
import Mathlib.Order.Interval.Finset.Nat
import Mathlib.Tactic.IntervalCases

/-! # The cuts of the MDLP discretizer are those of Fayyad and Irani (C96) -/

set_option autoImplicit false
set_option linter.unusedSectionVars false

namespace Verif.Mdlp

open FI

/-! ### The code's entropies -/

theorem le_foldr_max {y : List ℕ} {a : ℕ} (h : a ∈ y) : a ≤ y.foldr max 0 := by
  induction y with
  | nil => simp at h
  | cons b y ih =>
    rw [List.foldr_cons]
    rcases List.mem_cons.1 h with e | e
    · omega
    · have := ih e; omega

theorem toFinset_subset_range (y : List ℕ) : y.toFinset ⊆ Finset.range (y.foldr max 0 + 1) := by
  intro a ha
  rw [Finset.mem_range]
  have := le_foldr_max (List.mem_toFinset.1 ha)
  omega

theorem entropyOf_eq (y : List ℕ) : entropyOf y = Ent y := by
  unfold entropyOf bincount Ent
  split_ifs with h
  · simp [h]
  · rw [List.map_map, ← List.sum_toFinset _ List.nodup_range, List.toFinset_range, Finset.sum_div, ← Finset.sum_subset (toFinset_subset_range y)]
    · apply Finset.sum_congr rfl
      intro c hc
      have h1 : (0 : ℝ) < (y.count c : ℝ) := by exact_mod_cast List.count_pos_iff.2 (List.mem_toFinset.1 hc)
      have h2 : (0 : ℝ) < (y.length : ℝ) := by exact_mod_cast List.length_pos_iff.2 h
      simp only [Function.comp_apply, entr]
      rw [if_pos (by positivity), Real.logb]
      ring
    · intro c _ hc
      rw [List.mem_toFinset] at hc
      simp [entr, List.count_eq_zero_of_not_mem hc]

theorem nbOnes_eq (y : List ℕ) : nbOnes y = classes y := by
  unfold nbOnes bincount classes
  split_ifs with h
  · simp [h]
  · rw [List.countP_map, List.countP_eq_length_filter]
    have hnd : ((List.range (y.foldr max 0 + 1)).filter ((fun c => decide (c ≠ 0)) ∘ fun l => y.count l)).Nodup := List.nodup_range.filter _
    rw [← List.toFinset_card_of_nodup hnd]
    congr 1
    ext a
    simp only [List.mem_toFinset, List.mem_filter, List.mem_range, Function.comp_apply, decide_eq_true_eq, ne_eq, List.count_eq_zero, not_not]
    constructor
    · exact fun h => h.2
    · intro ha
      have := le_foldr_max ha
      exact ⟨by omega, ha⟩

theorem slice_eq (y : List ℕ) (s e : ℕ) : slice y s e = part y s e := by
  rw [slice, part, List.drop_take]

theorem length_part {y : List ℕ} {s e : ℕ} (he : e ≤ y.length) : (part y s e).length = e - s := by
  rw [part, List.length_drop, List.length_take, Nat.min_eq_left he]

theorem part_append {y : List ℕ} {s k e : ℕ} (h1 : s ≤ k) (h2 : k ≤ e) : part y s k ++ part y k e = part y s e := by
  obtain ⟨i, rfl⟩ := Nat.exists_eq_add_of_le h1
  obtain ⟨j, rfl⟩ := Nat.exists_eq_add_of_le h2
  rw [← slice_eq, ← slice_eq, ← slice_eq, slice, slice, slice, ← List.drop_drop]
  have e1 : s + i - s = i := by omega
  have e2 : s + i + j - (s + i) = j := by omega
  have e3 : s + i + j - s = i + j := by omega
  rw [e1, e2, e3, List.take_add]

theorem scoreOf_eq {y : List ℕ} {s k e : ℕ} (h1 : s ≤ k) (h2 : k ≤ e) (he : e ≤ y.length) : scoreOf y s e k = CutEnt (part y s k) (part y k e) := by
  unfold scoreOf CutEnt
  rw [entropyOf_eq, entropyOf_eq, slice_eq, slice_eq, part_append h1 h2, length_part he, length_part he, length_part (h2.trans he)]
  ring

theorem int64_small {c : ℕ} (hc : c < 40) : int64 (3 ^ c) = 3 ^ c := by
  have h1 : (3 : ℤ) ^ c ≤ 3 ^ 39 := pow_le_pow_right₀ (by norm_num) (by omega)
  have h2 : (0 : ℤ) < 3 ^ c := by positivity
  unfold int64
  rw [Int.emod_eq_of_lt (by positivity) (by norm_num at h1 ⊢; linarith)]
  ring

theorem int64_wrap {c : ℕ} (h1 : 40 ≤ c) (h2 : c ≤ 43) : int64 (3 ^ c) - 2 ≤ 0 := by
  interval_cases c <;> decide

theorem classes_pos {S : List ℕ} (h : S ≠ []) : 1 ≤ classes S := by
  unfold classes
  rw [Nat.one_le_iff_ne_zero, Finset.card_ne_zero]
  exact List.toFinset_nonempty_iff S |>.2 h

theorem betterOf_iff {y : List ℕ} {s k e : ℕ} (h1 : s < k) (h2 : k < e) (he : e ≤ y.length) (hc : classes (part y s e) < 40) :
    betterOf y s e k = true ↔ Accept (part y s k) (part y k e) := by
  have hne : part y s e ≠ [] := by
    intro h
    have := length_part (s := s) he
    rw [h] at this
    simp at this
    omega
  have hpos := classes_pos hne
  have hw : ¬ (int64 (3 ^ classes (part y s e)) - 2 ≤ 0) := by
    rw [int64_small hc]
    have : (3 : ℤ) ^ 1 ≤ 3 ^ classes (part y s e) := pow_le_pow_right₀ (by norm_num) hpos
    linarith
  unfold betterOf Accept Gain
  simp only [slice_eq, entropyOf_eq, nbOnes_eq]
  rw [if_neg hw, int64_small hc, decide_eq_true_eq, part_append h1.le h2.le, length_part he]
  have hn : (0 : ℝ) < ((e - s : ℕ) : ℝ) := by exact_mod_cast (by omega : 0 < e - s)
  unfold CutEnt
  rw [part_append h1.le h2.le, length_part he, length_part he, length_part (h2.le.trans he)]
  push_cast
  have e1 : ∀ X : ℝ, 1 / ((e - s : ℕ) : ℝ) * X = X / ((e - s : ℕ) : ℝ) := fun X => by ring
  have e2 : ∀ a b u v : ℝ, (a * u + b * v) / ((e - s : ℕ) : ℝ) = a / ((e - s : ℕ) : ℝ) * u + b / ((e - s : ℕ) : ℝ) * v := fun a b u v => by ring
  rw [gt_iff_lt, gt_iff_lt, e1, e1, e2]

theorem betterOf_refused {y : List ℕ} {s k e : ℕ} (h1 : 40 ≤ classes (part y s e)) (h2 : classes (part y s e) ≤ 43) : betterOf y s e k = false := by
  unfold betterOf
  simp only [slice_eq, nbOnes_eq]
  rw [if_pos (int64_wrap h1 h2)]

/-! ### The first cut of least entropy is a boundary -/

/-- The total entropy of both sides of a cut. -/
noncomputable def sides (y : List ℕ) (s e k : ℕ) : ℝ := Hs (part y s k) + Hs (part y k e)

theorem CutEnt_sides {y : List ℕ} {s k e : ℕ} (h1 : s ≤ k) (h2 : k ≤ e) (he : e ≤ y.length) :
    CutEnt (part y s k) (part y k e) = sides y s e k / (((e - s : ℕ) : ℝ) * Real.log 2) := by
  rw [CutEnt_eq, part_append h1 h2, length_part he, sides]

theorem part_last {y : List ℕ} {s k c : ℕ} (h : s ≤ k) (hk : y[k]? = some c) : part y s (k + 1) = part y s k ++ [c] := by
  rw [← part_append h (Nat.le_succ k)]
  congr 1
  rw [part, List.take_succ, hk, List.drop_append_of_le_length (by rw [List.length_take]; have := (List.getElem?_eq_some_iff.1 hk).1; omega)]
  have : (y.take k).length = k := by rw [List.length_take]; have := (List.getElem?_eq_some_iff.1 hk).1; omega
  rw [List.drop_eq_nil_of_le (by omega)]
  rfl

theorem part_first {y : List ℕ} {k e c : ℕ} (h : k < e) (hk : y[k]? = some c) : part y k e = c :: part y (k + 1) e := by
  rw [← part_append (Nat.le_succ k) h, part_last le_rfl hk]
  have : part y k k = [] := by rw [← slice_eq, slice]; simp
  rw [this]
  rfl

theorem mem_part {y : List ℕ} {s e c : ℕ} : c ∈ part y s e ↔ ∃ j, s ≤ j ∧ j < e ∧ y[j]? = some c := by
  rw [part, List.mem_iff_getElem?]
  constructor
  · rintro ⟨i, hi⟩
    rw [List.getElem?_drop, List.getElem?_take] at hi
    split_ifs at hi with h
    exact ⟨s + i, by omega, h, hi⟩
  · rintro ⟨j, h1, h2, h3⟩
    refine ⟨j - s, ?_⟩
    rw [List.getElem?_drop, List.getElem?_take, if_pos (by omega), show s + (j - s) = j by omega, h3]

/-- The labels of an interval are all equal. -/
def Const (y : List ℕ) (s e : ℕ) : Prop := ∀ a ∈ part y s e, ∀ b ∈ part y s e, a = b

theorem min_boundary {y : List ℕ} {s e k : ℕ} (he : e ≤ y.length) (h1 : s < k) (h2 : k < e) (hc : ¬ Const y s e)
    (hmin : ∀ j, s < j → j < e → sides y s e k ≤ sides y s e j ∧ (j < k → sides y s e k < sides y s e j)) : Boundary y k := by
  refine ⟨by omega, by omega, fun heq => ?_⟩
  obtain ⟨c, hk⟩ : ∃ c, y[k]? = some c := ⟨_, List.getElem?_eq_getElem (by omega)⟩
  obtain ⟨k, rfl⟩ : ∃ j, k = j + 1 := ⟨k - 1, by omega⟩
  rw [Nat.add_sub_cancel, hk] at heq
  have hA : part y s (k + 1) = part y s k ++ [c] := part_last (by omega) heq
  have hA' : part y s (k + 1 + 1) = part y s k ++ [c] ++ [c] := by rw [part_last (by omega) hk, hA]
  have hB : part y (k + 1) e = c :: part y (k + 1 + 1) e := part_first h2 hk
  have hB' : part y k e = c :: c :: part y (k + 1 + 1) e := by rw [part_first (by omega) heq, hB]
  have pA : Hs (part y s k ++ [c]) = Hs (c :: part y s k) := Hs_perm (List.perm_append_singleton c _)
  have pA' : Hs (part y s k ++ [c] ++ [c]) = Hs (c :: c :: part y s k) :=
    Hs_perm ((List.perm_append_singleton c _).trans ((List.perm_append_singleton c _).cons c))
  have f0 : sides y s e k = Hs (part y s k) + Hs (c :: c :: part y (k + 1 + 1) e) := by rw [sides, hB']
  have f1 : sides y s e (k + 1) = Hs (c :: part y s k) + Hs (c :: part y (k + 1 + 1) e) := by rw [sides, hA, hB, pA]
  have f2 : sides y s e (k + 1 + 1) = Hs (c :: c :: part y s k) + Hs (part y (k + 1 + 1) e) := by rw [sides, hA', pA']
  have hconc : sides y s e k + sides y s e (k + 1 + 1) ≤ 2 * sides y s e (k + 1) := by
    rw [f0, f1, f2]
    linarith [Hs_three c (part y s k), Hs_three c (part y (k + 1 + 1) e)]
  have hleft : sides y s e (k + 1) < sides y s e k := by
    rcases Nat.lt_or_ge s k with h | h
    · exact (hmin k h (by omega)).2 (Nat.lt_succ_self k)
    · have hs : k = s := by omega
      have hnil : part y s k = [] := by rw [hs, ← slice_eq, slice]; simp
      rw [f0, f1, hnil]
      have : ∃ d ∈ c :: part y (k + 1 + 1) e, d ≠ c := by
        by_contra hno
        push Not at hno
        apply hc
        have hall : ∀ a ∈ part y s e, a = c := by
          intro a ha
          rw [← hs, hB'] at ha
          rcases List.mem_cons.1 ha with e1 | e1
          · exact e1
          · exact hno a e1
        intro a ha b hb
        rw [hall a ha, hall b hb]
      obtain ⟨d, hd1, hd2⟩ := this
      have l1 := Hs_cons_lt hd1 hd2
      have l2 : Hs [c] = 0 := Hs_const (c := c) (by simp)
      rw [l2, Hs_nil]
      linarith
  have hright : sides y s e (k + 1) ≤ sides y s e (k + 1 + 1) := by
    rcases Nat.lt_or_ge (k + 1 + 1) e with h | h
    · exact (hmin (k + 1 + 1) (by omega) h).1
    · have hnil : part y (k + 1 + 1) e = [] := by rw [part, List.drop_eq_nil_of_le]; rw [List.length_take]; omega
      rw [f1, f2, hnil]
      have l2 : Hs [c] = 0 := Hs_const (c := c) (by simp)
      rw [l2, Hs_nil]
      linarith [Hs_cons_le c (c :: part y s k)]
  linarith

theorem exists_first_min (f : ℕ → ℝ) {s e : ℕ} (h : s + 1 < e) : ∃ k, s < k ∧ k < e ∧ ∀ j, s < j → j < e → f k ≤ f j ∧ (j < k → f k < f j) := by
  classical
  obtain ⟨m, hm, hmin⟩ := Finset.exists_min_image (Finset.Ioo s e) f ⟨s + 1, Finset.mem_Ioo.2 ⟨by omega, h⟩⟩
  have hex : ∃ k, s < k ∧ k < e ∧ ∀ j, s < j → j < e → f k ≤ f j :=
    ⟨m, (Finset.mem_Ioo.1 hm).1, (Finset.mem_Ioo.1 hm).2, fun j h1 h2 => hmin j (Finset.mem_Ioo.2 ⟨h1, h2⟩)⟩
  obtain ⟨k1, k2, k3⟩ := Nat.find_spec hex
  refine ⟨Nat.find hex, k1, k2, fun j h1 h2 => ⟨k3 j h1 h2, fun hlt => ?_⟩⟩
  by_contra hge
  push Not at hge
  exact Nat.find_min hex hlt ⟨h1, h2, fun i i1 i2 => hge.trans (k3 i i1 i2)⟩

theorem bestCut_sides {y : List ℕ} {s e k : ℕ} (he : e ≤ y.length) :
    BestCut y s e k ↔ s < k ∧ k < e ∧ ∀ j, s < j → j < e → sides y s e k ≤ sides y s e j ∧ (j < k → sides y s e k < sides y s e j) := by
  unfold BestCut
  apply and_congr_right
  intro h1
  apply and_congr_right
  intro h2
  have hpos : (0 : ℝ) < ((e - s : ℕ) : ℝ) * Real.log 2 := mul_pos (by exact_mod_cast (by omega : 0 < e - s)) log_two_pos
  have key : ∀ j, s < j → j < e → (CutEnt (part y s k) (part y k e) ≤ CutEnt (part y s j) (part y j e) ↔ sides y s e k ≤ sides y s e j) ∧
      (CutEnt (part y s k) (part y k e) < CutEnt (part y s j) (part y j e) ↔ sides y s e k < sides y s e j) := by
    intro j j1 j2
    rw [CutEnt_sides h1.le h2.le he, CutEnt_sides j1.le j2.le he]
    exact ⟨div_le_div_iff_of_pos_right hpos, div_lt_div_iff_of_pos_right hpos⟩
  constructor
  · intro h j j1 j2
    exact ⟨(key j j1 j2).1.1 (h j j1 j2).1, fun hlt => (key j j1 j2).2.1 ((h j j1 j2).2 hlt)⟩
  · intro h j j1 j2
    exact ⟨(key j j1 j2).1.2 (h j j1 j2).1, fun hlt => (key j j1 j2).2.2 ((h j j1 j2).2 hlt)⟩

theorem const_not_boundary {y : List ℕ} {s e k : ℕ} (hc : Const y s e) (h1 : s < k) (h2 : k < e) (hb : Boundary y k) : False := by
  obtain ⟨b1, b2, b3⟩ := hb
  obtain ⟨a, ha⟩ : ∃ a, y[k - 1]? = some a := ⟨_, List.getElem?_eq_getElem (by omega)⟩
  obtain ⟨b, hb⟩ : ∃ b, y[k]? = some b := ⟨_, List.getElem?_eq_getElem b2⟩
  rw [ha, hb] at b3
  exact b3 (congrArg some (hc a (mem_part.2 ⟨k - 1, by omega, by omega, ha⟩) b (mem_part.2 ⟨k, by omega, h2, hb⟩)))

theorem best_iff {y : List ℕ} {s e k : ℕ} (he : e ≤ y.length) : Best y (scoreOf y s e) s e k ↔ BestCut y s e k ∧ ¬ Const y s e := by
  have back : ∀ k, BestCut y s e k → ¬ Const y s e → Best y (scoreOf y s e) s e k := by
    intro k hb hc
    obtain ⟨b1, b2, b3⟩ := (bestCut_sides he).1 hb
    refine ⟨b1, b2, min_boundary he b1 b2 hc b3, fun j j1 j2 _ => ?_⟩
    rw [scoreOf_eq b1.le b2.le he, scoreOf_eq j1.le j2.le he]
    exact hb.2.2 j j1 j2
  refine ⟨fun h => ?_, fun h => back k h.1 h.2⟩
  have hc : ¬ Const y s e := fun hc => const_not_boundary hc h.1 h.2.1 h.2.2.1
  obtain ⟨k', hk'⟩ := exists_first_min (sides y s e) (show s + 1 < e by have := h.1; have := h.2.1; omega)
  have hb := (bestCut_sides he).2 hk'
  have := best_unique h (back k' hb hc)
  rw [this]
  exact ⟨hb, hc⟩

theorem accept_not_const {y : List ℕ} {s e k : ℕ} (h1 : s < k) (h2 : k < e) (he : e ≤ y.length) (ha : Accept (part y s k) (part y k e)) : ¬ Const y s e := by
  intro hc
  have hne : part y s e ≠ [] := by
    intro h
    have := length_part (s := s) he
    rw [h] at this
    simp at this
    omega
  obtain ⟨c, hcm⟩ := List.exists_mem_of_ne_nil _ hne
  have hall : ∀ x ∈ part y s e, x = c := fun x hx => hc x hx c hcm
  have hsub1 : ∀ x ∈ part y s k, x = c := fun x hx => hall x (by rw [← part_append h1.le h2.le]; exact List.mem_append_left _ hx)
  have hsub2 : ∀ x ∈ part y k e, x = c := fun x hx => hall x (by rw [← part_append h1.le h2.le]; exact List.mem_append_right _ hx)
  have z : ∀ S : List ℕ, (∀ x ∈ S, x = c) → Ent S = 0 := fun S hS => by rw [Ent_eq, Hs_const hS, zero_div]
  have hcl : classes (part y s e) = 1 := by
    unfold classes
    rw [Finset.card_eq_one]
    refine ⟨c, ?_⟩
    ext x
    rw [List.mem_toFinset, Finset.mem_singleton]
    exact ⟨fun hx => hall x hx, fun hx => hx ▸ hcm⟩
  unfold Accept Gain CutEnt at ha
  simp only [part_append h1.le h2.le, z _ hall, z _ hsub1, z _ hsub2, hcl, length_part he] at ha
  norm_num at ha
  have hn : (1 : ℝ) ≤ ((e - s : ℕ) : ℝ) - 1 := by
    have : (2 : ℝ) ≤ ((e - s : ℕ) : ℝ) := by exact_mod_cast (by omega : 2 ≤ e - s)
    linarith
  have := Real.logb_nonneg (b := 2) (by norm_num) hn
  have h3 : (0 : ℝ) ≤ Real.logb 2 (((e - s : ℕ) : ℝ) - 1) / ((e - s : ℕ) : ℝ) := by positivity
  linarith

end Verif.Mdlp
