import Verif.Graph.PreqModel
import Verif.Graph.PreqSpec
import Mathlib.Algebra.BigOperators.Group.List.Lemmas
import Mathlib.Algebra.BigOperators.Ring.List
import Mathlib.Algebra.Order.BigOperators.Group.List

/-!
# The prequential code of GraphMDL: properties (C84)
-/

set_option autoImplicit false
set_option linter.unusedSectionVars false

namespace Verif.Graph

/-- Sum of the logarithms of `n` consecutive numbers from `e`. -/
noncomputable def rise (e : ℝ) : ℕ → ℝ
  | 0 => 0
  | n + 1 => rise e n + Real.logb 2 (e + n)

theorem rise_shift (e : ℝ) (n : ℕ) : rise e (n + 1) = Real.logb 2 e + rise (e + 1) n := by
  induction n with
  | zero => simp [rise]
  | succ n ih => rw [rise, ih, rise]; push_cast; rw [show e + ((n : ℝ) + 1) = e + 1 + n by ring]; ring

theorem rise_add (e : ℝ) (m n : ℕ) : rise e (m + n) = rise e m + rise (e + m) n := by
  induction n with
  | zero => simp [rise]
  | succ n ih => rw [← Nat.add_assoc, rise, ih, rise]; push_cast; rw [show e + ((m : ℝ) + n) = e + m + n by ring]; ring

theorem log2_ok {v t : ℝ} (hv : 0 < v) (ht : 0 < t) : log2 v t = .ok (Real.logb 2 t - Real.logb 2 v) := by
  rw [log2, if_neg (ne_of_gt ht), if_neg (not_le.mpr (div_pos hv ht)), Real.logb_div (ne_of_gt hv) (ne_of_gt ht), neg_sub]

theorem preqRun_ok (n : ℕ) (code eps total : ℝ) (he : 0 < eps) (ht : 0 < total) :
    preqRun n code eps total = .ok (code + rise total n - rise eps n, total + n) := by
  induction n generalizing code eps total with
  | zero => simp [preqRun, rise]
  | succ n ih =>
    rw [preqRun, log2_ok he ht]
    change preqRun n _ _ _ = _
    rw [ih _ _ _ (by linarith) (by linarith), rise_shift, rise_shift]
    push_cast
    refine congrArg _ (Prod.ext ?_ ?_) <;> simp only <;> ring

theorem preqSeq_ok (eps : ℝ) (he : 0 < eps) (l : List ℕ) (code total : ℝ) (ht : 0 < total ∨ l = []) :
    preqSeq eps l code total = .ok (code + rise total l.sum - (l.map (rise eps)).sum) := by
  induction l generalizing code total with
  | nil => simp [preqSeq, rise]
  | cons v t ih =>
    have ht' : 0 < total := ht.resolve_right (by simp)
    rw [preqSeq, preqRun_ok _ _ _ _ he ht']
    change preqSeq eps t _ _ = _
    rw [ih _ _ (Or.inl (by positivity)), List.sum_cons, List.map_cons, List.sum_cons, rise_add]
    congr 1; ring

theorem prequential_ok (l : List ℕ) (eps : ℝ) (he : 0 < eps) : prequential l eps = .ok (rise (l.length * eps) l.sum - (l.map (rise eps)).sum) := by
  rw [prequential, preqSeq_ok eps he, zero_add]
  cases l with
  | nil => exact Or.inr rfl
  | cons a t => left; simp only [List.length_cons]; push_cast; positivity

section
variable {α : Type} [DecidableEq α]

theorem sum_count (A : List α) (hA : A.Nodup) (w : List α) (hw : ∀ a ∈ w, a ∈ A) : (A.map (fun a => w.count a)).sum = w.length := by
  induction w with
  | nil => simp
  | cons b t ih =>
    have h1 : (A.map (fun a => (b :: t).count a)) = A.map (fun a => t.count a + if a = b then 1 else 0) := by
      refine List.map_congr_left (fun a _ => ?_)
      rw [List.count_cons]
      by_cases h : a = b
      · simp [h]
      · simp [h, Ne.symm h]
    rw [h1, List.sum_map_add, ih (fun a ha => hw a (List.mem_cons_of_mem _ ha)), List.length_cons]
    congr 1
    have h2 : (A.map (fun a => if a = b then 1 else 0)).sum = A.count b := by
      clear h1 ih hw hA
      induction A with
      | nil => rfl
      | cons c A ih => rw [List.map_cons, List.sum_cons, ih, List.count_cons]; by_cases h : c = b <;> simp [h, Nat.add_comm]
    rw [h2, List.count_eq_one_of_mem hA (hw b (List.mem_cons_self ..))]

theorem sum_rise (A : List α) (hA : A.Nodup) (eps : ℝ) (seen : List α) (b : α) (hb : b ∈ A) :
    (A.map (fun a => rise eps ((seen ++ [b]).count a))).sum = (A.map (fun a => rise eps (seen.count a))).sum + Real.logb 2 (eps + seen.count b) := by
  induction A with
  | nil => simp at hb
  | cons c A ih =>
    rw [List.map_cons, List.sum_cons, List.map_cons, List.sum_cons]
    have hc := List.nodup_cons.mp hA
    rcases List.mem_cons.mp hb with e | h
    · subst e
      have h1 : (A.map (fun a => rise eps ((seen ++ [b]).count a))) = A.map (fun a => rise eps (seen.count a)) := by
        refine List.map_congr_left (fun a ha => ?_)
        have : b ≠ a := fun e => hc.1 (e ▸ ha)
        rw [List.count_append, List.count_singleton, beq_false_of_ne this]; simp
      rw [h1, List.count_append, List.count_singleton, beq_self_eq_true, if_pos rfl, rise]; ring
    · have : b ≠ c := fun e => hc.1 (e ▸ h)
      rw [ih hc.2 h, List.count_append, List.count_singleton, beq_false_of_ne this]; simp; ring

theorem plugIn_ok (A : List α) (hA : A.Nodup) (eps : ℝ) (he : 0 < eps) (w : List α) (hw : ∀ a ∈ w, a ∈ A) (seen : List α) :
    plugIn A eps seen w = rise (A.length * eps) (seen ++ w).length - rise (A.length * eps) seen.length -
      ((A.map (fun a => rise eps ((seen ++ w).count a))).sum - (A.map (fun a => rise eps (seen.count a))).sum) := by
  induction w generalizing seen with
  | nil => simp [plugIn]
  | cons b t ih =>
    have hb : b ∈ A := hw b (List.mem_cons_self ..)
    have hpos : 0 < (A.length : ℝ) := by exact_mod_cast List.length_pos_of_mem hb
    rw [plugIn, ih (fun a ha => hw a (List.mem_cons_of_mem _ ha)), sum_rise A hA eps seen b hb, List.append_assoc, List.singleton_append,
      List.length_append (as := seen) (bs := [b]), List.length_singleton, rise, Real.logb_div (by positivity) (by positivity)]
    rw [add_comm (seen.length : ℝ), add_comm (seen.count b : ℝ)]
    ring

/-- C84. The length computed from the counts is the length of the adaptive code of any sequence with these counts: whatever the order of the symbols, each is coded with the frequencies seen so far. -/
theorem prequential_is_adaptive (A : List α) (hA : A.Nodup) (eps : ℝ) (he : 0 < eps) (w : List α) (hw : ∀ a ∈ w, a ∈ A) :
    prequential (A.map (fun a => w.count a)) eps = .ok (plugIn A eps [] w) := by
  rw [prequential_ok _ _ he, plugIn_ok A hA eps he w hw [], sum_count A hA w hw, List.length_map, List.map_map]
  congr 1
  simp [rise, Function.comp_def]

/-- C84. The order of the counts does not matter. -/
theorem prequential_perm (l l' : List ℕ) (h : l.Perm l') (eps : ℝ) (he : 0 < eps) : prequential l eps = prequential l' eps := by
  rw [prequential_ok _ _ he, prequential_ok _ _ he, h.length_eq, h.sum_eq, (h.map _).sum_eq]

/-- The words of a length over the symbols. -/
def words (A : List α) : ℕ → List (List α)
  | 0 => [[]]
  | n + 1 => A.flatMap (fun a => (words A n).map (a :: ·))

theorem mem_words (A : List α) (n : ℕ) (w : List α) : w ∈ words A n ↔ w.length = n ∧ ∀ a ∈ w, a ∈ A := by
  induction n generalizing w with
  | zero => rw [words, List.mem_singleton, List.length_eq_zero_iff]; exact ⟨fun h => ⟨h, by simp [h]⟩, fun h => h.1⟩
  | succ n ih =>
    rw [words, List.mem_flatMap]
    constructor
    · rintro ⟨a, ha, hw⟩
      obtain ⟨v, hv, rfl⟩ := List.mem_map.mp hw
      obtain ⟨h1, h2⟩ := (ih v).mp hv
      exact ⟨by simp [h1], fun b hb => (List.mem_cons.mp hb).elim (fun e => e ▸ ha) (h2 b)⟩
    · rintro ⟨h1, h2⟩
      cases w with
      | nil => simp at h1
      | cons a v => exact ⟨a, h2 a (List.mem_cons_self ..), List.mem_map.mpr ⟨v, (ih v).mpr ⟨by simpa using h1, fun b hb => h2 b (List.mem_cons_of_mem _ hb)⟩, rfl⟩⟩

theorem words_nodup (A : List α) (hA : A.Nodup) (n : ℕ) : (words A n).Nodup := by
  induction n with
  | zero => simp [words]
  | succ n ih =>
    rw [words, List.nodup_flatMap]
    refine ⟨fun a _ => ih.map (fun x y h => (List.cons.inj h).2), hA.imp ?_⟩
    intro a b hab w h1 h2
    obtain ⟨v, _, rfl⟩ := List.mem_map.mp h1
    obtain ⟨u, _, h⟩ := List.mem_map.mp h2
    exact hab (List.cons.inj h).1.symm

theorem sum_words (A : List α) (hA : A.Nodup) (hne : A ≠ []) (eps : ℝ) (he : 0 < eps) (n : ℕ) (seen : List α) (hs : ∀ a ∈ seen, a ∈ A) :
    ((words A n).map (fun w => (2 : ℝ) ^ (-plugIn A eps seen w))).sum = 1 := by
  have hpos : 0 < (A.length : ℝ) := by exact_mod_cast List.length_pos_of_ne_nil hne
  induction n generalizing seen with
  | zero => simp [words, plugIn]
  | succ n ih =>
    rw [words, List.map_flatMap, List.flatMap_def, List.sum_flatten, List.map_map]
    have h1 : (A.map (fun a => (((words A n).map (a :: ·)).map (fun w => (2 : ℝ) ^ (-plugIn A eps seen w))).sum)) =
        A.map (fun a => ((seen.count a : ℝ) + eps) / (seen.length + A.length * eps)) := by
      refine List.map_congr_left (fun a ha => ?_)
      have hq : 0 < ((seen.count a : ℝ) + eps) / (seen.length + A.length * eps) := by positivity
      rw [List.map_map]
      have h2 : ((fun w => (2 : ℝ) ^ (-plugIn A eps seen w)) ∘ (a :: ·)) =
          fun w => ((seen.count a : ℝ) + eps) / (seen.length + A.length * eps) * (2 : ℝ) ^ (-plugIn A eps (seen ++ [a]) w) := by
        funext w
        simp only [Function.comp, plugIn]
        rw [neg_add, neg_neg, Real.rpow_add (by norm_num), Real.rpow_logb (by norm_num) (by norm_num) hq]
      rw [h2, List.sum_map_mul_left, ih _ (fun b hb => (List.mem_append.mp hb).elim (hs b) (fun h => by rw [List.mem_singleton.mp h]; exact ha)), mul_one]
    rw [show (List.sum ∘ fun a => ((words A n).map (a :: ·)).map (fun w => (2 : ℝ) ^ (-plugIn A eps seen w))) = fun a => (((words A n).map (a :: ·)).map (fun w => (2 : ℝ) ^ (-plugIn A eps seen w))).sum from rfl, h1]
    have h3 : (A.map (fun a => ((seen.count a : ℝ) + eps) / (seen.length + A.length * eps))).sum =
        (A.map (fun a => ((seen.count a : ℝ) + eps))).sum / (seen.length + A.length * eps) := by
      simp only [div_eq_mul_inv]; rw [List.sum_map_mul_right]
    have h4 : (A.map (fun a => ((seen.count a : ℝ) + eps))).sum = seen.length + A.length * eps := by
      rw [List.sum_map_add, List.map_const', List.sum_replicate, nsmul_eq_mul]
      congr 1
      rw [← sum_count A hA seen hs]
      push_cast [Nat.cast_list_sum]
      rw [List.map_map]; rfl
    rw [h3, h4, div_self (by positivity)]

/-- C84. The lengths are those of a code that wastes nothing: over all the sequences of a given length, the weights `2 ^ -length` sum to one. -/
theorem prequential_kraft (A : List α) (hA : A.Nodup) (hne : A ≠ []) (eps : ℝ) (he : 0 < eps) (n : ℕ) (W : List (List α)) (hW : W.Nodup)
    (hall : ∀ w, w ∈ W ↔ w.length = n ∧ ∀ a ∈ w, a ∈ A) (len : List α → ℝ) (hlen : ∀ w ∈ W, prequential (A.map (fun a => w.count a)) eps = .ok (len w)) :
    (W.map (fun w => (2 : ℝ) ^ (-len w))).sum = 1 := by
  have hperm : W.Perm (words A n) := (List.perm_ext_iff_of_nodup hW (words_nodup A hA n)).mpr (fun w => (hall w).trans (mem_words A n w).symm)
  have h1 : W.map (fun w => (2 : ℝ) ^ (-len w)) = W.map (fun w => (2 : ℝ) ^ (-plugIn A eps [] w)) := by
    refine List.map_congr_left (fun w hw => ?_)
    have := hlen w hw
    rw [prequential_is_adaptive A hA eps he w ((hall w).mp hw).2] at this
    rw [Except.ok.inj this]
  rw [h1, (hperm.map _).sum_eq, sum_words A hA hne eps he n [] (by simp)]

theorem plugIn_nonneg (A : List α) (eps : ℝ) (he : 0 < eps) (w : List α) (hw : ∀ a ∈ w, a ∈ A) (seen : List α) (hs : ∀ a ∈ seen, a ∈ A) : 0 ≤ plugIn A eps seen w := by
  induction w generalizing seen with
  | nil => simp [plugIn]
  | cons b t ih =>
    have hb : b ∈ A := hw b (List.mem_cons_self ..)
    have hpos : 1 ≤ (A.length : ℝ) := by exact_mod_cast List.length_pos_of_mem hb
    rw [plugIn]
    refine add_nonneg ?_ (ih (fun a ha => hw a (List.mem_cons_of_mem _ ha)) _ (fun a ha => (List.mem_append.mp ha).elim (hs a) (fun h => by rw [List.mem_singleton.mp h]; exact hb)))
    rw [neg_nonneg]
    refine Real.logb_nonpos (by norm_num) (by positivity) ((div_le_one (by positivity)).mpr ?_)
    have : (seen.count b : ℝ) ≤ seen.length := by exact_mod_cast List.count_le_length
    nlinarith

/-- C84. The length is never negative, and a sequence with one symbol only costs nothing. -/
theorem prequential_nonneg (l : List ℕ) (eps : ℝ) (he : 0 < eps) : ∃ x, prequential l eps = .ok x ∧ 0 ≤ x ∧ (l.length ≤ 1 → x = 0) := by
  refine ⟨_, prequential_ok l eps he, ?_, ?_⟩
  · have key : ∀ (l : List ℕ) (tot : ℝ), 0 < tot → (l ≠ [] → eps ≤ tot) → (l.map (rise eps)).sum ≤ rise tot l.sum := by
      have mono : ∀ (n : ℕ) (a b : ℝ), 0 < a → a ≤ b → rise a n ≤ rise b n := by
        intro n a b ha hab
        induction n with
        | zero => simp [rise]
        | succ n ih => rw [rise, rise]; exact add_le_add ih (Real.logb_le_logb_of_le (by norm_num) (by positivity) (by linarith))
      intro l
      induction l with
      | nil => intro tot _ _; simp [rise]
      | cons v t ih =>
        intro tot h0 h1
        rw [List.map_cons, List.sum_cons, List.sum_cons, rise_add]
        exact add_le_add (mono v eps tot he (h1 (by simp))) (ih (tot + v) (by positivity) (fun _ => le_trans (h1 (by simp)) (by linarith [Nat.cast_nonneg (α := ℝ) v])))
    cases l with
    | nil => simp [rise]
    | cons a t =>
      refine sub_nonneg.mpr (key _ _ (by simp only [List.length_cons]; push_cast; positivity) (fun _ => ?_))
      simp only [List.length_cons]; push_cast
      nlinarith [Nat.cast_nonneg (α := ℝ) t.length]
  · intro h
    match l, h with
    | [], _ => simp [rise]
    | [a], _ => simp

end

/-- Two symbols, three times the first and once the second: the length of the adaptive code of `0 1 0 0`, and of any other order. -/
example : prequential [3, 1] (1 / 2) = .ok (plugIn [(0 : ℕ), 1] (1 / 2) [] [0, 1, 0, 0]) ∧ prequential [3, 1] (1 / 2) = .ok (plugIn [(0 : ℕ), 1] (1 / 2) [] [0, 0, 0, 1]) :=
  ⟨by simpa using prequential_is_adaptive [(0 : ℕ), 1] (by decide) (1 / 2) (by norm_num) [0, 1, 0, 0] (by decide),
    by simpa using prequential_is_adaptive [(0 : ℕ), 1] (by decide) (1 / 2) (by norm_num) [0, 0, 0, 1] (by decide)⟩

end Verif.Graph
