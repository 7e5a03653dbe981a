import Mathlib.Algebra.BigOperators.Group.Finset.Basic
import Mathlib.Algebra.BigOperators.Ring.Finset
import Mathlib.Algebra.Order.BigOperators.Group.Finset
import Mathlib.Algebra.Order.BigOperators.Ring.Finset
import Mathlib.Algebra.BigOperators.Group.List.Basic
import Mathlib.Order.Interval.Finset.Basic
import Mathlib.Data.Int.Interval
import Verif.Cost.Events

/-! # Sum over the words of a code in which each symbol is coded knowing the previous ones -/

set_option autoImplicit false
set_option linter.unusedSectionVars false

namespace Verif.Cost

/-- Two words first differ by the value of a symbol, which is of the same kind in both. -/
def Sep {K V : Type} : List (K × V) → List (K × V) → Prop
  | a :: l, b :: l' => a.1 = b.1 ∧ (a.2 ≠ b.2 ∨ Sep l l')
  | _, _ => False

section
variable {K V : Type}

theorem sep_append : ∀ (x x' y y' : List (K × V)), Sep x x' → Sep (x ++ y) (x' ++ y')
  | [], _, _, _, h => by simp [Sep] at h
  | _ :: _, [], _, _, h => by simp [Sep] at h
  | a :: l, b :: l', y, y', h => by
    simp only [Sep, List.cons_append] at h ⊢
    exact ⟨h.1, h.2.imp id (sep_append l l' y y')⟩

theorem sep_pre : ∀ (x y y' : List (K × V)), Sep y y' → Sep (x ++ y) (x ++ y')
  | [], _, _, h => h
  | _ :: l, y, y', h => ⟨rfl, Or.inr (sep_pre l y y' h)⟩

theorem kraft [DecidableEq V] {ι : Type} (w : K → V → ℝ) (h0 : ∀ k v, 0 ≤ w k v) (h1 : ∀ k (s : Finset V), ∑ v ∈ s, w k v ≤ 1) :
    ∀ (n : ℕ) (Z : Finset ι) (enc : ι → List (K × V)), (∀ i ∈ Z, (enc i).length ≤ n) → (∀ i ∈ Z, ∀ j ∈ Z, i ≠ j → Sep (enc i) (enc j)) →
      ∑ i ∈ Z, ((enc i).map (fun a => w a.1 a.2)).prod ≤ 1 := by
  classical
  intro n
  induction n with
  | zero =>
    intro Z enc hl hs
    rcases Z.eq_empty_or_nonempty with rfl | ⟨i, hi⟩
    · simp
    · have : Z = {i} := by
        refine Finset.eq_singleton_iff_unique_mem.2 ⟨hi, fun j hj => ?_⟩
        by_contra hne
        have := hs j hj i hi hne
        rw [List.length_eq_zero_iff.1 (Nat.le_zero.1 (hl i hi)), List.length_eq_zero_iff.1 (Nat.le_zero.1 (hl j hj))] at this
        simp [Sep] at this
      rw [this, Finset.sum_singleton, List.length_eq_zero_iff.1 (Nat.le_zero.1 (hl i hi))]
      simp
  | succ n ih =>
    intro Z enc hl hs
    by_cases he : ∃ i ∈ Z, enc i = []
    · obtain ⟨i, hi, e⟩ := he
      have : Z = {i} := by
        refine Finset.eq_singleton_iff_unique_mem.2 ⟨hi, fun j hj => ?_⟩
        by_contra hne
        have := hs i hi j hj (Ne.symm hne)
        rw [e] at this
        simp [Sep] at this
      rw [this, Finset.sum_singleton, e]
      simp
    · push Not at he
      rcases Z.eq_empty_or_nonempty with rfl | ⟨i0, hi0⟩
      · simp
      · obtain ⟨⟨k, v0⟩, l0, e0⟩ := List.exists_cons_of_ne_nil (he i0 hi0)
        have hd : ∀ i ∈ Z, ∃ v l, enc i = (k, v) :: l := by
          intro i hi
          by_cases hii : i = i0
          · exact ⟨v0, l0, hii ▸ e0⟩
          · obtain ⟨⟨k', v⟩, l, e⟩ := List.exists_cons_of_ne_nil (he i hi)
            have := hs i hi i0 hi0 hii
            rw [e, e0] at this
            exact ⟨v, l, by rw [e]; rw [show k' = k from this.1]⟩
        obtain ⟨hv, hve⟩ : ∃ hv : ι → V, ∀ i, hv i = ((enc i).head?.map Prod.snd).getD v0 := ⟨_, fun _ => rfl⟩
        have hsplit : ∀ i ∈ Z, enc i = (k, hv i) :: (enc i).tail := by
          intro i hi
          obtain ⟨v, l, e⟩ := hd i hi
          rw [hve, e]; rfl
        rw [← Finset.sum_fiberwise_of_maps_to (g := hv) (t := Z.image hv) (fun i hi => Finset.mem_image_of_mem _ hi)]
        refine le_trans (Finset.sum_le_sum (fun v _ => ?_)) (h1 k (Z.image hv))
        have e1 : ∑ i ∈ Z with hv i = v, ((enc i).map (fun a => w a.1 a.2)).prod = w k v * ∑ i ∈ Z with hv i = v, ((enc i).tail.map (fun a => w a.1 a.2)).prod := by
          rw [Finset.mul_sum]
          refine Finset.sum_congr rfl (fun i hi => ?_)
          rw [Finset.mem_filter] at hi
          conv_lhs => rw [hsplit i hi.1]
          rw [List.map_cons, List.prod_cons, hi.2]
        rw [e1]
        have := ih (Z.filter (fun i => hv i = v)) (fun i => (enc i).tail) (fun i hi => by
            have := hl i (Finset.mem_filter.1 hi).1
            rw [List.length_tail]; omega) (fun i hi j hj hne => by
            rw [Finset.mem_filter] at hi hj
            have := hs i hi.1 j hj.1 hne
            rw [hsplit i hi.1, hsplit j hj.1] at this
            rcases this.2 with h | h
            · exact absurd (hi.2.trans hj.2.symm) h
            · exact h)
        calc w k v * _ ≤ w k v * 1 := mul_le_mul_of_nonneg_left this (h0 k v)
          _ = w k v := mul_one _

end

/-! ### The symbols -/

/-- An opening bracket, a closing bracket, or an event. -/
inductive Tok (α : Type)
  | op
  | cl
  | ev (a : α)
  deriving DecidableEq

/-- The kind of a symbol: a token of the tree, a number among `n` values, a correction. -/
inductive Kind
  | tok
  | unif (n : ℤ)
  | cor

/-- The value of a symbol. -/
abbrev Val (α : Type) := Tok α ⊕ ℤ

variable {α : Type} [DecidableEq α]

/-- The probability given to a symbol. -/
noncomputable def weight (S : List (ℤ × α)) : Kind → Val α → ℝ
  | .tok, .inl .op => 1 / 3
  | .tok, .inl .cl => 1 / 3
  | .tok, .inl (.ev a) => (countEv S a : ℝ) / (3 * (S.length : ℝ))
  | .unif n, .inr x => if 0 ≤ x ∧ x < n then 1 / (n : ℝ) else 0
  | .cor, .inr e => (2 : ℝ)⁻¹ ^ (2 + e.natAbs)
  | _, _ => 0

theorem weight_nonneg (S : List (ℤ × α)) (k : Kind) (v : Val α) : 0 ≤ weight S k v := by
  rcases k with _ | n | _ <;> rcases v with (_ | _ | a) | x <;> simp only [weight] <;> first | positivity | norm_num
  split
  · next h =>
    have : (0 : ℝ) ≤ (n : ℝ) := by exact_mod_cast (h.1.trans h.2.le)
    positivity
  · exact le_rfl

theorem cor_sum (N : ℕ) : ∑ e ∈ Finset.Icc (-(N : ℤ)) N, (2 : ℝ)⁻¹ ^ (2 + e.natAbs) = 3 / 4 - (2 : ℝ)⁻¹ ^ (N + 1) := by
  induction N with
  | zero => norm_num
  | succ N ih =>
    have e1 : Finset.Icc (-((N + 1 : ℕ) : ℤ)) ((N + 1 : ℕ) : ℤ) = insert (-((N : ℤ) + 1)) (insert ((N : ℤ) + 1) (Finset.Icc (-(N : ℤ)) N)) := by
      ext x
      simp only [Finset.mem_insert, Finset.mem_Icc]
      push_cast
      omega
    have n1 : (-((N : ℤ) + 1)).natAbs = N + 1 := by omega
    have n2 : ((N : ℤ) + 1).natAbs = N + 1 := by omega
    rw [e1, Finset.sum_insert (by simp only [Finset.mem_insert, Finset.mem_Icc]; omega), Finset.sum_insert (by simp only [Finset.mem_Icc]; omega), ih, n1, n2]
    rw [show 2 + (N + 1) = (N + 1) + 2 by omega, pow_add, pow_add _ (N + 1) 1]
    norm_num
    ring

theorem sum_le_of_ne {β : Type} [DecidableEq β] {f : β → ℝ} (h0 : ∀ x, 0 ≤ f x) {s t : Finset β} (h : ∀ x ∈ s, f x ≠ 0 → x ∈ t) : ∑ x ∈ s, f x ≤ ∑ x ∈ t, f x := by
  classical
  rw [← Finset.sum_filter_ne_zero]
  exact Finset.sum_le_sum_of_subset_of_nonneg (fun x hx => h x (Finset.mem_filter.1 hx).1 (Finset.mem_filter.1 hx).2) (fun x _ _ => h0 x)

theorem weight_sum (S : List (ℤ × α)) (k : Kind) (s : Finset (Val α)) : ∑ v ∈ s, weight S k v ≤ 1 := by
  rcases k with _ | n | _
  · refine le_trans (sum_le_of_ne (weight_nonneg S _) (t := insert (.inl .op) (insert (.inl .cl) ((S.map Prod.snd).toFinset.image (fun a => Sum.inl (Tok.ev a))))) ?_) ?_
    · intro v _ hv
      rcases v with (_ | _ | a) | x
      · simp
      · simp
      · simp only [Finset.mem_insert, Finset.mem_image, List.mem_toFinset]
        right; right
        refine ⟨a, ?_, rfl⟩
        by_contra h
        apply hv
        simp [weight, countEv, List.count_eq_zero_of_not_mem h]
      · simp [weight] at hv
    · rw [Finset.sum_insert (by simp), Finset.sum_insert (by simp), Finset.sum_image (by intro a _ b _ h; simpa using h)]
      simp only [weight]
      rw [← Finset.sum_div]
      have : ∑ a ∈ (S.map Prod.snd).toFinset, (countEv S a : ℝ) = (S.length : ℝ) := by
        rw [← Nat.cast_sum]
        congr 1
        simp only [countEv]
        rw [List.sum_toFinset_count_eq_length, List.length_map]
      rw [this]
      rcases Nat.eq_zero_or_pos S.length with h | h
      · rw [h]; norm_num
      · have : (S.length : ℝ) ≠ 0 := by exact_mod_cast h.ne'
        have h3 : (S.length : ℝ) / (3 * (S.length : ℝ)) = 1 / 3 := by field_simp
        rw [h3]; norm_num
  · refine le_trans (sum_le_of_ne (weight_nonneg S _) (t := (Finset.Ico 0 n).image (fun x => Sum.inr x)) ?_) ?_
    · intro v _ hv
      rcases v with (_ | _ | a) | x
      · simp [weight] at hv
      · simp [weight] at hv
      · simp [weight] at hv
      · simp only [weight, ne_eq, ite_eq_right_iff, not_forall] at hv
        obtain ⟨h, -⟩ := hv
        exact Finset.mem_image.2 ⟨x, Finset.mem_Ico.2 h, rfl⟩
    · rw [Finset.sum_image (by intro a _ b _ h; simpa using h)]
      rw [Finset.sum_congr rfl (g := fun _ => 1 / (n : ℝ)) (by
        intro x hx
        simp only [weight]
        rw [if_pos (Finset.mem_Ico.1 hx)])]
      rw [Finset.sum_const, Int.card_Ico, nsmul_eq_mul, sub_zero]
      rcases le_or_gt n 0 with h | h
      · rw [Int.toNat_of_nonpos h]; norm_num
      · have e : ((n.toNat : ℕ) : ℝ) = (n : ℝ) := by exact_mod_cast Int.toNat_of_nonneg h.le
        have hn : (n : ℝ) ≠ 0 := by exact_mod_cast h.ne'
        rw [e, mul_one_div, div_self hn]
  · obtain ⟨N, hN⟩ : ∃ N : ℕ, ∀ x : ℤ, (Sum.inr x : Val α) ∈ s → x.natAbs ≤ N := by
      refine ⟨s.sup (fun v => match v with | .inl _ => 0 | .inr x => x.natAbs), fun x hx => ?_⟩
      exact Finset.le_sup (f := fun v : Val α => match v with | .inl _ => 0 | .inr x => x.natAbs) hx
    refine le_trans (sum_le_of_ne (weight_nonneg S _) (t := (Finset.Icc (-(N : ℤ)) N).image (fun x => Sum.inr x)) ?_) ?_
    · intro v hvs hv
      rcases v with (_ | _ | a) | x
      · simp [weight] at hv
      · simp [weight] at hv
      · simp [weight] at hv
      · have := hN x hvs
        exact Finset.mem_image.2 ⟨x, Finset.mem_Icc.2 (by omega), rfl⟩
    · rw [Finset.sum_image (by intro a _ b _ h; simpa using h)]
      simp only [weight]
      rw [cor_sum]
      have : (0 : ℝ) ≤ (2 : ℝ)⁻¹ ^ (N + 1) := by positivity
      linarith

end Verif.Cost
