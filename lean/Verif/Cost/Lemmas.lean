import Verif.Cost.Spec
import Verif.PTree.Corr
import Verif.PTree.Local
import Mathlib.Tactic.Ring
import Mathlib.Tactic.Linarith
import Mathlib.Tactic.Positivity
import Mathlib.Tactic.NormNum

set_option autoImplicit false
set_option linter.unusedSectionVars false

namespace Verif.Cost

open Verif.PTree

variable {α : Type} [DecidableEq α]

theorem log2_some {n : ℤ} (h : 0 < n) : log2 (n : ℝ) = some (Real.logb 2 (n : ℝ)) := by
  rw [log2, if_pos (by exact_mod_cast h)]

theorem log2_nat {n : ℕ} (h : 0 < n) : log2 (n : ℝ) = some (Real.logb 2 (n : ℝ)) := by
  rw [log2, if_pos (by exact_mod_cast h)]

theorem bits_append (a b : List Field) : bits (a ++ b) = bits a + bits b := by simp [bits]

theorem bits_cons (a : Field) (b : List Field) : bits (a :: b) = Real.logb 2 (a.2 : ℝ) + bits b := by simp [bits]

theorem bits_nil : bits [] = 0 := by simp [bits]

/-! ### Durations -/

mutual
/-- Largest time of a tree. -/
def durT : PTree.Tree α → ℤ
  | .leaf _ => 0
  | .node r p ch => ((r : ℤ) - 1) * p + durF ch
/-- Largest time under successive children. -/
def durF : Forest α → ℤ
  | .nil => 0
  | .cons d t rest => d + max (durT t) (durF rest)
end

mutual
theorem durT_nonneg : ∀ t : PTree.Tree α, Proper t → 0 ≤ durT t
  | .leaf _, _ => by simp [durT]
  | .node r p ch, h => by
    simp only [Proper] at h
    simp only [durT]
    have := durF_nonneg ch h.2.2
    have : 0 ≤ ((r : ℤ) - 1) * p := mul_nonneg (by omega) (by omega)
    omega
theorem durF_nonneg : ∀ ch : Forest α, ProperF ch → 0 ≤ durF ch
  | .nil, _ => by simp [durF]
  | .cons d t rest, h => by
    simp only [ProperF] at h
    simp only [durF]
    have := durT_nonneg t h.2.1
    omega
end

theorem fieldsD_ok : ∀ (ch : Forest α) (room : ℤ), ProperF ch → durF ch ≤ room →
    (∀ f ∈ fieldsD ch room, Fits f) ∧ bits (fieldsD ch room) = (ch.len : ℝ) * Real.logb 2 ((room + 1 : ℤ) : ℝ)
  | .nil, room, _, _ => by simp [fieldsD, bits, Forest.len]
  | .cons d t rest, room, h, hd => by
    simp only [ProperF] at h
    simp only [durF] at hd
    have h1 := durT_nonneg t h.2.1
    have h2 := durF_nonneg rest h.2.2
    obtain ⟨h3, h4⟩ := fieldsD_ok rest room h.2.2 (by omega)
    refine ⟨fun f hf => ?_, ?_⟩
    · simp only [fieldsD, List.mem_cons] at hf
      rcases hf with rfl | hf
      · exact ⟨h.1, by simp only []; omega⟩
      · exact h3 f hf
    · rw [fieldsD, bits_cons, h4, Forest.len]; push_cast; ring

mutual
/-- Inner periods and distances: the cost is that of the fields, which fit. -/
theorem pds_ok : ∀ (t : PTree.Tree α) (room : ℤ), Proper t → t.Regular → durT t ≤ room →
    codeLengthPDs t room = some (bits (fieldsP t room)) ∧ ∀ f ∈ fieldsP t room, Fits f
  | .leaf _, room, _, _, _ => by simp [codeLengthPDs, fieldsP, bits]
  | .node r p ch, room, h, hr, hd => by
    simp only [Proper] at h
    simp only [Tree.Regular] at hr
    simp only [durT] at hd
    obtain ⟨h1, h2, h3⟩ := h
    have hn := durF_nonneg ch h3
    have e1 : (1 : ℤ) ≤ (r : ℤ) - 1 := by omega
    have e2 : ((r : ℤ) - 1) * 1 ≤ ((r : ℤ) - 1) * p := mul_le_mul_of_nonneg_left h2 (by omega)
    have e3 : p ≤ room / ((r : ℤ) - 1) := by
      rw [Int.le_ediv_iff_mul_le (by omega)]; nlinarith
    obtain ⟨a, b⟩ := pdsF_ok ch (room - ((r : ℤ) - 1)) h3 hr.2.2.2 hr.2.2.1 (by omega)
    refine ⟨?_, fun f hf => ?_⟩
    · rw [codeLengthPDs, if_neg (by omega), if_neg (by omega), if_neg (by nlinarith), log2_some (by omega), fieldsP, bits_cons]
      have : room - (r : ℤ) + 1 = room - ((r : ℤ) - 1) := by ring
      rw [this, a]
      rfl
    · simp only [fieldsP, List.mem_cons] at hf
      rcases hf with rfl | hf
      · exact ⟨by simp only []; omega, by simp only []; omega⟩
      · exact b f hf
theorem pdsF_ok : ∀ (ch : Forest α) (room : ℤ), ProperF ch → ch.Regular → ch.firstDist = 0 → durF ch ≤ room →
    codeLengthPDsF ch room = some (bits (fieldsPF ch room)) ∧ ∀ f ∈ fieldsPF ch room, Fits f
  | .nil, room, _, _, _, _ => by simp [codeLengthPDsF, fieldsPF, bits]
  | .cons d t rest, room, h, hr, h0, hd => by
    simp only [ProperF] at h
    simp only [Forest.Regular] at hr
    simp only [durF] at hd
    simp only [Forest.firstDist] at h0
    subst h0
    have h1 := durT_nonneg t h.2.1
    have h2 := durF_nonneg rest h.2.2
    obtain ⟨a1, b1⟩ := pds_ok t room h.2.1 hr.1 (by omega)
    obtain ⟨a2, b2⟩ := pdsL_ok rest room h.2.2 hr.2 (by omega)
    obtain ⟨b3, a3⟩ := fieldsD_ok rest room h.2.2 (by omega)
    refine ⟨?_, fun f hf => ?_⟩
    · rw [codeLengthPDsF, fieldsPF, bits_append, bits_append, a1, a2]
      split
      · rw [log2_some (by omega), a3]; rfl
      · next hl =>
        cases rest with
        | nil => simp [fieldsD, fieldsPL, bits]
        | cons d' t' rest' => exact absurd (by simp [Forest.len]) hl
    · simp only [fieldsPF, List.mem_append] at hf
      rcases hf with (hf | hf) | hf
      · exact b3 f hf
      · exact b1 f hf
      · exact b2 f hf
theorem pdsL_ok : ∀ (ch : Forest α) (room : ℤ), ProperF ch → ch.Regular → durF ch ≤ room →
    codeLengthPDsL ch room = some (bits (fieldsPL ch room)) ∧ ∀ f ∈ fieldsPL ch room, Fits f
  | .nil, room, _, _, _ => by simp [codeLengthPDsL, fieldsPL, bits]
  | .cons d t rest, room, h, hr, hd => by
    simp only [ProperF] at h
    simp only [Forest.Regular] at hr
    simp only [durF] at hd
    have h1 := durT_nonneg t h.2.1
    have h2 := durF_nonneg rest h.2.2
    obtain ⟨a1, b1⟩ := pds_ok t (room - d) h.2.1 hr.1 (by omega)
    obtain ⟨a2, b2⟩ := pdsL_ok rest (room - d) h.2.2 hr.2 (by omega)
    refine ⟨?_, fun f hf => ?_⟩
    · rw [codeLengthPDsL, fieldsPL, bits_append, a1, a2]; rfl
    · simp only [fieldsPL, List.mem_append] at hf
      rcases hf with hf | hf
      · exact b1 f hf
      · exact b2 f hf
end

/-! ### The largest time generated -/

mutual
theorem dur_bound : ∀ (t : PTree.Tree α) (time : ℤ), Proper t → ∀ x ∈ gen t time, time ≤ x.1 ∧ x.1 ≤ time + durT t
  | .leaf a, time, _, x, hx => by
    simp only [gen, List.mem_singleton] at hx; subst hx; simp [durT]
  | .node r p ch, time, h, x, hx => by
    simp only [Proper] at h
    simp only [gen, List.mem_flatMap, List.mem_range] at hx
    obtain ⟨i, hi, hx⟩ := hx
    obtain ⟨h1, h2⟩ := durF_bound ch _ h.2.2 x hx
    simp only [durT]
    have e1 : (i : ℤ) * p ≤ ((r : ℤ) - 1) * p := mul_le_mul_of_nonneg_right (by omega) (by omega)
    have e2 : 0 ≤ (i : ℤ) * p := mul_nonneg (by omega) (by omega)
    constructor <;> omega
theorem durF_bound : ∀ (ch : Forest α) (time : ℤ), ProperF ch → ∀ x ∈ genF ch time, time ≤ x.1 ∧ x.1 ≤ time + durF ch
  | .nil, time, _, x, hx => by simp [genF] at hx
  | .cons d t rest, time, h, x, hx => by
    simp only [ProperF] at h
    simp only [genF, List.mem_append] at hx
    simp only [durF]
    rcases hx with hx | hx
    · have := dur_bound t _ h.2.1 x hx
      omega
    · have := durF_bound rest _ h.2.2 x hx
      omega
end

theorem durT_mem (t : PTree.Tree α) : t.Regular → Proper t → ∀ time : ℤ, ∃ x ∈ gen t time, x.1 = time + durT t := by
  have key : ∀ n : ℕ, (∀ t : PTree.Tree α, sizeOf t ≤ n → t.Regular → Proper t → ∀ time : ℤ, ∃ x ∈ gen t time, x.1 = time + durT t) ∧
      (∀ ch : Forest α, sizeOf ch ≤ n → ch.NonEmpty → ch.Regular → ProperF ch → ∀ time : ℤ, ∃ x ∈ genF ch time, x.1 = time + durF ch) := by
    intro n
    induction n with
    | zero =>
      refine ⟨fun t ht => ?_, fun ch hc => ?_⟩
      · cases t <;> simp at ht
      · cases ch <;> simp at hc
    | succ n ih =>
      refine ⟨fun t ht hr hp time => ?_, fun ch hc hn hr hp time => ?_⟩
      · cases t with
        | leaf a => exact ⟨(time, a), by simp [gen], by simp [durT]⟩
        | node r p ch =>
          simp only [Tree.Regular] at hr
          simp only [Proper] at hp
          simp at ht
          obtain ⟨x, hx, e⟩ := ih.2 ch (by omega) hr.2.1 hr.2.2.2 hp.2.2 (time + ((r - 1 : ℕ) : ℤ) * p)
          refine ⟨x, ?_, ?_⟩
          · simp only [gen, List.mem_flatMap, List.mem_range]; exact ⟨r - 1, by omega, hx⟩
          · rw [e, durT]; push_cast [Nat.cast_sub hr.1]; ring
      · cases ch with
        | nil => simp [Forest.NonEmpty] at hn
        | cons d t rest =>
          simp only [Forest.Regular] at hr
          simp only [ProperF] at hp
          simp at hc
          obtain ⟨x, hx, e⟩ := ih.1 t (by omega) hr.1 hp.2.1 (time + d)
          have ht := durT_nonneg t hp.2.1
          by_cases hrest : rest.NonEmpty
          · obtain ⟨y, hy, e'⟩ := ih.2 rest (by omega) hrest hr.2 hp.2.2 (time + d)
            by_cases hm : durT t ≤ durF rest
            · refine ⟨y, ?_, ?_⟩
              · simp only [genF, List.mem_append]; exact Or.inr hy
              · rw [e', durF]; omega
            · refine ⟨x, ?_, ?_⟩
              · simp only [genF, List.mem_append]; exact Or.inl hx
              · rw [e, durF]; omega
          · have : durF rest = 0 := by cases rest with
              | nil => rfl
              | cons => simp [Forest.NonEmpty] at hrest
            refine ⟨x, ?_, ?_⟩
            · simp only [genF, List.mem_append]; exact Or.inl hx
            · rw [e, durF]; omega
  intro hr hp time
  exact (key (sizeOf t)).1 t le_rfl hr hp time

theorem durF_mem (ch : Forest α) (hn : ch.NonEmpty) (hr : ch.Regular) (h0 : ch.firstDist = 0) (hp : ProperF ch) (time : ℤ) : ∃ x ∈ genF ch time, x.1 = time + durF ch := by
  obtain ⟨x, hx, e⟩ := durT_mem (.node 2 1 ch) (by simp [Tree.Regular, hn, hr, h0]) (by simp [Proper, hp]) (time - 1)
  simp only [gen, List.mem_flatMap, List.mem_range] at hx
  obtain ⟨i, hi, hx⟩ := hx
  simp only [durT] at e
  have hb := durF_bound ch _ hp x hx
  have : i = 1 := by
    rcases Nat.lt_or_ge i 1 with h | h
    · have : i = 0 := by omega
      subst this
      push_cast at hb e
      omega
    · omega
  subst this
  refine ⟨x, ?_, ?_⟩
  · simpa using hx
  · rw [e]; push_cast; ring

theorem max?_eq {l : List ℤ} {m : ℤ} (hm : m ∈ l) (hle : ∀ x ∈ l, x ≤ m) : l.max? = some m := by
  rw [List.max?_eq_some_iff]; exact ⟨hm, hle⟩

theorem min?_eq {l : List ℤ} {m : ℤ} (hm : m ∈ l) (hle : ∀ x ∈ l, m ≤ x) : l.min? = some m := by
  rw [List.min?_eq_some_iff]; exact ⟨hm, hle⟩

theorem span_eq (ch : Forest α) (hn : ch.NonEmpty) (hr : ch.Regular) (h0 : ch.firstDist = 0) (hp : ProperF ch) : span ch = durF ch := by
  obtain ⟨x, hx, e⟩ := durF_mem ch hn hr h0 hp 0
  have : ((genF ch 0).map Prod.fst).max? = some (durF ch) := by
    apply max?_eq
    · exact List.mem_map.2 ⟨x, hx, by rw [e]; ring⟩
    · intro y hy
      obtain ⟨z, hz, rfl⟩ := List.mem_map.1 hy
      have := durF_bound ch 0 hp z hz
      omega
  rw [span, this]; rfl

theorem npMaxZ_eq (l : List ℤ) : npMaxZ l = l.max? := by
  cases l with
  | nil => rfl
  | cons a l => rfl

theorem npMinZ_eq (l : List ℤ) : npMinZ l = l.min? := by
  cases l with
  | nil => rfl
  | cons a l => rfl

theorem npMin_eq (l : List ℕ) : npMin l = l.min? := by
  cases l with
  | nil => rfl
  | cons a l => rfl

end Verif.Cost
