import Verif.Complex.Fact
import Verif.Concat.Shape
import Verif.PattKey.Props
import Verif.Kinds.Props
import Verif.Complex.Model

/-!
# Occurrences of combined candidates
-/

set_option autoImplicit false
set_option linter.unusedSectionVars false

namespace Verif.Complex

open Verif.PTree Verif.Concat Verif.PattKey

variable {α : Type}

theorem zip_flatMap {β γ δ : Type} (f : β → List γ) (g : β → List δ) : ∀ l : List β, (∀ x ∈ l, (f x).length = (g x).length) →
    (l.flatMap f).zip (l.flatMap g) = l.flatMap (fun x => (f x).zip (g x))
  | [], _ => rfl
  | x :: l, h => by
    rw [List.flatMap_cons, List.flatMap_cons, List.flatMap_cons, List.zip_append (h x List.mem_cons_self), zip_flatMap f g l (fun y hy => h y (List.mem_cons_of_mem _ hy))]

theorem chunks {β : Type} (n : ℕ) : ∀ (r : ℕ) (l : List β), l.length = r * n → (List.range r).flatMap (fun i => (l.drop (i * n)).take n) = l
  | 0, l, h => by
    rw [Nat.zero_mul] at h
    rw [List.eq_nil_of_length_eq_zero h]; rfl
  | r + 1, l, h => by
    rw [List.range_succ_eq_map, List.flatMap_cons, List.flatMap_map]
    have h' : (l.drop n).length = r * n := by rw [List.length_drop, h, Nat.succ_mul]; omega
    have := chunks n r (l.drop n) h'
    simp only [List.drop_drop] at this
    rw [Nat.zero_mul, List.drop_zero]
    conv_rhs => rw [← List.take_append_drop n l, ← this]
    congr 1
    apply List.flatMap_congr
    intro i _
    rw [Nat.succ_mul, Nat.add_comm]

theorem length_repEvents (c : Cand α) : c.repEvents.length = nbOccsF c.ch := by
  rw [Cand.repEvents, List.length_map, length_genF]

theorem occs_reps {c : Cand α} (h : Shape c) : c.O = (List.range c.r).flatMap c.rep := (chunks (nbOccsF c.ch) c.r c.O h.length).symm

theorem events_reps (c : Cand α) : c.events = (List.range c.r).flatMap (fun _ => c.repEvents) := by
  simp only [Cand.events, Cand.tree, gen, List.map_flatMap, Cand.repEvents]
  apply List.flatMap_congr
  intro i _
  exact genF_events _ _ _

/-- The occurrences of repetition `i` with their events. -/
def repPairs (c : Cand α) (i : ℕ) : List (ℤ × α) := (c.rep i).zip c.repEvents

theorem pairs_reps {c : Cand α} (h : Shape c) : pairs c = (List.range c.r).flatMap (repPairs c) := by
  unfold pairs
  rw [events_reps]
  conv_lhs => rw [occs_reps h]
  rw [zip_flatMap _ _ _ (fun i hi => by rw [h.rep i (List.mem_range.1 hi), length_repEvents])]
  rfl

theorem repPairs_sub {c : Cand α} (h : Shape c) (i : ℕ) (hi : i < c.r) : ∀ x ∈ repPairs c i, x ∈ pairs c := by
  intro x hx
  rw [pairs_reps h]
  exact List.mem_flatMap.2 ⟨i, List.mem_range.2 hi, hx⟩

theorem length_events (c : Cand α) : c.events.length = nbOccs c.tree := by rw [Cand.events, List.length_map, length_gen]

theorem length_pairs {c : Cand α} (h : Shape c) : (pairs c).length = c.O.length := by
  rw [pairs, List.length_zip, length_events, ← h.2.1, Nat.min_self]

theorem flatMap_chunk {β : Type} (f : ℕ → List β) (n r : ℕ) (hf : ∀ j < r, (f j).length = n) (i : ℕ) (hi : i < r) : (((List.range r).flatMap f).drop (i * n)).take n = f i := by
  have h : ∀ k ≤ r, ((List.range k).flatMap f).length = k * n := by
    intro k
    induction k with
    | zero => intro _; simp
    | succ k ih =>
      intro hk
      rw [List.range_succ, List.flatMap_append, List.length_append, ih (by omega)]
      simp only [List.flatMap_cons, List.flatMap_nil, List.append_nil]
      rw [hf k (by omega), Nat.succ_mul]
  obtain ⟨d, rfl⟩ : ∃ d, r = i + (1 + d) := ⟨r - i - 1, by omega⟩
  rw [List.range_add, List.flatMap_append, List.drop_left' (h i (by omega)), Nat.add_comm 1 d, List.range_succ_eq_map, List.map_cons, List.flatMap_cons, Nat.add_zero,
    List.take_left' (hf i hi)]

/-- The occurrences of a concatenation, repetition by repetition. -/
theorem concat_pairs (cs : List (Cand α × ℕ)) (hne : cs ≠ []) (p0 : ℤ) (r0 : ℕ) (hr0 : 1 ≤ r0) (hs : ∀ c ∈ cs, Shape c.1) (hrep : ∀ c ∈ cs, c.2 + r0 ≤ c.1.r) :
    ∃ c', concat cs p0 r0 = some c' ∧ Shape c' ∧ c'.r = r0 ∧ c'.p = p0 ∧ (∀ i < r0, repPairs c' i = cs.flatMap (fun c => repPairs c.1 (c.2 + i))) ∧
      pairs c' = (List.range r0).flatMap (fun i => cs.flatMap (fun c => repPairs c.1 (c.2 + i))) := by
  obtain ⟨c', h1, h2, h3, h4, h5, h6, h7⟩ := concat_shape cs hne p0 r0 hr0 hs hrep
  have hl : ∀ i < r0, ∀ c ∈ cs, (c.1.rep (c.2 + i)).length = c.1.repEvents.length := by
    intro i hi c hc
    rw [(hs c hc).rep _ (by have := hrep c hc; omega), length_repEvents]
  have hlen : ∀ i < r0, (cs.flatMap (fun c => c.1.rep (c.2 + i))).length = (cs.flatMap (fun c => c.1.repEvents)).length := by
    intro i hi
    rw [List.length_flatMap, List.length_flatMap]
    congr 1
    exact List.map_congr_left (fun c hc => hl i hi c hc)
  have hP : pairs c' = (List.range r0).flatMap (fun i => cs.flatMap (fun c => repPairs c.1 (c.2 + i))) := by
    rw [pairs, h5, h6, zip_flatMap _ _ _ (fun i hi => hlen i (List.mem_range.1 hi))]
    apply List.flatMap_congr
    intro i hi
    exact zip_flatMap _ _ _ (fun c hc => hl i (List.mem_range.1 hi) c hc)
  refine ⟨c', h1, h2, h3, h4, fun i hi => ?_, hP⟩
  have hev : c'.repEvents = cs.flatMap (fun c => c.1.repEvents) := h7 0
  have hnb : nbOccsF c'.ch = (cs.flatMap (fun c => c.1.repEvents)).length := by rw [← hev, length_repEvents]
  have hrep : c'.rep i = cs.flatMap (fun c => c.1.rep (c.2 + i)) := by
    unfold Cand.rep
    rw [h5, hnb]
    exact flatMap_chunk _ _ r0 (fun j hj => hlen j hj) i hi
  rw [repPairs, hrep, hev, zip_flatMap _ _ _ (fun c hc => hl i hi c hc)]
  rfl

theorem mem_concat_pairs {cs : List (Cand α × ℕ)} {r0 : ℕ} (hs : ∀ c ∈ cs, Shape c.1) (hrep : ∀ c ∈ cs, c.2 + r0 ≤ c.1.r) {x : ℤ × α}
    (hx : x ∈ (List.range r0).flatMap (fun i => cs.flatMap (fun c => repPairs c.1 (c.2 + i)))) : ∃ c ∈ cs, x ∈ pairs c.1 := by
  obtain ⟨i, hi, hx⟩ := List.mem_flatMap.1 hx
  obtain ⟨c, hc, hx⟩ := List.mem_flatMap.1 hx
  exact ⟨c, hc, repPairs_sub (hs c hc) _ (by have := hrep c hc; have := List.mem_range.1 hi; omega) x hx⟩

/-- The occurrences of candidates put one after the other. -/
theorem nest_pairs {c : Cand α} {cs : List (Cand α)} (hs : ∀ c ∈ cs, Shape c) (hO : c.O = cs.flatMap (fun c => c.O)) (hE : c.events = cs.flatMap (fun c => c.events)) : pairs c = cs.flatMap pairs := by
  rw [pairs, hO, hE, zip_flatMap _ _ _ (fun c hc => by rw [(hs c hc).2.1, length_events])]
  rfl

theorem evOccs_pairs : ∀ c : AnyCand, evOccs c = pairs c.toCand
  | .pattern c => by rw [evOccs, Kinds.eventsMinor_gen c.tree 0]; rfl
  | .cycle a p O E => by
    have : ∀ O : List ℤ, O.map (fun o => (o, a)) = O.zip (Kinds.times O.length [a]) := by
      intro O
      induction O with
      | nil => rfl
      | cons o O ih => rw [List.map_cons, List.length_cons, Kinds.times, List.replicate_succ, List.flatten_cons]; exact congrArg _ ih
    rw [evOccs, this]
    rw [pairs, Cand.events, ← Kinds.eventsMinor_gen]
    rfl

theorem nbOccsA_eq : ∀ c : AnyCand, Shape c.toCand → nbOccsA c = (pairs c.toCand).length
  | .pattern c, h => by rw [length_pairs h, h.2.1]; rfl
  | .cycle a p O E, h => by rw [length_pairs h]; rfl

end Verif.Complex
