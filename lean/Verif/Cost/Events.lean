import Verif.Cost.Lemmas
import Mathlib.Data.List.Dedup
import Mathlib.Algebra.BigOperators.Group.Finset.Basic
import Mathlib.Data.List.Perm.Subperm

set_option autoImplicit false
set_option linter.unusedSectionVars false

namespace Verif.Cost

open Verif.PTree

variable {α : Type} [DecidableEq α]

theorem IsDetails.lookup {S : List (ℤ × α)} {D : Details α} (h : IsDetails S D) {a : α} (ha : 0 < countEv S a) : D.nb.lookup a = some (countEv S a) := by
  have hm : (a, countEv S a) ∈ D.nb := (h.counts _ _).2 ⟨rfl, ha⟩
  have hk := h.keys
  clear h
  generalize D.nb = nb at hm hk ⊢
  induction nb with
  | nil => simp at hm
  | cons e l ih =>
    obtain ⟨b, n⟩ := e
    simp only [List.map_cons, List.nodup_cons] at hk
    by_cases hb : a = b
    · subst hb
      rcases List.mem_cons.1 hm with e | hm
      · cases e; simp
      · exact absurd (List.mem_map.2 ⟨_, hm, rfl⟩) hk.1
    · rcases List.mem_cons.1 hm with e | hm
      · cases e; simp at hb
      · have hb' : (a == b) = false := by simpa using hb
        rw [List.lookup_cons, hb']
        exact ih hm hk.2

theorem IsDetails.total {S : List (ℤ × α)} {D : Details α} (h : IsDetails S D) : D.total = S.length := by
  have hp : (D.nb.map Prod.fst).Perm (S.map Prod.snd).dedup := by
    rw [List.perm_ext_iff_of_nodup h.keys (List.nodup_dedup _)]
    intro a
    rw [List.mem_dedup]
    constructor
    · intro ha
      obtain ⟨e, he, rfl⟩ := List.mem_map.1 ha
      have h' := (h.counts e.1 e.2).1 he
      rw [countEv] at h'
      exact List.count_pos_iff.1 (by omega)
    · intro ha
      exact List.mem_map.2 ⟨(a, countEv S a), (h.counts _ _).2 ⟨rfl, List.count_pos_iff.2 ha⟩, rfl⟩
  have e1 : D.nb.map Prod.snd = (D.nb.map Prod.fst).map (countEv S) := by
    rw [List.map_map]
    apply List.map_congr_left
    intro e he
    exact ((h.counts e.1 e.2).1 he).1
  rw [Details.total, e1, (hp.map _).sum_eq]
  have := List.sum_map_count_dedup_eq_length (S.map Prod.snd)
  rw [List.length_map] at this
  exact this

theorem log2_delim : log2 adjDelim = some (-Real.logb 2 3) := by
  rw [log2, if_pos (by norm_num [adjDelim]), adjDelim, one_div, Real.logb_inv]

theorem countEv_le (S : List (ℤ × α)) (a : α) : countEv S a ≤ S.length := by
  rw [countEv]; exact (List.count_le_length).trans (by rw [List.length_map])

theorem log2_adj {S : List (ℤ × α)} {D : Details α} (h : IsDetails S D) {a : α} (ha : 0 < countEv S a) :
    (adjFreq D a).bind log2 = some (-Real.logb 2 (3 * (S.length : ℝ) / (countEv S a : ℝ))) := by
  have hS : 0 < S.length := lt_of_lt_of_le ha (countEv_le S a)
  have h1 : (0 : ℝ) < (countEv S a : ℝ) := by exact_mod_cast ha
  have h2 : (0 : ℝ) < (S.length : ℝ) := by exact_mod_cast hS
  rw [adjFreq, h.lookup ha, h.total, Option.map_some, Option.bind_some, log2, if_pos (by positivity), ← Real.logb_inv, inv_div]

mutual
theorem events_ok {S : List (ℤ × α)} {D : Details α} (h : IsDetails S D) : ∀ t : PTree.Tree α, (∀ a ∈ leafEvents t, 0 < countEv S a) →
    codeLengthEvents D t = some (eventBits S t)
  | .leaf a, ha => by
    have := log2_adj h (ha a (by simp [leafEvents]))
    rw [codeLengthEvents]
    cases hf : adjFreq D a with
    | none => rw [hf] at this; simp at this
    | some f =>
      rw [hf] at this
      simp only [Option.bind_some] at this
      change (log2 f).bind (fun x => some (-x)) = _
      rw [this]
      simp [eventBits, leafEvents, nbBlocks]
  | .node r p ch, ha => by
    have := eventsF_ok h ch (by simpa [leafEvents] using ha)
    rw [codeLengthEvents, log2_delim, this]
    simp only [Option.bind_eq_bind, Option.bind_some, Option.pure_def, Option.some.injEq, eventBits, leafEvents, nbBlocks, neg_neg]
    push_cast
    ring
theorem eventsF_ok {S : List (ℤ × α)} {D : Details α} (h : IsDetails S D) : ∀ ch : Forest α, (∀ a ∈ leafEventsF ch, 0 < countEv S a) →
    codeLengthEventsF D ch = some (((leafEventsF ch).map (fun a => Real.logb 2 (3 * (S.length : ℝ) / (countEv S a : ℝ)))).sum + 2 * (nbBlocksF ch : ℝ) * Real.logb 2 3)
  | .nil, _ => by simp [codeLengthEventsF, leafEventsF, nbBlocksF]
  | .cons d t rest, ha => by
    simp only [leafEventsF, List.mem_append] at ha
    have h1 := events_ok h t (fun a h' => ha a (Or.inl h'))
    have h2 := eventsF_ok h rest (fun a h' => ha a (Or.inr h'))
    rw [codeLengthEventsF, h1, h2]
    simp only [Option.bind_eq_bind, Option.bind_some, Option.pure_def, Option.some.injEq, eventBits, leafEventsF, nbBlocksF, List.map_append, List.sum_append]
    push_cast
    ring
end

/-! ### Repetitions -/

theorem min?_append_map {β : Type} (f : β → ℕ) (a b : List β) (hb : b ≠ []) (m : ℕ) (hm : (a.map f).min? = some m) (vals : List ℕ)
    (hv : vals.min? = (b.map f).min?) : (m :: vals).min? = ((a ++ b).map f).min? := by
  obtain ⟨k, hk⟩ : ∃ k, (b.map f).min? = some k := by
    cases hh : (b.map f).min? with
    | none => rw [List.min?_eq_none_iff] at hh; simp at hh; exact absurd hh hb
    | some k => exact ⟨k, rfl⟩
  rw [hk] at hv
  rw [List.min?_eq_some_iff] at hm hk hv
  have e : ((a ++ b).map f).min? = some (min m k) := by
    rw [List.min?_eq_some_iff, List.map_append]
    refine ⟨?_, fun x hx => ?_⟩
    · rcases min_choice m k with h | h <;> rw [h]
      · exact List.mem_append_left _ hm.1
      · exact List.mem_append_right _ hk.1
    · rcases List.mem_append.1 hx with h | h
      · exact (min_le_left _ _).trans (hm.2 x h)
      · exact (min_le_right _ _).trans (hk.2 x h)
  rw [e, List.min?_eq_some_iff]
  refine ⟨?_, fun x hx => ?_⟩
  · rcases min_choice m k with h | h <;> rw [h]
    · exact List.mem_cons_self
    · exact List.mem_cons_of_mem _ hv.1
  · rcases List.mem_cons.1 hx with rfl | h
    · exact min_le_left _ _
    · exact (min_le_right _ _).trans (hv.2 x h)

mutual
theorem leafEvents_ne : ∀ t : PTree.Tree α, t.Regular → leafEvents t ≠ []
  | .leaf _, _ => by simp [leafEvents]
  | .node _ _ ch, h => by
    simp only [Tree.Regular] at h
    rw [leafEvents]; exact leafEventsF_ne ch h.2.2.2 h.2.1
theorem leafEventsF_ne : ∀ ch : Forest α, ch.Regular → ch.NonEmpty → leafEventsF ch ≠ []
  | .nil, _, h => by simp [Forest.NonEmpty] at h
  | .cons d t rest, h, _ => by
    simp only [Forest.Regular] at h
    have := leafEvents_ne t h.1
    simp [leafEventsF, this]
end

theorem rarest_spec (S : List (ℤ × α)) (t : PTree.Tree α) (ht : t.Regular) : ((leafEvents t).map (countEv S)).min? = some (rarest S t) := by
  rw [rarest]
  cases h : ((leafEvents t).map (countEv S)).min? with
  | none => rw [List.min?_eq_none_iff] at h; simp at h; exact absurd h (leafEvents_ne t ht)
  | some m => rfl

mutual
theorem minOccs_ok {S : List (ℤ × α)} {D : Details α} (h : IsDetails S D) : ∀ t : PTree.Tree α, t.Regular → (∀ a ∈ leafEvents t, 0 < countEv S a) →
    ∃ l : List ℕ, getMinOccs D t = some (rarest S t, l) ∧ l.map (fun n : ℕ => (n : ℤ)) = (fieldsR S t).map Prod.snd ∧ ∀ n ∈ l, 0 < n
  | .leaf a, _, ha => by
    refine ⟨[], ?_, by simp [fieldsR], by simp⟩
    rw [getMinOccs, h.lookup (ha a (by simp [leafEvents]))]
    simp [rarest, leafEvents]
  | .node r p ch, hr, ha => by
    have hr' := hr
    simp only [Tree.Regular] at hr
    obtain ⟨vals, l, e, hv, hl, hpos⟩ := minOccsF_ok h ch hr.2.2.2 (by simpa [leafEvents] using ha)
    have hm := rarest_spec S (.node r p ch) hr'
    have hv' : npMin vals = some (rarest S (.node r p ch)) := by
      rw [npMin_eq, hv]; simpa [leafEvents] using hm
    refine ⟨l ++ [rarest S (.node r p ch)], ?_, ?_, ?_⟩
    · rw [getMinOccs, e]
      simp [hv']
    · simp [fieldsR, hl]
    · intro n hn
      rcases List.mem_append.1 hn with hn | hn
      · exact hpos n hn
      · rw [List.mem_singleton] at hn
        rw [List.min?_eq_some_iff] at hm
        obtain ⟨a, ha1, ha2⟩ := List.mem_map.1 hm.1
        rw [hn, ← ha2]; exact ha a ha1
theorem minOccsF_ok {S : List (ℤ × α)} {D : Details α} (h : IsDetails S D) : ∀ ch : Forest α, ch.Regular → (∀ a ∈ leafEventsF ch, 0 < countEv S a) →
    ∃ vals l : List ℕ, getMinOccsF D ch = some (vals, l) ∧ vals.min? = ((leafEventsF ch).map (countEv S)).min? ∧
      l.map (fun n : ℕ => (n : ℤ)) = (fieldsRF S ch).map Prod.snd ∧ ∀ n ∈ l, 0 < n
  | .nil, _, _ => ⟨[], [], rfl, by simp [leafEventsF], by simp [fieldsRF], by simp⟩
  | .cons d t rest, hr, ha => by
    simp only [Forest.Regular] at hr
    simp only [leafEventsF, List.mem_append] at ha
    obtain ⟨l1, e1, h1, p1⟩ := minOccs_ok h t hr.1 (fun a h' => ha a (Or.inl h'))
    obtain ⟨vals, l2, e2, hv, h2, p2⟩ := minOccsF_ok h rest hr.2 (fun a h' => ha a (Or.inr h'))
    refine ⟨rarest S t :: vals, l1 ++ l2, by rw [getMinOccsF, e1, e2]; rfl, ?_, by simp [fieldsRF, h1, h2], ?_⟩
    · rw [leafEventsF]
      have hm := rarest_spec S t hr.1
      cases rest with
      | nil =>
        simp only [leafEventsF, List.map_nil, List.min?_nil, List.min?_eq_none_iff] at hv
        subst hv
        simp only [leafEventsF, List.append_nil]
        rw [hm]; rfl
      | cons d' t' rest' =>
        exact min?_append_map _ _ _ (leafEventsF_ne _ hr.2 trivial) _ hm _ hv
    · intro n hn
      rcases List.mem_append.1 hn with hn | hn
      · exact p1 n hn
      · exact p2 n hn
end

theorem sumLog2_ok (l : List ℕ) (h : ∀ n ∈ l, 0 < n) : sumLog2 l = some ((l.map (fun n : ℕ => Real.logb 2 (n : ℝ))).sum) := by
  rw [sumLog2, PTree.mapM_some_map l _ (fun n : ℕ => Real.logb 2 (n : ℝ)) (fun n hn => log2_nat (h n hn))]
  rfl

theorem codeLengthR_ok {S : List (ℤ × α)} {D : Details α} (h : IsDetails S D) (t : PTree.Tree α) (hr : t.Regular) (ha : ∀ a ∈ leafEvents t, 0 < countEv S a) :
    codeLengthR D t = some (bits (fieldsR S t)) := by
  obtain ⟨l, e, hl, hp⟩ := minOccs_ok h t hr ha
  rw [codeLengthR, e, Option.bind_some, sumLog2_ok l hp, bits]
  have : (fieldsR S t).map (fun f => Real.logb 2 (f.2 : ℝ)) = ((fieldsR S t).map Prod.snd).map (fun z : ℤ => Real.logb 2 (z : ℝ)) := by
    rw [List.map_map]; rfl
  rw [this, ← hl, List.map_map]
  congr 2

mutual
theorem fieldsR_fit {S : List (ℤ × α)} : ∀ (t : PTree.Tree α), t.Regular → (∀ a, ((gen t 0).map Prod.snd).count a ≤ countEv S a) → ∀ f ∈ fieldsR S t, Fits f
  | .leaf _, _, _, f, hf => by simp [fieldsR] at hf
  | .node r p ch, hr, hc, f, hf => by
    have hr' := hr
    simp only [Tree.Regular] at hr
    have hev : (gen (.node r p ch) 0).map Prod.snd = (List.range r).flatMap (fun _ => (genF ch 0).map Prod.snd) := by
      simp only [gen, List.map_flatMap]
      apply List.flatMap_congr
      intro i _
      rw [genF_eq ch 0 0 [] _, genF_eq ch 0 0 [] 0]
      rw [occsStarF_eq, occsStarF_eq]
      simp [List.map_map, Function.comp_def]
    have hcount : ∀ a, ((gen (.node r p ch) 0).map Prod.snd).count a = r * ((genF ch 0).map Prod.snd).count a := by
      intro a
      rw [hev, List.count_flatMap]
      simp [Function.comp_def]
    simp only [fieldsR, List.mem_append, List.mem_singleton] at hf
    rcases hf with hf | rfl
    · refine fieldsRF_fit ch hr.2.2.2 (fun a => ?_) f hf
      refine le_trans ?_ (hc a)
      rw [hcount]
      exact Nat.le_mul_of_pos_left _ hr.1
    · have hm := rarest_spec S (.node r p ch) hr'
      rw [List.min?_eq_some_iff] at hm
      obtain ⟨a, ha1, ha2⟩ := List.mem_map.1 hm.1
      have h1 : r ≤ rarest S (.node r p ch) := by
        rw [← ha2]
        refine le_trans ?_ (hc a)
        rw [hcount]
        apply Nat.le_mul_of_pos_right
        rw [List.count_pos_iff]
        exact leafEventsF_mem ch hr.2.2.2 0 a (by simpa [leafEvents] using ha1)
      exact ⟨by simp only []; omega, by simp only []; omega⟩
theorem fieldsRF_fit {S : List (ℤ × α)} : ∀ (ch : Forest α), ch.Regular → (∀ a, ((genF ch 0).map Prod.snd).count a ≤ countEv S a) → ∀ f ∈ fieldsRF S ch, Fits f
  | .nil, _, _, f, hf => by simp [fieldsRF] at hf
  | .cons d t rest, hr, hc, f, hf => by
    simp only [Forest.Regular] at hr
    have h1 : (gen t (0 + d)).map Prod.snd = (gen t 0).map Prod.snd := by
      rw [gen_eq t [] _, gen_eq t [] 0, occsStar_eq, occsStar_eq]; simp [List.map_map, Function.comp_def]
    have h2 : (genF rest (0 + d)).map Prod.snd = (genF rest 0).map Prod.snd := by
      rw [genF_eq rest 0 0 [] _, genF_eq rest 0 0 [] 0, occsStarF_eq, occsStarF_eq]; simp [List.map_map, Function.comp_def]
    simp only [genF, List.map_append, h1, h2, List.count_append] at hc
    simp only [fieldsRF, List.mem_append] at hf
    rcases hf with hf | hf
    · exact fieldsR_fit t hr.1 (fun a => le_trans (by omega) (hc a)) f hf
    · exact fieldsRF_fit rest hr.2 (fun a => le_trans (by omega) (hc a)) f hf
theorem leafEvents_mem : ∀ (t : PTree.Tree α), t.Regular → ∀ (time : ℤ) (a : α), a ∈ leafEvents t → a ∈ (gen t time).map Prod.snd
  | .leaf b, _, time, a, ha => by simpa [leafEvents, gen] using ha
  | .node r p ch, hr, time, a, ha => by
    simp only [Tree.Regular] at hr
    have := leafEventsF_mem ch hr.2.2.2 (time + ((0 : ℕ) : ℤ) * p) a (by simpa [leafEvents] using ha)
    obtain ⟨x, hx, rfl⟩ := List.mem_map.1 this
    refine List.mem_map.2 ⟨x, ?_, rfl⟩
    simp only [gen, List.mem_flatMap, List.mem_range]
    exact ⟨0, by omega, hx⟩
theorem leafEventsF_mem : ∀ (ch : Forest α), ch.Regular → ∀ (time : ℤ) (a : α), a ∈ leafEventsF ch → a ∈ (genF ch time).map Prod.snd
  | .nil, _, time, a, ha => by simp [leafEventsF] at ha
  | .cons d t rest, hr, time, a, ha => by
    simp only [Forest.Regular] at hr
    simp only [leafEventsF, List.mem_append] at ha
    simp only [genF, List.map_append, List.mem_append]
    rcases ha with ha | ha
    · exact Or.inl (leafEvents_mem t hr.1 _ a ha)
    · exact Or.inr (leafEventsF_mem rest hr.2 _ a ha)
end

end Verif.Cost
