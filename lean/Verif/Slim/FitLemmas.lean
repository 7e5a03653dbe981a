import Verif.Slim.CoverLemmas
import Mathlib.Data.List.Permutation
import Mathlib.Data.Finset.Powerset

set_option autoImplicit false
set_option linter.unusedSectionVars false

namespace Verif.Slim

variable {α κ V : Type*} [LinearOrder α] [LinearOrder κ] [LinearOrder V]

/-! ### prefit -/

theorem lookup_perm {K : Type*} [DecidableEq K] {d d' : List (K × Finset ℕ)} (hnd : (d.map Prod.fst).Nodup) (hp : d'.Perm d)
    (k : K) : lookup d' k = lookup d k :=
  lookup_congr ((hp.map Prod.fst).nodup_iff.2 hnd) hnd k (fun _ => hp.mem_iff)

theorem prefit_sct (P : Params α κ V) (items : List α) (vert : Sct α) (hnd : (vert.map Prod.fst).Nodup) :
    ((prefitVertical P items vert).sct.map Prod.fst).Nodup ∧
    (∀ a, a ∈ (prefitVertical P items vert).sct.map Prod.fst ↔ a ∈ vert.map Prod.fst ∨ a ∈ items) ∧
    (∀ a, lookup (prefitVertical P items vert).sct a = lookup vert a) := by
  unfold prefitVertical
  simp only
  have hp : (vert.insertionSort (fun a b => b.2.card ≤ a.2.card)).Perm vert := List.perm_insertionSort _ _
  have hnd1 : ((vert.insertionSort (fun a b => b.2.card ≤ a.2.card)).map Prod.fst).Nodup :=
    (hp.map Prod.fst).nodup_iff.2 hnd
  generalize vert.insertionSort (fun a b => b.2.card ≤ a.2.card) = s at hp hnd1
  have hadd : ((items.dedup.filter (fun i => i ∉ s.map Prod.fst)).map (fun i => ((i, ∅) : α × Finset ℕ))).map Prod.fst =
      items.dedup.filter (fun i => i ∉ s.map Prod.fst) := by
    rw [List.map_map]
    exact List.map_id' _
  have hmemadd : ∀ a, a ∈ items.dedup.filter (fun i => i ∉ s.map Prod.fst) ↔ a ∈ items ∧ a ∉ s.map Prod.fst := by
    intro a
    rw [List.mem_filter, List.mem_dedup, decide_eq_true_eq]
  have hkeys : ∀ a, a ∈ (s ++ (items.dedup.filter (fun i => i ∉ s.map Prod.fst)).map (fun i => ((i, ∅) : α × Finset ℕ))).map Prod.fst ↔
      a ∈ vert.map Prod.fst ∨ a ∈ items := by
    intro a
    rw [List.map_append, List.mem_append, hadd, hmemadd, (hp.map Prod.fst).mem_iff]
    by_cases h : a ∈ vert.map Prod.fst <;> simp [h]
  have hnd2 : ((s ++ (items.dedup.filter (fun i => i ∉ s.map Prod.fst)).map (fun i => ((i, ∅) : α × Finset ℕ))).map Prod.fst).Nodup := by
    rw [List.map_append, hadd, List.nodup_append]
    refine ⟨hnd1, (List.nodup_dedup items).filter _, fun a ha b hb => ?_⟩
    rintro rfl
    exact ((hmemadd a).1 hb).2 ha
  refine ⟨hnd2, hkeys, fun a => ?_⟩
  by_cases ha : a ∈ s.map Prod.fst
  · rw [← lookup_perm hnd hp]
    have := mem_of_key hnd1 ha
    exact lookup_of_mem hnd2 (List.mem_append_left _ this)
  · rw [← lookup_perm hnd hp, lookup_of_not_mem ha]
    by_cases hi : a ∈ items
    · have : (a, (∅ : Finset ℕ)) ∈ (items.dedup.filter (fun i => i ∉ s.map Prod.fst)).map (fun i => ((i, ∅) : α × Finset ℕ)) :=
        List.mem_map.2 ⟨a, (hmemadd a).2 ⟨hi, ha⟩, rfl⟩
      exact lookup_of_mem hnd2 (List.mem_append_right _ this)
    · apply lookup_of_not_mem
      rw [hkeys, ← (hp.map Prod.fst).mem_iff]
      exact fun h => h.elim ha hi

theorem prefit_ct_mem (P : Params α κ V) (items : List α) (vert : Sct α) (e : Finset α × Finset ℕ) :
    e ∈ (prefitVertical P items vert).ct ↔ ∃ x ∈ (prefitVertical P items vert).sct, e = ({x.1}, x.2) := by
  unfold prefitVertical
  simp only
  rw [(sortTable_perm P _).mem_iff, List.mem_map]
  exact ⟨fun ⟨x, hx, h⟩ => ⟨x, hx, h.symm⟩, fun ⟨x, hx, h⟩ => ⟨x, hx, h.symm⟩⟩

theorem prefit_ct_nodup (P : Params α κ V) (items : List α) (vert : Sct α) (hnd : (vert.map Prod.fst).Nodup) :
    ((prefitVertical P items vert).ct.map Prod.fst).Nodup := by
  have h := (prefit_sct P items vert hnd).1
  have hct : (prefitVertical P items vert).ct =
      sortTable P ((prefitVertical P items vert).sct.map (fun e => ({e.1}, e.2))) := rfl
  rw [hct, ((sortTable_perm P _).map Prod.fst).nodup_iff, List.map_map]
  have : (Prod.fst ∘ fun e : α × Finset ℕ => (({e.1} : Finset α), e.2)) = (fun a => ({a} : Finset α)) ∘ Prod.fst := rfl
  rw [this, ← List.map_map]
  exact h.map (fun a b hab => Finset.singleton_injective hab)

theorem prefit_good (P : Params α κ V) (items : List α) (vert : Sct α) (hnd : (vert.map Prod.fst).Nodup) :
    Good (prefitVertical P items vert).sct (prefitVertical P items vert).ct := by
  have hmem := prefit_ct_mem P items vert
  have hsn := (prefit_sct P items vert hnd).1
  have hcn := prefit_ct_nodup P items vert hnd
  refine ⟨⟨hcn, fun a ha => ?_, fun X hX => ?_, fun X hX x hx => ?_⟩, ⟨hcn, fun a t hat => ?_, fun e he a ha t ht => ?_, ?_⟩⟩
  · obtain ⟨x, hx, rfl⟩ := List.mem_map.1 ha
    exact List.mem_map.2 ⟨({x.1}, x.2), (hmem _).2 ⟨x, hx, rfl⟩, rfl⟩
  · obtain ⟨e, he, rfl⟩ := List.mem_map.1 hX
    obtain ⟨x, _, rfl⟩ := (hmem e).1 he
    exact Finset.singleton_nonempty _
  · obtain ⟨e, he, rfl⟩ := List.mem_map.1 hX
    obtain ⟨y, hy, rfl⟩ := (hmem e).1 he
    rw [Finset.mem_singleton] at hx
    subst hx
    exact mem_key_of_mem hy
  · have hk := mem_of_key hsn (mem_keys_of_lookup hat)
    exact ⟨_, (hmem _).2 ⟨_, hk, rfl⟩, Finset.mem_singleton_self _, hat⟩
  · obtain ⟨x, hx, rfl⟩ := (hmem e).1 he
    rw [Finset.mem_singleton] at ha
    subst ha
    rw [lookup_of_mem hsn hx]
    exact ht
  · intro e he e' he' a ha t _ ha' _
    obtain ⟨x, hx, rfl⟩ := (hmem e).1 he
    obtain ⟨y, hy, rfl⟩ := (hmem e').1 he'
    rw [Finset.mem_singleton] at ha ha'
    have := eq_of_mem_of_key hsn hx hy (ha.symm.trans ha')
    rw [this]

/-! ### generate_candidates -/

/-- Two entries used together. -/
def CoUsed (p : (Finset α × Finset ℕ) × (Finset α × Finset ℕ)) : Prop := (p.1.2 ∩ p.2.2).Nonempty

/-- The two loops of `generate_candidates` as one loop over pairs. -/
def genPairs (gain : (Finset α × Finset ℕ) → (Finset α × Finset ℕ) → ℚ) :
    List ((Finset α × Finset ℕ) × (Finset α × Finset ℕ)) → Finset (Finset α) → List (Finset α × ℚ) × Finset (Finset α)
  | [], stack => ([], stack)
  | p :: l, stack =>
    if p.1.1 ∪ p.2.1 ∈ stack then genPairs gain l stack
    else if p.2.2 ∩ p.1.2 = ∅ then genPairs gain l stack
    else
      let r := genPairs gain l (insert (p.1.1 ∪ p.2.1) stack)
      if 0 < gain p.1 p.2 then ((p.1.1 ∪ p.2.1, gain p.1 p.2) :: r.1, r.2) else r

theorem genPairs_cons (gain : (Finset α × Finset ℕ) → (Finset α × Finset ℕ) → ℚ)
    (p : (Finset α × Finset ℕ) × (Finset α × Finset ℕ))
    (l : List ((Finset α × Finset ℕ) × (Finset α × Finset ℕ))) (stack : Finset (Finset α)) :
    genPairs gain (p :: l) stack = if p.1.1 ∪ p.2.1 ∈ stack then genPairs gain l stack
    else if p.2.2 ∩ p.1.2 = ∅ then genPairs gain l stack
    else if 0 < gain p.1 p.2 then ((p.1.1 ∪ p.2.1, gain p.1 p.2) :: (genPairs gain l (insert (p.1.1 ∪ p.2.1) stack)).1,
      (genPairs gain l (insert (p.1.1 ∪ p.2.1) stack)).2) else genPairs gain l (insert (p.1.1 ∪ p.2.1) stack) := rfl

theorem genPairs_append (gain : (Finset α × Finset ℕ) → (Finset α × Finset ℕ) → ℚ)
    (l l' : List ((Finset α × Finset ℕ) × (Finset α × Finset ℕ))) (stack : Finset (Finset α)) :
    genPairs gain (l ++ l') stack =
      ((genPairs gain l stack).1 ++ (genPairs gain l' (genPairs gain l stack).2).1, (genPairs gain l' (genPairs gain l stack).2).2) := by
  induction l generalizing stack with
  | nil => rfl
  | cons p l ih =>
    rw [List.cons_append, genPairs_cons, genPairs_cons]
    by_cases h1 : p.1.1 ∪ p.2.1 ∈ stack
    · simp only [if_pos h1]; exact ih stack
    · simp only [if_neg h1]
      by_cases h2 : p.2.2 ∩ p.1.2 = ∅
      · simp only [if_pos h2]; exact ih stack
      · simp only [if_neg h2]
        rw [ih]
        by_cases h3 : 0 < gain p.1 p.2
        · simp only [if_pos h3, List.cons_append]
        · simp only [if_neg h3]

theorem genInner_eq (gain : (Finset α × Finset ℕ) → (Finset α × Finset ℕ) → ℚ) (x : Finset α × Finset ℕ) (Y : Table α)
    (stack : Finset (Finset α)) : genInner gain x Y stack = genPairs gain (Y.map (fun y => (x, y))) stack := by
  induction Y generalizing stack with
  | nil => rfl
  | cons y Y ih =>
    rw [List.map_cons]
    unfold genInner genPairs
    simp only
    by_cases h1 : x.1 ∪ y.1 ∈ stack
    · rw [if_pos h1, if_pos h1, ih]
    · rw [if_neg h1, if_neg h1]
      by_cases h2 : y.2 = ∅
      · rw [if_pos h2, if_pos (by rw [h2]; simp), ih]
      · rw [if_neg h2]
        by_cases h3 : y.2 ∩ x.2 = ∅
        · rw [if_pos h3, if_pos h3, ih]
        · rw [if_neg h3, if_neg h3, ih]

theorem genPairs_unused (gain : (Finset α × Finset ℕ) → (Finset α × Finset ℕ) → ℚ) (x : Finset α × Finset ℕ) (hx : x.2 = ∅)
    (Y : Table α) (stack : Finset (Finset α)) : genPairs gain (Y.map (fun y => (x, y))) stack = ([], stack) := by
  induction Y with
  | nil => rfl
  | cons y Y ih =>
    rw [List.map_cons]
    unfold genPairs
    simp only
    rw [if_pos (show y.2 ∩ x.2 = ∅ by rw [hx]; simp), ih]
    simp

theorem genOuter_eq (gain : (Finset α × Finset ℕ) → (Finset α × Finset ℕ) → ℚ) (tab : Table α)
    (stack : Finset (Finset α)) : genOuter gain tab stack = genPairs gain (orderedPairs tab) stack := by
  induction tab generalizing stack with
  | nil => rfl
  | cons x Y ih =>
    unfold genOuter orderedPairs
    rw [genPairs_append]
    by_cases hx : x.2 = ∅
    · rw [if_pos hx, genPairs_unused gain x hx, ih]
      rfl
    · rw [if_neg hx]
      simp only
      rw [genInner_eq, ih]

theorem genPairs_stack (gain : (Finset α × Finset ℕ) → (Finset α × Finset ℕ) → ℚ)
    (l : List ((Finset α × Finset ℕ) × (Finset α × Finset ℕ))) (stack : Finset (Finset α)) (X : Finset α) :
    X ∈ (genPairs gain l stack).2 ↔ X ∈ stack ∨ ∃ p ∈ l, CoUsed p ∧ X = p.1.1 ∪ p.2.1 := by
  induction l generalizing stack with
  | nil => simp [genPairs]
  | cons p l ih =>
    unfold genPairs
    by_cases h1 : p.1.1 ∪ p.2.1 ∈ stack
    · rw [if_pos h1, ih]
      simp only [List.mem_cons, exists_eq_or_imp]
      constructor
      · rintro (h | h)
        · exact Or.inl h
        · exact Or.inr (Or.inr h)
      · rintro (h | ⟨_, rfl⟩ | h)
        · exact Or.inl h
        · exact Or.inl h1
        · exact Or.inr h
    · rw [if_neg h1]
      by_cases h2 : p.2.2 ∩ p.1.2 = ∅
      · rw [if_pos h2, ih]
        simp only [List.mem_cons, exists_eq_or_imp]
        constructor
        · rintro (h | h)
          · exact Or.inl h
          · exact Or.inr (Or.inr h)
        · rintro (h | ⟨hc, rfl⟩ | h)
          · exact Or.inl h
          · unfold CoUsed at hc; rw [Finset.inter_comm, h2] at hc; exact absurd hc (by simp)
          · exact Or.inr h
      · rw [if_neg h2]
        have hco : CoUsed p := by unfold CoUsed; rw [Finset.inter_comm]; exact Finset.nonempty_iff_ne_empty.2 h2
        have : ∀ r : List (Finset α × ℚ) × Finset (Finset α),
            (if 0 < gain p.1 p.2 then ((p.1.1 ∪ p.2.1, gain p.1 p.2) :: r.1, r.2) else r).2 = r.2 := by
          intro r; split <;> rfl
        simp only [this]
        rw [ih, Finset.mem_insert]
        simp only [List.mem_cons, exists_eq_or_imp]
        constructor
        · rintro ((h | h) | h)
          · exact Or.inr (Or.inl ⟨hco, h⟩)
          · exact Or.inl h
          · exact Or.inr (Or.inr h)
        · rintro (h | ⟨_, h⟩ | h)
          · exact Or.inl (Or.inr h)
          · exact Or.inl (Or.inl h)
          · exact Or.inr h

theorem genPairs_mem (gain : (Finset α × Finset ℕ) → (Finset α × Finset ℕ) → ℚ)
    (l : List ((Finset α × Finset ℕ) × (Finset α × Finset ℕ))) (stack : Finset (Finset α)) (c : Finset α × ℚ) :
    c ∈ (genPairs gain l stack).1 ↔ ∃ l1 p l2, l = l1 ++ p :: l2 ∧ CoUsed p ∧ c = (p.1.1 ∪ p.2.1, gain p.1 p.2) ∧
      c.1 ∉ stack ∧ (∀ q ∈ l1, CoUsed q → q.1.1 ∪ q.2.1 ≠ c.1) ∧ 0 < c.2 := by
  induction l generalizing stack with
  | nil => simp [genPairs]
  | cons p l ih =>
    -- the first pair is irrelevant for `c`
    have skip : (CoUsed p → p.1.1 ∪ p.2.1 ≠ c.1 ∨ c.1 ∈ stack) →
        ((∃ l1 q l2, l = l1 ++ q :: l2 ∧ CoUsed q ∧ c = (q.1.1 ∪ q.2.1, gain q.1 q.2) ∧
          c.1 ∉ stack ∧ (∀ q ∈ l1, CoUsed q → q.1.1 ∪ q.2.1 ≠ c.1) ∧ 0 < c.2) ↔
        (∃ l1 q l2, p :: l = l1 ++ q :: l2 ∧ CoUsed q ∧ c = (q.1.1 ∪ q.2.1, gain q.1 q.2) ∧
          c.1 ∉ stack ∧ (∀ q ∈ l1, CoUsed q → q.1.1 ∪ q.2.1 ≠ c.1) ∧ 0 < c.2)) := by
      intro hp
      constructor
      · rintro ⟨l1, q, l2, rfl, h1, h2, h3, h4, h5⟩
        refine ⟨p :: l1, q, l2, rfl, h1, h2, h3, fun r hr hco => ?_, h5⟩
        rcases List.mem_cons.1 hr with rfl | hr
        · exact (hp hco).resolve_right h3
        · exact h4 r hr hco
      · rintro ⟨l1, q, l2, hl, h1, h2, h3, h4, h5⟩
        cases l1 with
        | nil =>
          rw [List.nil_append, List.cons.injEq] at hl
          obtain ⟨rfl, rfl⟩ := hl
          rcases hp h1 with h | h
          · exact absurd (by rw [h2]) h
          · exact absurd h h3
        | cons r l1 =>
          rw [List.cons_append, List.cons.injEq] at hl
          exact ⟨l1, q, l2, hl.2, h1, h2, h3, fun s hs => h4 s (List.mem_cons_of_mem _ hs), h5⟩
    unfold genPairs
    by_cases h1 : p.1.1 ∪ p.2.1 ∈ stack
    · rw [if_pos h1, ih]
      apply skip
      intro _
      by_cases h : p.1.1 ∪ p.2.1 = c.1
      · exact Or.inr (h ▸ h1)
      · exact Or.inl h
    · rw [if_neg h1]
      by_cases h2 : p.2.2 ∩ p.1.2 = ∅
      · rw [if_pos h2, ih]
        apply skip
        intro hc
        unfold CoUsed at hc; rw [Finset.inter_comm, h2] at hc; exact absurd hc (by simp)
      · rw [if_neg h2]
        have hco : CoUsed p := by unfold CoUsed; rw [Finset.inter_comm]; exact Finset.nonempty_iff_ne_empty.2 h2
        have hstep : c ∈ (genPairs gain l (insert (p.1.1 ∪ p.2.1) stack)).1 ↔
            p.1.1 ∪ p.2.1 ≠ c.1 ∧ ∃ l1 q l2, p :: l = l1 ++ q :: l2 ∧ CoUsed q ∧ c = (q.1.1 ∪ q.2.1, gain q.1 q.2) ∧
              c.1 ∉ stack ∧ (∀ q ∈ l1, CoUsed q → q.1.1 ∪ q.2.1 ≠ c.1) ∧ 0 < c.2 := by
          rw [ih]
          constructor
          · rintro ⟨l1, q, l2, g1, g2, g3, g4, g5, g6⟩
            have hne : p.1.1 ∪ p.2.1 ≠ c.1 := fun h => g4 (h ▸ Finset.mem_insert_self _ _)
            exact ⟨hne, (skip (fun _ => Or.inl hne)).1
              ⟨l1, q, l2, g1, g2, g3, fun h => g4 (Finset.mem_insert_of_mem h), g5, g6⟩⟩
          · rintro ⟨hne, h⟩
            obtain ⟨l1, q, l2, g1, g2, g3, g4, g5, g6⟩ := (skip (fun _ => Or.inl hne)).2 h
            refine ⟨l1, q, l2, g1, g2, g3, fun h => ?_, g5, g6⟩
            rcases Finset.mem_insert.1 h with h | h
            · exact hne h.symm
            · exact g4 h
        -- when the union is that of the first pair
        have hhead : p.1.1 ∪ p.2.1 = c.1 → ((∃ l1 q l2, p :: l = l1 ++ q :: l2 ∧ CoUsed q ∧ c = (q.1.1 ∪ q.2.1, gain q.1 q.2) ∧
              c.1 ∉ stack ∧ (∀ q ∈ l1, CoUsed q → q.1.1 ∪ q.2.1 ≠ c.1) ∧ 0 < c.2) ↔
              c = (p.1.1 ∪ p.2.1, gain p.1 p.2) ∧ 0 < c.2) := by
          intro heq
          constructor
          · rintro ⟨l1, q, l2, g1, g2, g3, g4, g5, g6⟩
            cases l1 with
            | nil =>
              rw [List.nil_append, List.cons.injEq] at g1
              obtain ⟨rfl, rfl⟩ := g1
              exact ⟨g3, g6⟩
            | cons r l1 =>
              rw [List.cons_append, List.cons.injEq] at g1
              obtain ⟨rfl, _⟩ := g1
              exact absurd heq (g5 _ List.mem_cons_self hco)
          · rintro ⟨g1, g2⟩
            exact ⟨[], p, l, rfl, hco, g1, heq ▸ h1, by simp, g2⟩
        by_cases h3 : 0 < gain p.1 p.2
        · simp only [if_pos h3]
          rw [List.mem_cons, hstep]
          by_cases heq : p.1.1 ∪ p.2.1 = c.1
          · rw [hhead heq]
            constructor
            · rintro (rfl | ⟨h, _⟩)
              · exact ⟨rfl, h3⟩
              · exact absurd heq h
            · rintro ⟨h, _⟩; exact Or.inl h
          · constructor
            · rintro (rfl | ⟨_, h⟩)
              · exact absurd rfl heq
              · exact h
            · exact fun h => Or.inr ⟨heq, h⟩
        · simp only [if_neg h3]
          rw [hstep]
          by_cases heq : p.1.1 ∪ p.2.1 = c.1
          · rw [hhead heq]
            constructor
            · rintro ⟨h, _⟩; exact absurd heq h
            · rintro ⟨h, h'⟩
              rw [h] at h'
              exact absurd h' h3
          · exact ⟨fun h => h.2, fun h => ⟨heq, h⟩⟩

theorem genPairs_nodup (gain : (Finset α × Finset ℕ) → (Finset α × Finset ℕ) → ℚ)
    (l : List ((Finset α × Finset ℕ) × (Finset α × Finset ℕ))) (stack : Finset (Finset α)) :
    ((genPairs gain l stack).1.map Prod.fst).Nodup := by
  induction l generalizing stack with
  | nil => simp [genPairs]
  | cons p l ih =>
    unfold genPairs
    by_cases h1 : p.1.1 ∪ p.2.1 ∈ stack
    · rw [if_pos h1]; exact ih _
    · rw [if_neg h1]
      by_cases h2 : p.2.2 ∩ p.1.2 = ∅
      · rw [if_pos h2]; exact ih _
      · rw [if_neg h2]
        by_cases h3 : 0 < gain p.1 p.2
        · simp only [if_pos h3]
          rw [List.map_cons, List.nodup_cons]
          refine ⟨fun h => ?_, ih _⟩
          obtain ⟨c, hc, hce⟩ := List.mem_map.1 h
          obtain ⟨_, _, _, _, _, _, h4, _⟩ := (genPairs_mem gain l _ c).1 hc
          exact h4 (hce ▸ Finset.mem_insert_self _ _)
        · simp only [if_neg h3]; exact ih _

theorem mem_orderedPairs {β : Type*} (l : List β) (p : β × β) (h : p ∈ orderedPairs l) : p.1 ∈ l ∧ p.2 ∈ l := by
  induction l with
  | nil => cases h
  | cons x l ih =>
    rcases List.mem_append.1 h with h | h
    · obtain ⟨y, hy, rfl⟩ := List.mem_map.1 h
      exact ⟨List.mem_cons_self, List.mem_cons_of_mem _ hy⟩
    · exact ⟨List.mem_cons_of_mem _ (ih h).1, List.mem_cons_of_mem _ (ih h).2⟩

theorem mem_generateCandidates (gain : (Finset α × Finset ℕ) → (Finset α × Finset ℕ) → ℚ) (tab : Table α)
    (stack : Finset (Finset α)) (c : Finset α × ℚ) :
    c ∈ (generateCandidates gain tab stack).1 ↔ ∃ l1 p l2, orderedPairs tab = l1 ++ p :: l2 ∧ CoUsed p ∧
      c = (p.1.1 ∪ p.2.1, gain p.1 p.2) ∧ c.1 ∉ stack ∧ (∀ q ∈ l1, CoUsed q → q.1.1 ∪ q.2.1 ≠ c.1) ∧ 0 < c.2 := by
  unfold generateCandidates
  simp only
  rw [List.mem_insertionSort, genOuter_eq, genPairs_mem]

/-! ### fit -/

theorem tryCandidates_spec (P : Params α κ V) (choose : Finset α → Chooser α) (hch : ∀ c, ChooserOk (choose c))
    (st : State α V) (hg : Good st.sct st.ct) (hin : Inhabited st.sct) (cs : List (Finset α × ℚ))
    (hcs : ∀ c ∈ cs, c.1.Nonempty ∧ (∀ x ∈ c.1, x ∈ st.sct.map Prod.fst) ∧ c.1 ∉ st.ct.map Prod.fst) :
    tryCandidates P choose st cs = some (.ok none) ∨
      ∃ c ∈ cs, ∃ tab, evaluate P (choose c.1) st c.1 = some (.ok (sizeOf P tab, tab)) ∧ Good st.sct tab ∧
        sizeOf P tab < st.size ∧
        tryCandidates P choose st cs = some (.ok (some (updateUsages P st tab (sizeOf P tab)))) := by
  induction cs with
  | nil => exact Or.inl rfl
  | cons c cs ih =>
    obtain ⟨h1, h2, h3⟩ := hcs c List.mem_cons_self
    obtain ⟨tab, g1, g2, _⟩ := evaluate_spec P (choose c.1) (hch c.1) st hg hin c.1 h1 h2 h3
    unfold tryCandidates
    rw [g1]
    simp only
    by_cases hlt : sizeOf P tab < st.size
    · rw [if_pos hlt]
      exact Or.inr ⟨c, List.mem_cons_self, tab, g1, g2, hlt, rfl⟩
    · rw [if_neg hlt]
      rcases ih (fun c hc => hcs c (List.mem_cons_of_mem _ hc)) with h | ⟨c', hc', h⟩
      · exact Or.inl h
      · exact Or.inr ⟨c', List.mem_cons_of_mem _ hc', h⟩

/-- The candidates of one turn of `fit` are new, non-empty and known. -/
theorem candidates_ok (O : Oracle α) (hO : OracleOk O) (i : ℕ) (st : State α V) (hg : Good st.sct st.ct) :
    ∀ c ∈ (generateCandidates (O.gain i (O.enum i st.ct)) (O.enum i st.ct) (st.ct.map Prod.fst).toFinset).1,
      c.1.Nonempty ∧ (∀ x ∈ c.1, x ∈ st.sct.map Prod.fst) ∧ c.1 ∉ st.ct.map Prod.fst ∧ Inhabited st.sct := by
  intro c hc
  obtain ⟨l1, p, l2, h1, h2, h3, h4, _, _⟩ := (mem_generateCandidates _ _ _ c).1 hc
  have hp := mem_orderedPairs (O.enum i st.ct) p (by rw [h1]; simp)
  have hperm := hO.1 i st.ct
  have hp1 := hperm.mem_iff.1 hp.1
  have hp2 := hperm.mem_iff.1 hp.2
  have hne := hg.keys.nonempty _ (mem_key_of_mem hp1)
  refine ⟨?_, ?_, fun h => h4 (List.mem_toFinset.2 h), ?_⟩
  · rw [h3]; exact hne.mono Finset.subset_union_left
  · rw [h3]
    intro x hx
    rcases Finset.mem_union.1 hx with hx | hx
    · exact hg.keys.known _ (mem_key_of_mem hp1) x hx
    · exact hg.keys.known _ (mem_key_of_mem hp2) x hx
  · obtain ⟨a, ha⟩ := hne
    obtain ⟨t, ht⟩ := h2
    exact ⟨a, t, hg.lossless.sound p.1 hp1 a ha t (Finset.mem_inter.1 ht).1⟩

/-- All the duplicate-free lists of elements of a finite set. -/
noncomputable def arrangements {β : Type*} [DecidableEq β] (S : Finset β) : Finset (List β) :=
  S.powerset.biUnion (fun s => s.toList.permutations.toFinset)

theorem mem_arrangements {β : Type*} [DecidableEq β] (S : Finset β) (l : List β) (hnd : l.Nodup) (h : ∀ x ∈ l, x ∈ S) :
    l ∈ arrangements S := by
  unfold arrangements
  rw [Finset.mem_biUnion]
  refine ⟨l.toFinset, Finset.mem_powerset.2 (fun x hx => h x (List.mem_toFinset.1 hx)), ?_⟩
  rw [List.mem_toFinset, List.mem_permutations]
  exact ((List.toFinset_toList hnd).symm)

/-- All the entries a code table over `sct` may hold. -/
def entries (sct : Sct α) : Finset (Finset α × Finset ℕ) :=
  (sct.map Prod.fst).toFinset.powerset ×ˢ ((sct.map Prod.fst).toFinset.biUnion (lookup sct)).powerset

theorem good_mem_entries {sct : Sct α} {tab : Table α} (h : Good sct tab) : ∀ e ∈ tab, e ∈ entries sct := by
  intro e he
  have hk := mem_key_of_mem he
  unfold entries
  rw [Finset.mem_product, Finset.mem_powerset, Finset.mem_powerset]
  refine ⟨fun x hx => List.mem_toFinset.2 (h.keys.known _ hk x hx), fun t ht => ?_⟩
  obtain ⟨a, ha⟩ := h.keys.nonempty _ hk
  exact Finset.mem_biUnion.2 ⟨a, List.mem_toFinset.2 (h.keys.known _ hk a ha), h.lossless.sound e he a ha t ht⟩

/-- The sizes that code tables over `sct` can have. -/
noncomputable def sizes (P : Params α κ V) (sct : Sct α) : Finset V := (arrangements (entries sct)).image (sizeOf P)

theorem good_mem_sizes (P : Params α κ V) {sct : Sct α} {tab : Table α} (h : Good sct tab) : sizeOf P tab ∈ sizes P sct :=
  Finset.mem_image.2 ⟨tab, mem_arrangements _ _ (List.Nodup.of_map _ h.keys.nodup) (good_mem_entries h), rfl⟩

/-- Invariant of the main loop with respect to the starting state. -/
structure FitInv (P : Params α κ V) (st0 st : State α V) : Prop where
  sct : st.sct = st0.sct
  good : Good st0.sct st.ct
  size : st = st0 ∨ (st.size < st0.size ∧ ∃ tab : Table α, tab.Perm st.ct ∧ st.size = sizeOf P tab)

theorem updateUsages_perm (P : Params α κ V) (st : State α V) (hg : Good st.sct st.ct) (usages : Table α)
    (hu : Good st.sct usages) (size : V) : usages.Perm (updateUsages P st usages size).ct :=
  (List.perm_ext_iff_of_nodup (List.Nodup.of_map _ hu.keys.nodup)
    (List.Nodup.of_map _ (updateUsages_good P st hg usages hu size).1.keys.nodup)).2
    (fun e => (updateUsages_mem P st hg usages hu size e).symm)

theorem fitLoop_spec (P : Params α κ V) (O : Oracle α) (hO : OracleOk O) (st0 st : State α V) (hinv : FitInv P st0 st)
    (i n : ℕ) (hn : ((sizes P st0.sct).filter (fun v => v < st.size)).card < n) :
    ∃ st', fitLoop P O n i st = some (.ok st') ∧ FitInv P st0 st' := by
  induction n generalizing st i with
  | zero => omega
  | succ n ih =>
    have hg : Good st.sct st.ct := hinv.sct ▸ hinv.good
    have hc := candidates_ok O hO i st hg
    unfold fitLoop
    simp only
    generalize (generateCandidates (O.gain i (O.enum i st.ct)) (O.enum i st.ct) (st.ct.map Prod.fst).toFinset).1 = cs at hc
    cases cs with
    | nil => exact ⟨st, rfl, hinv⟩
    | cons c0 cs =>
      have hin := (hc c0 List.mem_cons_self).2.2.2
      rcases tryCandidates_spec P (O.choose i) (hO.2 i) st hg hin (c0 :: cs)
        (fun c h => ⟨(hc c h).1, (hc c h).2.1, (hc c h).2.2.1⟩) with h | ⟨c, _, tab, _, g2, g3, g4⟩
      · rw [h]; exact ⟨st, rfl, hinv⟩
      · rw [g4]
        simp only
        have hup := updateUsages_good P st hg tab g2 (sizeOf P tab)
        have hinv2 : FitInv P st0 (updateUsages P st tab (sizeOf P tab)) := by
          refine ⟨hinv.sct, hinv.sct ▸ hup.1, Or.inr ⟨?_, tab, updateUsages_perm P st hg tab g2 _, rfl⟩⟩
          rcases hinv.size with h | ⟨h, _⟩
          · exact h ▸ g3
          · exact lt_trans g3 h
        by_cases ht : O.timeUp i = true
        · rw [if_pos ht]; exact ⟨_, rfl, hinv2⟩
        · rw [if_neg ht]
          apply ih _ hinv2
          have hsub : (sizes P st0.sct).filter (fun v => v < sizeOf P tab) ⊂ (sizes P st0.sct).filter (fun v => v < st.size) := by
            rw [Finset.ssubset_iff_of_subset]
            · refine ⟨sizeOf P tab, Finset.mem_filter.2 ⟨good_mem_sizes P (hinv.sct ▸ g2), g3⟩, ?_⟩
              intro h
              exact absurd (Finset.mem_filter.1 h).2 (lt_irrefl _)
            · intro v hv
              obtain ⟨h1, h2⟩ := Finset.mem_filter.1 hv
              exact Finset.mem_filter.2 ⟨h1, lt_trans h2 g3⟩
          have := Finset.card_lt_card hsub
          change ((sizes P st0.sct).filter (fun v => v < sizeOf P tab)).card < n
          omega

end Verif.Slim
