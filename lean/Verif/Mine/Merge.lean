import Verif.Mine.Model
import Verif.Miner.Lemmas

/-!
# Merging lists of cycles (C68)
-/

set_option autoImplicit false
set_option linter.unusedSectionVars false

namespace Verif.Mine

variable {K : Type} [LinearOrder K]

/-- Same first occurrence, same number of occurrences, same period. -/
def Same (c c' : Cyc K) : Prop := c.occs.head? = c'.occs.head? ∧ c.occs.length = c'.occs.length ∧ c.p = c'.p

theorem key_same {c c' : Cyc K} {k k' : ℤ ×ₗ (ℕ ×ₗ ℤ)} (h : key c = some k) (h' : key c' = some k') : Same c c' ↔ k = k' := by
  unfold key at h h'
  obtain ⟨t, e, rfl⟩ := Option.map_eq_some_iff.1 h
  obtain ⟨t', e', rfl⟩ := Option.map_eq_some_iff.1 h'
  unfold Same
  rw [e, e']
  simp [Prod.mk.injEq]

theorem key_head {c : Cyc K} {k : ℤ ×ₗ (ℕ ×ₗ ℤ)} (h : key c = some k) : c.occs.head? = some (ofLex k).1 := by
  unfold key at h
  obtain ⟨t, e, rfl⟩ := Option.map_eq_some_iff.1 h
  rw [e]; rfl

theorem mergeLoop_spec : ∀ (l : List (Entry K)) (k : ℤ ×ₗ (ℕ ×ₗ ℤ)) (c : Cyc K), key c = some k → (∀ e ∈ l, key e.c = some e.k ∧ k ≤ e.k) → l.Pairwise (fun a b => a.k ≤ b.k) →
    (mergeLoop k c l).Pairwise (fun a b => ∃ ka kb, key a = some ka ∧ key b = some kb ∧ ka < kb) ∧
    (∀ x ∈ mergeLoop k c l, (x = c ∨ ∃ e ∈ l, x = e.c) ∧ ∃ kx, key x = some kx ∧ k ≤ kx) ∧
    (∃ y ∈ mergeLoop k c l, key y = some k ∧ y.cost ≤ c.cost) ∧
    ∀ e ∈ l, ∃ y ∈ mergeLoop k c l, key y = some e.k ∧ y.cost ≤ e.c.cost := by
  intro l
  induction l with
  | nil =>
    intro k c hk _ _
    refine ⟨by simp [mergeLoop], ?_, ⟨c, by simp [mergeLoop], hk, le_refl _⟩, by simp⟩
    intro x hx
    simp only [mergeLoop, List.mem_singleton] at hx
    subst hx
    exact ⟨Or.inl rfl, k, hk, le_refl _⟩
  | cons e l ih =>
    intro k c hk hl hp
    obtain ⟨he, hke⟩ := hl e List.mem_cons_self
    obtain ⟨hp1, hp2⟩ := List.pairwise_cons.1 hp
    have hl' : ∀ x ∈ l, key x.c = some x.k ∧ e.k ≤ x.k := fun x hx => ⟨(hl x (List.mem_cons_of_mem _ hx)).1, hp1 x hx⟩
    rw [mergeLoop]
    split
    · next hne =>
      have hlt : k < e.k := lt_of_le_of_ne hke (Ne.symm hne)
      obtain ⟨h1, h2, h3, h4⟩ := ih e.k e.c he hl' hp2
      refine ⟨?_, ?_, ⟨c, List.mem_cons_self, hk, le_refl _⟩, ?_⟩
      · rw [List.pairwise_cons]
        refine ⟨?_, h1⟩
        intro x hx
        obtain ⟨_, kx, e1, e2⟩ := h2 x hx
        exact ⟨k, kx, hk, e1, lt_of_lt_of_le hlt e2⟩
      · intro x hx
        rcases List.mem_cons.1 hx with rfl | hx
        · exact ⟨Or.inl rfl, k, hk, le_refl _⟩
        · obtain ⟨h5, kx, e1, e2⟩ := h2 x hx
          refine ⟨Or.inr ?_, kx, e1, le_trans hke e2⟩
          rcases h5 with rfl | ⟨e', he', rfl⟩
          · exact ⟨e, List.mem_cons_self, rfl⟩
          · exact ⟨e', List.mem_cons_of_mem _ he', rfl⟩
      · intro x hx
        rcases List.mem_cons.1 hx with rfl | hx
        · obtain ⟨y, hy, e1, e2⟩ := h3
          exact ⟨y, List.mem_cons_of_mem _ hy, e1, e2⟩
        · obtain ⟨y, hy, e1, e2⟩ := h4 x hx
          exact ⟨y, List.mem_cons_of_mem _ hy, e1, e2⟩
    · next hek =>
      rw [not_not] at hek
      split
      · next hc =>
        obtain ⟨h1, h2, ⟨y, hy, e1, e2⟩, h4⟩ := ih e.k e.c he hl' hp2
        refine ⟨h1, ?_, ⟨y, hy, by rw [e1, hek], le_trans e2 hc.le⟩, ?_⟩
        · intro x hx
          obtain ⟨h5, kx, e3, e4⟩ := h2 x hx
          refine ⟨Or.inr ?_, kx, e3, le_trans hke e4⟩
          rcases h5 with rfl | ⟨e', he', rfl⟩
          · exact ⟨e, List.mem_cons_self, rfl⟩
          · exact ⟨e', List.mem_cons_of_mem _ he', rfl⟩
        · intro x hx
          rcases List.mem_cons.1 hx with rfl | hx
          · exact ⟨y, hy, e1, e2⟩
          · exact h4 x hx
      · next hc =>
        obtain ⟨h1, h2, ⟨y, hy, e1, e2⟩, h4⟩ := ih e.k c (by rw [hk, hek]) hl' hp2
        refine ⟨h1, ?_, ⟨y, hy, by rw [e1, hek], e2⟩, ?_⟩
        · intro x hx
          obtain ⟨h5, kx, e3, e4⟩ := h2 x hx
          refine ⟨?_, kx, e3, le_trans hke e4⟩
          rcases h5 with rfl | ⟨e', he', rfl⟩
          · exact Or.inl rfl
          · exact Or.inr ⟨e', List.mem_cons_of_mem _ he', rfl⟩
        · intro x hx
          rcases List.mem_cons.1 hx with rfl | hx
          · exact ⟨y, hy, e1, le_trans e2 (not_lt.1 hc)⟩
          · exact h4 x hx

theorem entries_ok (ls : List (List (Cyc K))) (hne : ∀ l ∈ ls, ∀ c ∈ l, c.occs ≠ []) :
    ∃ es, entries ls = some es ∧ (∀ e ∈ es, key e.c = some e.k ∧ e.c ∈ ls.flatten) ∧ ∀ c ∈ ls.flatten, ∃ e ∈ es, e.c = c := by
  have hmem : ∀ c i j, (c, i, j) ∈ ls.zipIdx.flatMap (fun l => l.1.zipIdx.map (fun c => (c.1, c.2, l.2))) → c ∈ ls.flatten := by
    intro c i j h
    obtain ⟨l, hl, h⟩ := List.mem_flatMap.1 h
    obtain ⟨x, hx, e⟩ := List.mem_map.1 h
    simp only [Prod.mk.injEq] at e
    rw [← e.1]
    exact List.mem_flatten.2 ⟨l.1, List.fst_mem_of_mem_zipIdx hl, List.fst_mem_of_mem_zipIdx hx⟩
  have hall : ∀ c ∈ ls.flatten, ∃ i j, (c, i, j) ∈ ls.zipIdx.flatMap (fun l => l.1.zipIdx.map (fun c => (c.1, c.2, l.2))) := by
    intro c hc
    obtain ⟨l, hl, hc⟩ := List.mem_flatten.1 hc
    obtain ⟨j, hj⟩ := List.mem_iff_getElem?.1 hl
    obtain ⟨i, hi⟩ := List.mem_iff_getElem?.1 hc
    refine ⟨i, j, List.mem_flatMap.2 ⟨(l, j), List.mk_mem_zipIdx_iff_getElem?.2 hj, List.mem_map.2 ⟨(c, i), List.mk_mem_zipIdx_iff_getElem?.2 hi, rfl⟩⟩⟩
  obtain ⟨es, he⟩ := Miner.mapM_exists (fun x : Cyc K × ℕ × ℕ => (key x.1).map (fun k => (⟨k, x.2.1, x.2.2, x.1⟩ : Entry K)))
    (ls.zipIdx.flatMap (fun l => l.1.zipIdx.map (fun c => (c.1, c.2, l.2)))) (by
      rintro ⟨c, i, j⟩ hx
      obtain ⟨l, hl, hc⟩ := List.mem_flatten.1 (hmem c i j hx)
      obtain ⟨t, ts, e⟩ := List.exists_cons_of_ne_nil (hne l hl c hc)
      simp [key, e])
  refine ⟨es, he, ?_, ?_⟩
  · intro e h
    obtain ⟨⟨c, i, j⟩, hx, hc⟩ := (Miner.mem_mapM he e).1 h
    obtain ⟨k, hk, rfl⟩ := Option.map_eq_some_iff.1 hc
    exact ⟨hk, hmem c i j hx⟩
  · intro c hc
    obtain ⟨i, j, hx⟩ := hall c hc
    obtain ⟨l, hl, hcl⟩ := List.mem_flatten.1 hc
    obtain ⟨t, ts, e⟩ := List.exists_cons_of_ne_nil (hne l hl c hcl)
    exact ⟨⟨toLex (t, toLex (c.occs.length, c.p)), i, j, c⟩, (Miner.mem_mapM he _).2 ⟨(c, i, j), hx, by simp [key, e]⟩, rfl⟩

/-- C68. Merging lists of nonempty cycles succeeds; only given cycles are kept; no two kept cycles agree in first occurrence, number of occurrences and period; for every given cycle a kept one agrees with it and costs at most as much;
and the kept cycles are ordered by first occurrence. -/
theorem merge_cheapest (ls : List (List (Cyc K))) (hne : ∀ l ∈ ls, ∀ c ∈ l, c.occs ≠ []) :
    ∃ out, mergeLists ls = some out ∧ (∀ c ∈ out, c ∈ ls.flatten) ∧ out.Pairwise (fun a b => ¬ Same a b) ∧
      (∀ c ∈ ls.flatten, ∃ c' ∈ out, Same c' c ∧ c'.cost ≤ c.cost) ∧ (out.filterMap (fun c => c.occs.head?)).Pairwise (· ≤ ·) := by
  obtain ⟨es, he, h1, h2⟩ := entries_ok ls hne
  unfold mergeLists
  rw [he, Option.map_some]
  refine ⟨_, rfl, ?_⟩
  have hperm : (es.insertionSort (fun a b => a.tup ≤ b.tup)).Perm es := List.perm_insertionSort _ _
  have : Std.Total (fun a b : Entry K => a.tup ≤ b.tup) := ⟨fun a b => le_total _ _⟩
  have : IsTrans (Entry K) (fun a b : Entry K => a.tup ≤ b.tup) := ⟨fun a b c => le_trans⟩
  have hsort : (es.insertionSort (fun a b => a.tup ≤ b.tup)).Pairwise (fun a b => a.tup ≤ b.tup) := List.pairwise_insertionSort _ _
  have hk : ∀ a b : Entry K, a.tup ≤ b.tup → a.k ≤ b.k := by
    intro a b h
    unfold Entry.tup at h
    rw [Prod.Lex.toLex_le_toLex] at h
    rcases h with h | h
    · exact h.le
    · exact h.1.le
  revert hperm hsort
  generalize es.insertionSort (fun a b => a.tup ≤ b.tup) = s
  intro hperm hsort
  cases s with
  | nil =>
    have : es = [] := by simpa using hperm.symm
    subst this
    refine ⟨by simp, by simp, ?_, by simp⟩
    intro c hc
    obtain ⟨e, he, _⟩ := h2 c hc
    cases he
  | cons e l =>
    obtain ⟨p1, p2⟩ := List.pairwise_cons.1 hsort
    obtain ⟨q1, q2, q3, q4⟩ := mergeLoop_spec l e.k e.c (h1 e (hperm.mem_iff.1 List.mem_cons_self)).1
      (fun x hx => ⟨(h1 x (hperm.mem_iff.1 (List.mem_cons_of_mem _ hx))).1, hk _ _ (p1 x hx)⟩) (p2.imp (fun h => hk _ _ h))
    refine ⟨?_, ?_, ?_, ?_⟩
    · intro c hc
      rcases (q2 c hc).1 with rfl | ⟨x, hx, rfl⟩
      · exact (h1 e (hperm.mem_iff.1 List.mem_cons_self)).2
      · exact (h1 x (hperm.mem_iff.1 (List.mem_cons_of_mem _ hx))).2
    · refine q1.imp ?_
      rintro a b ⟨ka, kb, e1, e2, hlt⟩ hs
      exact absurd ((key_same e1 e2).1 hs) (ne_of_lt hlt)
    · intro c hc
      obtain ⟨x, hx, rfl⟩ := h2 c hc
      have hxk := (h1 x hx).1
      rcases List.mem_cons.1 (hperm.mem_iff.2 hx) with rfl | hx'
      · obtain ⟨y, hy, e1, e2⟩ := q3
        exact ⟨y, hy, (key_same e1 hxk).2 rfl, e2⟩
      · obtain ⟨y, hy, e1, e2⟩ := q4 x hx'
        exact ⟨y, hy, (key_same e1 hxk).2 rfl, e2⟩
    · rw [List.pairwise_filterMap]
      refine q1.imp ?_
      rintro a b ⟨ka, kb, e1, e2, hlt⟩ x hx y hy
      rw [key_head e1] at hx
      rw [key_head e2] at hy
      obtain rfl := Option.some.inj hx
      obtain rfl := Option.some.inj hy
      rcases Prod.Lex.le_iff.1 hlt.le with h | h
      · exact h.le
      · exact h.1.le

/-- The second list holds a cheaper cycle with the start, number and period of the first one, and a cycle that starts earlier. -/
example : mergeLists [[(⟨[3, 6, 9], 3, 20⟩ : Cyc ℕ)], [⟨[3, 7, 9], 3, 15⟩, ⟨[1, 3, 5], 2, 30⟩]] = some [⟨[1, 3, 5], 2, 30⟩, ⟨[3, 7, 9], 3, 15⟩] := by rfl

end Verif.Mine
