import Verif.Mdlp.Shuffle

/-!
# Every code of the discretizer is in use (C177)

Source: `/repo/skmine/preprocessing/mdlp_discretizer.py:96-137, 233-260`. The models are those of C28 and C96.
-/

set_option autoImplicit false
set_option linter.unusedSectionVars false

namespace Verif.Mdlp

theorem countP_prefix {β : Type*} (p : β → Bool) (l : List β) (i : ℕ) (hi : i ≤ l.length) (h : ∀ (j : ℕ) (hj : j < l.length), p l[j] = true ↔ j < i) : l.countP p = i := by
  conv_lhs => rw [← List.take_append_drop i l]
  rw [List.countP_append]
  have h1 : (l.take i).countP p = i := by
    rw [List.countP_eq_length.2, List.length_take, Nat.min_eq_left hi]
    intro a ha
    obtain ⟨j, hj, rfl⟩ := List.getElem_of_mem ha
    rw [List.length_take] at hj
    rw [List.getElem_take]
    exact (h j (by omega)).2 (by omega)
  have h2 : (l.drop i).countP p = 0 := by
    rw [List.countP_eq_zero]
    intro a ha hp
    obtain ⟨j, hj, rfl⟩ := List.getElem_of_mem ha
    rw [List.length_drop] at hj
    rw [List.getElem_drop] at hp
    have := (h (i + j) (by omega)).1 hp
    omega
  omega

variable {E : Type*} [LinearOrder E]

/-- C177 for any criterion of cutting. -/
theorem codes_any (score : ℕ → ℕ → ℕ → E) (better : ℕ → ℕ → ℕ → Bool) (samples s : List (ℚ × ℕ)) (hne : samples ≠ []) (hperm : s.Perm samples) (hsort : s.Pairwise (fun a b => a.1 ≤ b.1)) (fuel : ℕ) (hfuel : 2 * samples.length ≤ fuel)
    (hties : ∀ a ∈ samples, ∀ b ∈ samples, a.1 = b.1 → a.2 = b.2) :
    ∃ cuts, fitSorted score better fuel s = some (.ok cuts) ∧ cuts.Pairwise (· < ·) ∧ ∀ i ≤ cuts.length, ∃ a ∈ samples, cuts.countP (· < a.1) = i := by
  obtain ⟨cuts, h1, h2, h3⟩ := fit_structure score better samples s hne hperm hsort fuel hfuel
  refine ⟨cuts, h1, h2, fun i hi => ?_⟩
  have hs : ∀ (p q : ℕ) (a b : ℚ × ℕ), s[p]? = some a → s[q]? = some b → a.1 < b.1 → p < q := by
    intro p q a b ha hb hab
    by_contra hn
    obtain ⟨ha1, rfl⟩ := List.getElem?_eq_some_iff.1 ha
    obtain ⟨hb1, rfl⟩ := List.getElem?_eq_some_iff.1 hb
    rcases Nat.lt_or_eq_of_le (not_lt.1 hn) with h | h
    · exact absurd (List.pairwise_iff_getElem.1 hsort q p hb1 ha1 h) (not_le.2 hab)
    · subst h; exact lt_irrefl _ hab
  have hin : ∀ c ∈ cuts, ∃ (k : ℕ) (a b : ℚ × ℕ), s[k]? = some a ∧ s[k + 1]? = some b ∧ c = (a.1 + b.1) / 2 ∧ a ∈ samples ∧ b ∈ samples ∧ a.1 < c ∧ c < b.1 := by
    intro c hc
    obtain ⟨k, a, b, ha, hb, hab, e, hA, hB, h | ⟨h, h'⟩⟩ := h3 c hc
    · exact ⟨k, a, b, ha, hb, e, hA, hB, h.1, h.2⟩
    · exact absurd (hties a hA b hB (h.trans h'.symm)) hab
  have hlt : ∀ (p q : ℕ) (hp : p < cuts.length) (hq : q < cuts.length), p < q → cuts[p] < cuts[q] := fun p q hp hq h => List.pairwise_iff_getElem.1 h2 p q hp hq h
  rcases Nat.lt_or_eq_of_le hi with hlt' | rfl
  · obtain ⟨k, a, b, ha, hb, e, hA, -, hac, hcb⟩ := hin cuts[i] (List.getElem_mem hlt')
    refine ⟨a, hA, countP_prefix _ _ _ hi (fun j hj => ?_)⟩
    rw [decide_eq_true_eq]
    constructor
    · intro h
      by_contra hn
      rcases Nat.lt_or_eq_of_le (not_lt.1 hn) with h' | h'
      · exact absurd (h.trans hac) (not_lt.2 (le_of_lt (hlt i j hlt' hj h')))
      · subst h'; exact absurd h (not_lt.2 (le_of_lt hac))
    · intro hji
      by_contra hn
      have hn := not_lt.1 hn
      obtain ⟨k', a', b', ha', hb', e', -, -, hac', hcb'⟩ := hin cuts[j] (List.getElem_mem hj)
      have hc := hlt j i hj hlt' hji
      have g1 := hs k (k' + 1) a b' ha hb' (lt_of_le_of_lt hn hcb')
      have g2 := hs k' (k + 1) a' b ha' hb (hac'.trans (hc.trans hcb))
      have : k = k' := by omega
      subst this
      rw [ha] at ha'
      rw [hb] at hb'
      cases ha'
      cases hb'
      rw [e, e'] at hc
      exact lt_irrefl _ hc
  · rcases Nat.eq_zero_or_pos cuts.length with h0 | h0
    · obtain ⟨a, ha⟩ := List.exists_mem_of_ne_nil samples hne
      exact ⟨a, ha, by rw [List.length_eq_zero_iff.1 h0]; rfl⟩
    · obtain ⟨k, a, b, -, -, -, -, hB, -, hcb⟩ := hin cuts[cuts.length - 1] (List.getElem_mem (by omega))
      refine ⟨b, hB, countP_prefix _ _ _ (le_refl _) (fun j hj => ?_)⟩
      rw [decide_eq_true_eq]
      refine ⟨fun _ => hj, fun _ => ?_⟩
      rcases Nat.lt_or_eq_of_le (show j ≤ cuts.length - 1 by omega) with h | h
      · exact (hlt j _ hj (by omega) h).trans hcb
      · subst h; exact hcb

/-- C177. When samples of equal value have equal labels, `fit_transform` of a column with `k` cut points gives exactly the codes `0` to `k`. The full statement has no condition `hties`; `code_unused` refutes it otherwise.
`s` is the column in the order of its values; `samples` is the column as it is given. -/
theorem codes_in_use_partial (samples s : List (ℚ × ℕ)) (hne : samples ≠ []) (hperm : s.Perm samples) (hsort : s.Pairwise (fun a b => a.1 ≤ b.1)) (fuel : ℕ) (hfuel : 2 * samples.length ≤ fuel)
    (hties : ∀ a ∈ samples, ∀ b ∈ samples, a.1 = b.1 → a.2 = b.2) :
    ∃ cuts out, fitColumn fuel s = some (.ok cuts) ∧ transformArray [cuts] 1 (samples.map (fun a => [a.1])) = .ok out ∧ ∀ row, row ∈ out ↔ ∃ i ≤ cuts.length, row = [i] := by
  obtain ⟨cuts, h1, h2, h3⟩ := codes_any (scoreOf (s.map Prod.snd)) (betterOf (s.map Prod.snd)) samples s hne hperm hsort fuel hfuel hties
  have hrow : ∀ v : ℚ, [cuts].zipIdx.map (fun c => searchSorted c.1 (([v] : List ℚ).getD c.2 0) 0 c.1.length) = [cuts.countP (· < v)] := by
    intro v
    simp only [List.zipIdx_cons, List.zipIdx_nil, List.map_cons, List.map_nil, List.getD_cons_zero]
    rw [searchSorted_count _ _ (h2.imp le_of_lt)]
  refine ⟨cuts, _, h1, if_pos (le_refl _), fun row => ?_⟩
  rw [List.map_map, List.mem_map]
  constructor
  · rintro ⟨a, -, rfl⟩
    exact ⟨_, List.countP_le_length, hrow a.1⟩
  · rintro ⟨i, hi, rfl⟩
    obtain ⟨a, ha, e⟩ := h3 i hi
    exact ⟨a, ha, by rw [← e]; exact hrow a.1⟩

/-- C177 fails with ties: the column of four equal values, two of each class, is cut at this value; all samples get the code 0 and the code 1 is never used. -/
theorem code_unused : ∃ (s : List (ℚ × ℕ)) (cuts : List ℚ), s.Pairwise (fun a b => a.1 ≤ b.1) ∧ fitColumn (2 * s.length) s = some (.ok cuts) ∧ cuts.length = 1 ∧
    transformArray [cuts] 1 (s.map (fun a => [a.1])) = .ok [[0], [0], [0], [0]] := by
  obtain ⟨cuts, h1, h2, h3⟩ := fit_fayyad_irani_partial [((0 : ℚ), 0), (0, 0), (0, 1), (0, 1)] (by simp) (by simp) (by decide) 8 (by simp)
  have hin : (0 : ℚ) ∈ cuts := (h3 0).2 ⟨2, (0, 0), (0, 1), grouped_cut, rfl, rfl, by norm_num⟩
  have hall : ∀ c ∈ cuts, c = 0 := by
    intro c hc
    obtain ⟨k, a, b, -, ha, hb, rfl⟩ := (h3 c).1 hc
    have e1 : ∀ x : ℚ × ℕ, x ∈ [((0 : ℚ), 0), (0, 0), (0, 1), (0, 1)] → x.1 = 0 := by simp
    rw [e1 a (List.mem_of_getElem? ha), e1 b (List.mem_of_getElem? hb)]
    norm_num
  have : cuts = [0] := by
    match cuts, h2, hin, hall with
    | [c], _, _, hall => rw [hall c (by simp)]
    | c :: d :: t, h2, _, hall =>
      have := (List.pairwise_cons.1 h2).1 d (by simp)
      rw [hall c (by simp), hall d (by simp)] at this
      exact absurd this (lt_irrefl _)
  subst this
  exact ⟨_, [0], by simp, h1, rfl, by decide +kernel⟩

/-- The hypotheses hold for a column with a repeated value; with the first cut of all that are allowed there are three codes. -/
example : (∀ a ∈ [((1 : ℚ), 0), (2, 1), (2, 1), (3, 0)], ∀ b ∈ [((1 : ℚ), 0), (2, 1), (2, 1), (3, 0)], a.1 = b.1 → a.2 = b.2) ∧
    fitSorted (fun _ _ k => k) (fun _ _ _ => true) 8 [((1 : ℚ), 0), (2, 1), (2, 1), (3, 0)] = some (.ok [3 / 2, 5 / 2]) ∧
    transformArray [[3 / 2, 5 / 2]] 1 [[1], [2], [2], [3]] = .ok [[0], [1], [1], [2]] := by decide +kernel

end Verif.Mdlp
