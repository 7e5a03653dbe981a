import Verif.Mdlp.Lemmas

/-! # Properties of the MDLP discretizer (C27, C28) -/

set_option autoImplicit false
set_option linter.unusedSectionVars false

namespace Verif.Mdlp

variable {E : Type*} [LinearOrder E]

/-- The positions of the cuts do not depend on the values. -/
theorem fit_cuts_any (score : ℕ → ℕ → ℕ → E) (better : ℕ → ℕ → ℕ → Bool) (samples s : List (ℚ × ℕ)) (hne : samples ≠ [])
    (hperm : s.Perm samples) (fuel : ℕ) (hfuel : 2 * samples.length ≤ fuel) :
    ∃ cuts, fitSorted score better fuel s = some (.ok cuts) ∧ cuts.Pairwise (· < ·) ∧
      ∀ c, c ∈ cuts ↔ ∃ (k : ℕ) (a b : ℚ × ℕ), CutAt (s.map Prod.snd) score better k ∧ s[k - 1]? = some a ∧ s[k]? = some b ∧
        c = (a.1 + b.1) / 2 := by
  have hlen : s.length = samples.length := hperm.length_eq
  have hpos : 0 < samples.length := List.length_pos_iff.2 hne
  obtain ⟨r, hr1, hr2⟩ := loop_spec (s.map Prod.snd) score better (s.map Prod.fst) (by simp) fuel [(0, s.length)] []
    (by intro iv hiv; rw [List.mem_singleton] at hiv; subst hiv; simp only [List.length_map]; omega)
    (by simp only [weight, List.map_cons, List.map_nil, List.sum_cons, List.sum_nil]; omega)
  refine ⟨sortSet r.toFinset, ?_, strict_sortSet _, fun c => ?_⟩
  · rw [fitSorted, hr1]; rfl
  · rw [mem_sortSet, List.mem_toFinset, hr2]
    have hcut := cutAt_iff (s.map Prod.snd) score better
    rw [List.length_map] at hcut
    have hget : ∀ i (a : ℚ × ℕ), s[i]? = some a → (s.map Prod.fst).getD i 0 = a.1 := by
      intro i a ha
      rw [List.getD_eq_getElem?_getD, List.getElem?_map, ha]; rfl
    constructor
    · rintro (h | ⟨iv, hiv, h⟩)
      · cases h
      · rw [List.mem_singleton] at hiv
        subst hiv
        rcases h with h | ⟨k, hk, hc⟩
        · rw [mem_ends] at h
          rcases h with ⟨h, _⟩ | ⟨h, _⟩
          · exact absurd rfl h
          · simp at h
        · have hk' := (hcut k).2 hk
          obtain ⟨st, sp, _, _, _, ⟨hb1, hb2, _⟩, _⟩ := id hk'
          rw [List.length_map] at hb2
          obtain ⟨a, ha⟩ : ∃ a, s[k - 1]? = some a := ⟨_, List.getElem?_eq_getElem (by omega)⟩
          obtain ⟨b, hb⟩ : ∃ b, s[k]? = some b := ⟨_, List.getElem?_eq_getElem hb2⟩
          refine ⟨k, a, b, hk', ha, hb, ?_⟩
          rw [hc, midAt, hget _ _ ha, hget _ _ hb]
    · rintro ⟨k, a, b, hk, ha, hb, rfl⟩
      refine Or.inr ⟨(0, s.length), List.mem_singleton.2 rfl, Or.inr ⟨k, (hcut k).1 hk, ?_⟩⟩
      rw [midAt, hget _ _ ha, hget _ _ hb]

/-- C27, exact result. On at least one sample `fit` terminates, and the cut points are, in strictly increasing order, exactly the midpoints
at the positions where the recursive splitting splits. `s` is any ordering of the samples by value, whatever the shuffling of the rows and
the order of ties (which do matter, see C97). `score` and `better` are arbitrary. -/
theorem fit_cuts (score : ℕ → ℕ → ℕ → E) (better : ℕ → ℕ → ℕ → Bool) (samples s : List (ℚ × ℕ)) (hne : samples ≠ [])
    (hperm : s.Perm samples) (_hsort : s.Pairwise (fun a b => a.1 ≤ b.1)) (fuel : ℕ) (hfuel : 2 * samples.length ≤ fuel) :
    ∃ cuts, fitSorted score better fuel s = some (.ok cuts) ∧ cuts.Pairwise (· < ·) ∧
      ∀ c, c ∈ cuts ↔ ∃ (k : ℕ) (a b : ℚ × ℕ), CutAt (s.map Prod.snd) score better k ∧ s[k - 1]? = some a ∧ s[k]? = some b ∧
        c = (a.1 + b.1) / 2 :=
  fit_cuts_any score better samples s hne hperm fuel hfuel

/-- C27. `fit` terminates with strictly increasing cut points. Each is the midpoint of two consecutive samples (in the order by value)
of different classes, and either lies strictly inside the observed range or is the value of two samples of different classes. -/
theorem fit_structure (score : ℕ → ℕ → ℕ → E) (better : ℕ → ℕ → ℕ → Bool) (samples s : List (ℚ × ℕ)) (hne : samples ≠ [])
    (hperm : s.Perm samples) (hsort : s.Pairwise (fun a b => a.1 ≤ b.1)) (fuel : ℕ) (hfuel : 2 * samples.length ≤ fuel) :
    ∃ cuts, fitSorted score better fuel s = some (.ok cuts) ∧ cuts.Pairwise (· < ·) ∧
      ∀ c ∈ cuts, ∃ (k : ℕ) (a b : ℚ × ℕ), s[k]? = some a ∧ s[k + 1]? = some b ∧ a.2 ≠ b.2 ∧ c = (a.1 + b.1) / 2 ∧
        a ∈ samples ∧ b ∈ samples ∧ ((a.1 < c ∧ c < b.1) ∨ (a.1 = c ∧ b.1 = c)) := by
  obtain ⟨cuts, h1, h2, h3⟩ := fit_cuts score better samples s hne hperm hsort fuel hfuel
  refine ⟨cuts, h1, h2, fun c hc => ?_⟩
  obtain ⟨k, a, b, hk, ha, hb, rfl⟩ := (h3 c).1 hc
  obtain ⟨st, sp, _, _, _, ⟨hb1, hb2, hb3⟩, _⟩ := hk
  obtain ⟨k, rfl⟩ : ∃ j, k = j + 1 := ⟨k - 1, by omega⟩
  rw [Nat.add_sub_cancel] at ha hb3
  refine ⟨k, a, b, ha, hb, ?_, rfl, hperm.mem_iff.1 (List.mem_of_getElem? ha), hperm.mem_iff.1 (List.mem_of_getElem? hb), ?_⟩
  · intro hab
    apply hb3
    rw [List.getElem?_map, List.getElem?_map, ha, hb, Option.map_some, Option.map_some, hab]
  · obtain ⟨ha1, ha2⟩ := List.getElem?_eq_some_iff.1 ha
    obtain ⟨hb1, hb2⟩ := List.getElem?_eq_some_iff.1 hb
    have hle : a.1 ≤ b.1 := by
      have := List.pairwise_iff_getElem.1 hsort k (k + 1) ha1 hb1 (Nat.lt_succ_self _)
      rw [ha2, hb2] at this; exact this
    rcases lt_or_eq_of_le hle with hlt | heq
    · left; constructor <;> linarith
    · right; constructor <;> linarith

/-- `fit` on no sample raises a division by zero. -/
theorem fit_empty (score : ℕ → ℕ → ℕ → E) (better : ℕ → ℕ → ℕ → Bool) (fuel : ℕ) :
    fitSorted score better (fuel + 1) [] = some (.error .zeroDivision) := rfl

/-- Four samples, all splits accepted, smallest position preferred: two cut points (`1.5` and `3`), the second equal to a repeated value. -/
example : fitSorted (fun _ _ k => k) (fun _ _ _ => true) 8 [(1, 0), (2, 1), (3, 1), (3, 0)] = some (.ok [3 / 2, 3]) := by
  decide +kernel

/-- No split accepted: no cut point. -/
example : fitSorted (fun _ _ k => k) (fun _ _ _ => false) 8 [(1, 0), (2, 1), (3, 1), (3, 0)] = some (.ok []) := by rfl

/-- C28 for arrays. Column `j` of the result holds, for each row, the number of cut points of column `j` strictly below the value.
The cut points are sorted, as `fit` guarantees. -/
theorem transform_codes (cuts : List (List ℚ)) (hc : ∀ cs ∈ cuts, cs.Pairwise (· < ·)) (width : ℕ) (hw : cuts.length ≤ width)
    (rows : List (List ℚ)) (hr : ∀ r ∈ rows, r.length = width) :
    ∃ out, transformArray cuts width rows = .ok out ∧ out.length = rows.length ∧
      ∀ (t : ℕ) (r : List ℚ), rows[t]? = some r → ∃ codes, out[t]? = some codes ∧ codes.length = cuts.length ∧
        ∀ (j : ℕ) (cs : List ℚ), cuts[j]? = some cs → ∃ v, r[j]? = some v ∧ codes[j]? = some (cs.countP (· < v)) := by
  refine ⟨_, if_pos hw, by rw [List.length_map], fun t r ht => ?_⟩
  refine ⟨_, by rw [List.getElem?_map, ht, Option.map_some], by simp, fun j cs hj => ?_⟩
  have hjl : j < cuts.length := (List.getElem?_eq_some_iff.1 hj).1
  have hrl := hr r (List.mem_of_getElem? ht)
  have hv : r[j]? = some (r.getD j 0) := by
    rw [List.getD_eq_getElem?_getD, List.getElem?_eq_getElem (show j < r.length by omega)]; rfl
  refine ⟨_, hv, ?_⟩
  rw [List.getElem?_map, List.getElem?_zipIdx, hj]
  simp only [Option.map_some, Nat.zero_add]
  rw [searchSorted_count _ _ ((hc cs (List.mem_of_getElem? hj)).imp le_of_lt)]

/-- An array with fewer columns than fitted raises. -/
theorem transform_narrow (cuts : List (List ℚ)) (width : ℕ) (hw : width < cuts.length) (rows : List (List ℚ)) :
    transformArray cuts width rows = .error .index := if_neg (by omega)

/-- C28. The code of a value is monotone in the value, at most the number of cut points, and two values get the same code iff no cut
point separates them. -/
theorem transform_monotone (cuts : List (List ℚ)) (hc : ∀ cs ∈ cuts, cs.Pairwise (· < ·)) (width : ℕ) (rows : List (List ℚ))
    (res : List (List ℕ)) (hr : ∀ r ∈ rows, r.length = width) (hres : transformArray cuts width rows = .ok res)
    (t t' j : ℕ) (r r' : List ℚ) (codes codes' : List ℕ) (cs : List ℚ) (v v' : ℚ) (c c' : ℕ)
    (h1 : rows[t]? = some r) (h2 : rows[t']? = some r') (h3 : res[t]? = some codes) (h4 : res[t']? = some codes')
    (h5 : cuts[j]? = some cs) (h6 : r[j]? = some v) (h7 : r'[j]? = some v') (h8 : codes[j]? = some c) (h9 : codes'[j]? = some c')
    (hvv : v ≤ v') : c ≤ c' ∧ c' ≤ cs.length ∧ (c = c' ↔ ¬ ∃ x ∈ cs, v ≤ x ∧ x < v') := by
  have hw : cuts.length ≤ width := by
    by_contra h
    rw [transform_narrow cuts width (by omega)] at hres
    cases hres
  obtain ⟨out', e1, _, e2⟩ := transform_codes cuts hc width hw rows hr
  rw [hres, Except.ok.injEq] at e1
  subst e1
  have key : ∀ (t : ℕ) (r : List ℚ) (codes : List ℕ) (v : ℚ) (c : ℕ), rows[t]? = some r → res[t]? = some codes → r[j]? = some v →
      codes[j]? = some c → c = cs.countP (· < v) := by
    intro t r codes v c a1 a2 a3 a4
    obtain ⟨codes2, b1, _, b2⟩ := e2 t r a1
    rw [a2, Option.some.injEq] at b1
    subst b1
    obtain ⟨v2, b3, b4⟩ := b2 j cs h5
    rw [a3, Option.some.injEq] at b3
    subst b3
    rw [a4, Option.some.injEq] at b4
    exact b4
  rw [key t r codes v c h1 h3 h6 h8, key t' r' codes' v' c' h2 h4 h7 h9]
  have hsplit : cs.countP (· < v') = cs.countP (· < v) + cs.countP (fun x => decide (v ≤ x ∧ x < v')) := by
    clear h5 e2 key
    induction cs with
    | nil => rfl
    | cons x cs ih =>
      rw [List.countP_cons, List.countP_cons, List.countP_cons, ih]
      have e : (if decide (x < v') = true then 1 else 0) = (if decide (x < v) = true then 1 else 0) +
          (if decide (v ≤ x ∧ x < v') = true then 1 else 0) := by
        simp only [decide_eq_true_eq]
        by_cases a : x < v
        · have : x < v' := a.trans_le hvv
          simp [a, this]
        · have : v ≤ x := not_lt.1 a
          simp [a, this]
      omega
  refine ⟨by omega, List.countP_le_length, ?_⟩
  rw [hsplit]
  constructor
  · rintro h ⟨x, hx, hx2⟩
    have : 0 < cs.countP (fun x => decide (v ≤ x ∧ x < v')) := List.countP_pos_iff.2 ⟨x, hx, by simpa using hx2⟩
    omega
  · intro h
    have : cs.countP (fun x => decide (v ≤ x ∧ x < v')) = 0 := by
      rw [List.countP_eq_zero]
      intro x hx hx2
      exact h ⟨x, hx, by simpa using hx2⟩
    omega

/-- C28 for data frames, partial: with the fitted columns in the fitted order, each column gets the codes of its own cut points.
Missing: other orders, for which it is false (`frame_reordered`). -/
theorem frame_partial {ν : Type*} [DecidableEq ν] (fitted : List (ν × List ℚ))
    (hc : ∀ f ∈ fitted, f.2.Pairwise (· < ·)) (rows : List (List ℚ)) (hr : ∀ r ∈ rows, r.length = fitted.length) :
    ∃ out, transformFrame fitted (fitted.map Prod.fst) rows = .ok (fitted.map Prod.fst, out) ∧ out.length = rows.length ∧
      ∀ (t : ℕ) (r : List ℚ), rows[t]? = some r → ∃ codes, out[t]? = some codes ∧ codes.length = fitted.length ∧
        ∀ (j : ℕ) (name : ν) (cs : List ℚ), fitted[j]? = some (name, cs) →
          ∃ v, r[j]? = some v ∧ codes[j]? = some (cs.countP (· < v)) := by
  obtain ⟨out, h1, h2, h3⟩ := transform_codes (fitted.map Prod.snd)
    (by intro cs hcs; obtain ⟨f, hf, rfl⟩ := List.mem_map.1 hcs; exact hc f hf) fitted.length (by simp) rows hr
  refine ⟨out, ?_, h2, fun t r ht => ?_⟩
  · rw [transformFrame, if_pos rfl, List.length_map, h1]
    simp
  · obtain ⟨codes, e1, e2, e3⟩ := h3 t r ht
    refine ⟨codes, e1, by simpa using e2, fun j name cs hj => e3 j cs ?_⟩
    rw [List.getElem?_map, hj]; rfl

/-- A data frame is accepted iff its columns are the fitted ones, in any order. -/
theorem frame_accepts {ν : Type*} [DecidableEq ν] (fitted : List (ν × List ℚ)) (names : List ν)
    (hf : (fitted.map Prod.fst).Nodup) (hn : names.Nodup) (rows : List (List ℚ)) :
    (∃ out, transformFrame fitted names rows = .ok (names, out)) ↔ names.Perm (fitted.map Prod.fst) := by
  constructor
  · rintro ⟨out, h⟩
    unfold transformFrame at h
    split at h
    · next heq =>
      rw [List.perm_ext_iff_of_nodup hn hf]
      intro a
      rw [← List.mem_toFinset, ← heq, List.mem_toFinset]
    · cases h
  · intro hp
    have hlen : names.length = fitted.length := by rw [hp.length_eq, List.length_map]
    refine ⟨rows.map (fun r => (fitted.map Prod.snd).zipIdx.map (fun c => searchSorted c.1 (r.getD c.2 0) 0 c.1.length)), ?_⟩
    unfold transformFrame
    rw [if_pos (by ext a; rw [List.mem_toFinset, List.mem_toFinset, hp.mem_iff])]
    rw [transformArray, if_pos (by rw [List.length_map]; omega)]
    simp only
    rw [if_pos hlen.symm]

/-- C28 fails for reordered columns. Fitted with cut point `10` for column `0` and `100` for column `1`; a frame with the columns swapped
holds `50` in column `0`, which should get code `1` as in the original order, but gets `0`. -/
theorem frame_reordered :
    transformFrame [(0, [10]), (1, [100])] [0, 1] [[50, 50]] = .ok ([0, 1], [[1, 0]]) ∧
    transformFrame [(0, [10]), (1, [100])] [1, 0] [[50, 50]] = .ok ([1, 0], [[1, 0]]) := by
  have h : (Finset.instInsert.insert 0 {1} : Finset ℕ) = {1, 0} := by decide
  have e1 : ∀ a b : ℚ, searchSorted [a] b 0 1 = if a < b then 1 else 0 := by
    intro a b
    have := searchSorted_count [a] b (List.pairwise_singleton _ _)
    rw [List.countP_singleton] at this
    simpa using this
  constructor <;> simp [transformFrame, transformArray, e1, h] <;> norm_num

end Verif.Mdlp
