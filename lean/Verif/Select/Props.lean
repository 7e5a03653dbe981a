import Verif.Select.Lemmas
import Mathlib.Algebra.Order.Ring.Rat
import Mathlib.Algebra.Field.Rat

/-!
# Properties of the selection of patterns

Source: `/repo/skmine/periodic/run_mine.py:703-756`.
-/

set_option autoImplicit false
set_option linter.unusedSectionVars false

namespace Verif.Select

variable {K : Type} [Field K] [LinearOrder K] [IsStrictOrderedRing K] {ω β : Type} [DecidableEq ω] [BEq β] [LawfulBEq β]

/-- C38: the selection terminates without error, never selects a candidate twice, selects only given candidates; each selected candidate adds at least `minCov` new occurrences and costs less than sending those one by one. -/
theorem selection_efficient (C : Cands K ω) (dcosts : List (β × K)) (ev : ω → β) (minCov : ℕ) (cis : List ℕ) (hnd : cis.Nodup)
    (hcost : ∀ c ∈ cis, ∀ o ∈ C.occs c, (dcosts.lookup (ev o)).isSome) :
    ∃ sel, filterCover C dcosts ev minCov cis = some sel ∧ sel.Nodup ∧ (∀ c ∈ sel, c ∈ cis) ∧ EfficientCover C dcosts ev minCov sel := by
  unfold filterCover
  split
  · exact ⟨[], rfl, by simp, by simp, by intro b c a h; simp at h⟩
  · rename_i d ds hd
    have hperm := sortCis_perm C C.occs cis
    obtain ⟨out, h1, h2, h3, h4, _⟩ := loop_spec C dcosts ev minCov (ds.foldl min d) (by
        rw [hd]
        intro x hx
        rcases List.mem_cons.mp hx with rfl | hx
        · exact (foldl_min_le ds x).1
        · exact (foldl_min_le ds d).2 x hx) cis cis.length (sortCis C C.occs cis) C.occs [] hperm.length_eq.le (hperm.nodup_iff.mpr hnd) (by simp) (by simp)
      (fun c hc => hperm.mem_iff.mp hc) (by simp) (by intro c _; simp [covered]) (by intro b c a h; simp at h) (fun _ c hc hnc => absurd (hperm.mem_iff.mpr hc) hnc) hcost
    exact ⟨out, h1, h2, h3, h4⟩

/-- C38: hence all the selected candidates together cost no more than sending every covered occurrence on its own, once each. -/
theorem efficient_total (C : Cands K ω) (dcosts : List (β × K)) (ev : ω → β) (minCov : ℕ) (sel : List ℕ) (h : EfficientCover C dcosts ev minCov sel) :
    (sel.map C.cost).sum ≤ ∑ o ∈ covered C sel, single dcosts ev o := by
  induction sel using List.reverseRecOn with
  | nil => simp [covered]
  | append_singleton sel c ih =>
    have h1 := ih (fun b x a he => h b x (a ++ [c]) (by rw [he]; simp))
    have h2 := (h sel c [] rfl).2
    rw [List.map_append, List.sum_append, covered_append]
    have : covered C sel ∪ covered C [c] = covered C sel ∪ (C.occs c \ covered C sel) := by
      simp [covered]
    rw [this, Finset.sum_union Finset.disjoint_sdiff]
    simp only [List.map_cons, List.map_nil, List.sum_cons, List.sum_nil, add_zero]
    linarith

/-- C38: the total cost of the selection is at most the cost of its occurrences sent one by one, and strictly below it as soon as something is selected. -/
theorem selection_saves (C : Cands K ω) (dcosts : List (β × K)) (ev : ω → β) (minCov : ℕ) (cis : List ℕ) (hnd : cis.Nodup)
    (hcost : ∀ c ∈ cis, ∀ o ∈ C.occs c, (dcosts.lookup (ev o)).isSome) (sel : List ℕ) (hs : filterCover C dcosts ev minCov cis = some sel) :
    (sel.map C.cost).sum ≤ ∑ o ∈ covered C sel, single dcosts ev o ∧ (sel ≠ [] → (sel.map C.cost).sum < ∑ o ∈ covered C sel, single dcosts ev o) := by
  obtain ⟨sel', h1, _, _, h4⟩ := selection_efficient C dcosts ev minCov cis hnd hcost
  rw [hs] at h1
  obtain rfl := Option.some.inj h1
  refine ⟨efficient_total C dcosts ev minCov sel h4, ?_⟩
  intro hne
  obtain ⟨sl, c, rfl⟩ := (List.eq_nil_or_concat sel).resolve_left hne
  rw [List.concat_eq_append] at h4 ⊢
  have h1 := efficient_total C dcosts ev minCov sl (fun b x a he => h4 b x (a ++ [c]) (by rw [he]; simp))
  have h2 := (h4 sl c [] rfl).2
  rw [List.map_append, List.sum_append, covered_append]
  have : covered C sl ∪ covered C [c] = covered C sl ∪ (C.occs c \ covered C sl) := by
    simp [covered]
  rw [this, Finset.sum_union Finset.disjoint_sdiff]
  simp only [List.map_cons, List.map_nil, List.sum_cons, List.sum_nil, add_zero]
  linarith

/-- C38: nothing worthwhile is left behind: with non-negative event costs, every candidate that is not selected would add too few occurrences to the selection, or cost at least as much as its new occurrences at the price of the cheapest event. -/
theorem selection_complete (C : Cands K ω) (dcosts : List (β × K)) (ev : ω → β) (minCov : ℕ) (cis : List ℕ) (hnd : cis.Nodup)
    (hcost : ∀ c ∈ cis, ∀ o ∈ C.occs c, (dcosts.lookup (ev o)).isSome) (hpos : ∀ x ∈ dcosts.map Prod.snd, 0 ≤ x) (sel : List ℕ) (hs : filterCover C dcosts ev minCov cis = some sel)
    (c : ℕ) (hc : c ∈ cis) (hn : c ∉ sel) (cheapest : K) (hch : cheapest ∈ dcosts.map Prod.snd) (hle : ∀ x ∈ dcosts.map Prod.snd, cheapest ≤ x) :
    Useless C minCov cheapest sel c := by
  unfold filterCover at hs
  split at hs
  · rename_i hd
    rw [hd] at hch
    simp at hch
  · rename_i d ds hd
    have hmin : ∀ x ∈ dcosts.map Prod.snd, ds.foldl min d ≤ x := by
      rw [hd]
      intro x hx
      rcases List.mem_cons.mp hx with rfl | hx
      · exact (foldl_min_le ds x).1
      · exact (foldl_min_le ds d).2 x hx
    have hmem : ∀ (ds : List K) (d : K), ds.foldl min d ∈ d :: ds := by
      intro ds
      induction ds with
      | nil => simp
      | cons a ds ih =>
        intro d
        simp only [List.foldl_cons]
        have := ih (min d a)
        rcases List.mem_cons.mp this with h | h
        · rw [h]
          rcases min_choice d a with h' | h' <;> rw [h'] <;> simp
        · simp [h]
    have heq : cheapest = ds.foldl min d := le_antisymm (hle _ (by rw [hd]; exact hmem ds d)) (hmin _ hch)
    have hperm := sortCis_perm C C.occs cis
    obtain ⟨out, h1, _, _, _, h5⟩ := loop_spec C dcosts ev minCov (ds.foldl min d) hmin cis cis.length (sortCis C C.occs cis) C.occs [] hperm.length_eq.le (hperm.nodup_iff.mpr hnd) (by simp) (by simp)
      (fun c hc => hperm.mem_iff.mp hc) (by simp) (by intro c _; simp [covered]) (by intro b c a h; simp at h) (fun _ c hc hnc => absurd (hperm.mem_iff.mpr hc) hnc) hcost
    rw [hs] at h1
    obtain rfl := Option.some.inj h1
    rw [heq]
    exact h5 (by rw [← heq]; exact hpos _ hch) c hc hn

/-! ## A concrete run: two events, four candidates -/

/-- Occurrences are (time, event). Candidate 0 covers 0, 10, 20, 30 of event 0; candidate 1 overlaps it on two occurrences; candidate 2 is too costly; candidate 3 covers event 1. -/
def exC : Cands ℚ (ℕ × ℕ) where
  cost c := [8, 9, 40, 6].getD c 0
  occs c := [{(0, 0), (10, 0), (20, 0), (30, 0)}, {(20, 0), (30, 0), (40, 0), (50, 0), (60, 0)}, {(1, 1), (2, 1), (3, 1)}, {(5, 1), (6, 1), (7, 1)}].getD c ∅

/-- Costs of single occurrences. -/
def exD : List (ℕ × ℚ) := [(0, 5), (1, 4)]

/-- Candidate 1 is the cheapest per occurrence and is selected first, candidate 0 is then left with only two uncovered occurrences. -/
example : filterCover exC exD Prod.snd 3 [0, 1, 2, 3] = some [1, 3] := by decide +kernel

example : ∃ sel, filterCover exC exD Prod.snd 3 [0, 1, 2, 3] = some sel ∧ sel.Nodup ∧ (∀ c ∈ sel, c ∈ [0, 1, 2, 3]) ∧ EfficientCover exC exD Prod.snd 3 sel :=
  selection_efficient exC exD Prod.snd 3 [0, 1, 2, 3] (by decide) (by decide +kernel)

/-- With the smaller minimum the overlapping candidate 0 is still worth its cost, counted on its two new occurrences only. -/
example : filterCover exC exD Prod.snd 2 [0, 1, 2, 3] = some [1, 3, 0] := by decide +kernel

example : (([1, 3, 0] : List ℕ).map exC.cost).sum ≤ ∑ o ∈ covered exC [1, 3, 0], single exD Prod.snd o :=
  (selection_saves exC exD Prod.snd 2 [0, 1, 2, 3] (by decide) (by decide +kernel) _ (by decide +kernel)).1

example : Useless exC 3 (4 : ℚ) [1, 3] 0 :=
  selection_complete exC exD Prod.snd 3 [0, 1, 2, 3] (by decide) (by decide +kernel) (by decide +kernel) [1, 3] (by decide +kernel) 0 (by decide) (by decide) 4 (by decide +kernel) (by decide +kernel)

end Verif.Select
