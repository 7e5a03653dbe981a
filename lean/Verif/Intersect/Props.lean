import Verif.Intersect.Model
import Mathlib.Data.Prod.Lex

/-! # Properties of `intersect2d` (C09) -/

set_option autoImplicit false
set_option linter.unusedSectionVars false

namespace Verif.Intersect

variable {α : Type*} [LinearOrder α]

/-- `i` is the index of the first element of `l` satisfying `p`. -/
def IsFirst {β : Type*} (p : β → Prop) (l : List β) (i : ℕ) : Prop :=
  (∃ x, l[i]? = some x ∧ p x) ∧ ∀ j < i, ∀ x, l[j]? = some x → ¬ p x

theorem isFirst_firstIdx (ar : List (Row α)) (v : α) (h : v ∈ ar.map Prod.fst) : IsFirst (fun r => r.1 = v) ar (firstIdx ar v) := by
  obtain ⟨r, hr, rfl⟩ := List.mem_map.1 h
  unfold firstIdx
  have hlt : ar.findIdx (fun x => x.1 = r.1) < ar.length := List.findIdx_lt_length_of_exists ⟨r, hr, by simp⟩
  refine ⟨⟨_, List.getElem?_eq_getElem hlt, ?_⟩, fun j hj x hx => ?_⟩
  · have := List.findIdx_getElem (w := hlt)
    simpa using this
  · have := List.not_of_lt_findIdx hj
    rw [List.getElem?_eq_some_iff] at hx
    obtain ⟨_, rfl⟩ := hx
    simpa using this

theorem isFirst_unique {β : Type*} (p : β → Prop) (l : List β) (i j : ℕ) (hi : IsFirst p l i) (hj : IsFirst p l j) : i = j := by
  rcases Nat.lt_trichotomy i j with h | h | h
  · obtain ⟨x, h1, h2⟩ := hi.1; exact absurd h2 (hj.2 i h x h1)
  · exact h
  · obtain ⟨x, h1, h2⟩ := hj.1; exact absurd h2 (hi.2 j h x h1)

/-- What `intersect2d` returns, exactly: a row with its two indices is returned iff it stands at both, and these are the first
rows of their arrays with its value in the first column. -/
theorem mem_intersect2d (ar1 ar2 : List (Row α)) (x : Row α) (i j : ℕ) :
    (x, i, j) ∈ intersect2d ar1 ar2 ↔ ar1[i]? = some x ∧ ar2[j]? = some x ∧
      IsFirst (fun r => r.1 = x.1) ar1 i ∧ IsFirst (fun r => r.1 = x.1) ar2 j := by
  unfold intersect2d intersect1d
  rw [List.mem_filterMap]
  constructor
  · rintro ⟨p, hp, h⟩
    obtain ⟨v, hv, rfl⟩ := List.mem_map.1 hp
    rw [mem_sortSet, Finset.mem_inter, List.mem_toFinset, List.mem_toFinset] at hv
    have f1 := isFirst_firstIdx ar1 v hv.1
    have f2 := isFirst_firstIdx ar2 v hv.2
    obtain ⟨a, ha, ha2⟩ := f1.1
    obtain ⟨b, hb, hb2⟩ := f2.1
    simp only at h
    rw [ha, hb] at h
    simp only at h
    split at h
    · next hab =>
      subst hab
      simp only [Option.some.injEq, Prod.mk.injEq] at h
      obtain ⟨rfl, rfl, rfl⟩ := h
      subst ha2
      exact ⟨ha, hb, f1, f2⟩
    · cases h
  · rintro ⟨h1, h2, h3, h4⟩
    have m1 : x.1 ∈ ar1.map Prod.fst := List.mem_map.2 ⟨x, List.mem_of_getElem? h1, rfl⟩
    have m2 : x.1 ∈ ar2.map Prod.fst := List.mem_map.2 ⟨x, List.mem_of_getElem? h2, rfl⟩
    refine ⟨(i, j), List.mem_map.2 ⟨x.1, ?_, ?_⟩, ?_⟩
    · rw [mem_sortSet, Finset.mem_inter, List.mem_toFinset, List.mem_toFinset]; exact ⟨m1, m2⟩
    · rw [isFirst_unique _ _ _ _ (isFirst_firstIdx ar1 x.1 m1) h3, isFirst_unique _ _ _ _ (isFirst_firstIdx ar2 x.1 m2) h4]
    · simp only
      rw [h1, h2]
      simp

/-- The returned rows have strictly increasing first values: they are sorted and distinct. -/
theorem intersect2d_sorted (ar1 ar2 : List (Row α)) :
    ((intersect2d ar1 ar2).map (fun r => r.1)).Pairwise (fun x y => x.1 < y.1) := by
  have hfm : ∀ (L : List α), L.Pairwise (· < ·) → (∀ v ∈ L, v ∈ ar1.map Prod.fst) →
      ((((L.map (fun v => (firstIdx ar1 v, firstIdx ar2 v))).filterMap (fun p : ℕ × ℕ =>
        match ar1[p.1]?, ar2[p.2]? with
        | some x, some y => if x = y then some (x, p) else none
        | _, _ => none)).map (fun r => r.1)).Pairwise (fun x y => x.1 < y.1) ∧
      ∀ r ∈ (((L.map (fun v => (firstIdx ar1 v, firstIdx ar2 v))).filterMap (fun p : ℕ × ℕ =>
        match ar1[p.1]?, ar2[p.2]? with
        | some x, some y => if x = y then some (x, p) else none
        | _, _ => none)).map (fun r => r.1)), r.1 ∈ L) := by
    intro L
    induction L with
    | nil => intro _ _; simp
    | cons v L ih =>
      intro hp hm
      rw [List.pairwise_cons] at hp
      obtain ⟨h1, h2⟩ := ih hp.2 (fun w hw => hm w (List.mem_cons_of_mem _ hw))
      obtain ⟨a, ha, ha2⟩ := (isFirst_firstIdx ar1 v (hm v List.mem_cons_self)).1
      rw [List.map_cons, List.filterMap_cons]
      simp only [ha]
      cases hb : ar2[firstIdx ar2 v]? with
      | none => exact ⟨h1, fun r hr => List.mem_cons_of_mem _ (h2 r hr)⟩
      | some b =>
        simp only
        by_cases hab : a = b
        · rw [if_pos hab]
          simp only [List.map_cons, List.pairwise_cons, List.mem_cons]
          refine ⟨⟨fun r hr => ?_, h1⟩, fun r hr => ?_⟩
          · rw [ha2]; exact hp.1 _ (h2 r hr)
          · rcases hr with rfl | hr
            · exact Or.inl ha2
            · exact Or.inr (h2 r hr)
        · rw [if_neg hab]
          exact ⟨h1, fun r hr => List.mem_cons_of_mem _ (h2 r hr)⟩
  unfold intersect2d intersect1d
  refine (hfm _ ?_ (fun v hv => ?_)).1
  · exact strict_sortSet _
  · rw [mem_sortSet, Finset.mem_inter, List.mem_toFinset] at hv
    exact hv.1

/-- C09, what holds for all arrays: each returned row stands in both arrays, its indices are those of its first occurrences, and
the rows are sorted and distinct. Missing: common rows can be lost (`intersect2d_loses`). -/
theorem intersect2d_partial (ar1 ar2 : List (Row α)) :
    (∀ x i j, (x, i, j) ∈ intersect2d ar1 ar2 → IsFirst (fun r => r = x) ar1 i ∧ IsFirst (fun r => r = x) ar2 j) ∧
    ((intersect2d ar1 ar2).map (fun r => r.1)).Pairwise (fun x y => x.1 < y.1) := by
  refine ⟨fun x i j h => ?_, intersect2d_sorted ar1 ar2⟩
  obtain ⟨h1, h2, h3, h4⟩ := (mem_intersect2d ar1 ar2 x i j).1 h
  exact ⟨⟨⟨x, h1, rfl⟩, fun k hk y hy hyx => h3.2 k hk y hy (by rw [hyx])⟩,
    ⟨x, h2, rfl⟩, fun k hk y hy hyx => h4.2 k hk y hy (by rw [hyx])⟩

/-- C09 when no value is repeated in the first column of either array: all the common rows are returned. -/
theorem intersect2d_complete (ar1 ar2 : List (Row α)) (h1 : (ar1.map Prod.fst).Nodup) (h2 : (ar2.map Prod.fst).Nodup) (x : Row α) :
    (∃ i j, (x, i, j) ∈ intersect2d ar1 ar2) ↔ x ∈ ar1 ∧ x ∈ ar2 := by
  constructor
  · rintro ⟨i, j, h⟩
    obtain ⟨g1, g2, _⟩ := (mem_intersect2d ar1 ar2 x i j).1 h
    exact ⟨List.mem_of_getElem? g1, List.mem_of_getElem? g2⟩
  · rintro ⟨g1, g2⟩
    have key : ∀ ar : List (Row α), (ar.map Prod.fst).Nodup → x ∈ ar →
        ∃ i, ar[i]? = some x ∧ IsFirst (fun r => r.1 = x.1) ar i := by
      intro ar hn hx
      have hf := isFirst_firstIdx ar x.1 (List.mem_map.2 ⟨x, hx, rfl⟩)
      obtain ⟨y, hy, hy2⟩ := hf.1
      have := List.inj_on_of_nodup_map hn (List.mem_of_getElem? hy) hx hy2
      exact ⟨_, hy.trans (congrArg some this), hf⟩
    obtain ⟨i, hi, hi2⟩ := key ar1 h1 g1
    obtain ⟨j, hj, hj2⟩ := key ar2 h2 g2
    exact ⟨i, j, (mem_intersect2d ar1 ar2 x i j).2 ⟨hi, hj, hi2, hj2⟩⟩

/-- C09 fails: the common row `[1, 3]` of `[[1, 2], [1, 3]]` and `[[1, 3]]` is not returned. -/
theorem intersect2d_loses :
    intersect2d [(1, [2]), (1, [3])] [(1, [3])] = [] ∧ ((1, [3]) : Row ℕ) ∈ [(1, [2]), (1, [3])] := by decide

example : intersect2d [(3, [5]), (1, [2]), (2, [7])] [(2, [7]), (0, [0]), (3, [5]), (1, [9])] =
    [((2, [7]), 2, 0), ((3, [5]), 0, 2)] := by decide

end Verif.Intersect
