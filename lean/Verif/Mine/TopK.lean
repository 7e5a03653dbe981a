import Verif.Mine.Model

/-!
# The candidates kept for each occurrence (C69)
-/

set_option autoImplicit false
set_option linter.unusedSectionVars false

namespace Verif.Mine

variable {K ω : Type} [LinearOrder K] [DecidableEq ω]

/-- How many times the candidates of a list cover an occurrence. -/
def times (occs : ℕ → List ω) (l : List ℕ) (x : ω) : ℕ := (l.map (fun i => (occs i).count x)).sum

theorem topLoop_spec (occs : ℕ → List ω) (k : ℕ) : ∀ (l : List ℕ) (cnt : ω → ℕ),
    (topLoop occs k cnt l).Sublist l ∧
    (∀ pre i post, l = pre ++ i :: post → l.Nodup → (i ∈ topLoop occs k cnt l ↔ ∃ x ∈ occs i, cnt x + times occs (pre.filter (fun j => decide (j ∈ topLoop occs k cnt l))) x ≤ k)) ∧
    ∀ x, min (k + 1) (cnt x + times occs l x) ≤ cnt x + times occs (topLoop occs k cnt l) x := by
  intro l
  induction l with
  | nil =>
    intro cnt
    refine ⟨List.Sublist.slnil, ?_, ?_⟩
    · intro pre i post h; simp at h
    · intro x; simp [topLoop]
  | cons a l ih =>
    intro cnt
    rw [topLoop]
    split
    · next hc =>
      obtain ⟨h1, h2, h3⟩ := ih (fun x => cnt x + (occs a).count x)
      refine ⟨h1.cons_cons a, ?_, ?_⟩
      · intro pre i post h hn
        obtain ⟨hn1, hn2⟩ := List.nodup_cons.1 hn
        cases pre with
        | nil =>
          simp only [List.nil_append, List.cons.injEq] at h
          obtain ⟨rfl, rfl⟩ := h
          simp only [List.mem_cons, true_or, List.filter_nil, true_iff]
          rw [List.any_eq_true] at hc
          obtain ⟨x, hx, e⟩ := hc
          exact ⟨x, hx, by simpa [times] using e⟩
        | cons b pre =>
          simp only [List.cons_append, List.cons.injEq] at h
          obtain ⟨rfl, rfl⟩ := h
          have hia : i ≠ a := by rintro rfl; exact hn1 (by simp)
          have := h2 pre i post rfl hn2
          rw [List.mem_cons]
          simp only [hia, false_or]
          rw [this]
          have e : (a :: pre).filter (fun j => decide (j ∈ a :: topLoop occs k (fun x => cnt x + (occs a).count x) (pre ++ i :: post))) =
              a :: pre.filter (fun j => decide (j ∈ topLoop occs k (fun x => cnt x + (occs a).count x) (pre ++ i :: post))) := by
            rw [List.filter_cons_of_pos (by simp)]
            congr 1
            apply List.filter_congr
            intro j hj
            have : j ≠ a := by rintro rfl; exact hn1 (by simp [hj])
            simp [this]
          rw [e]
          simp only [times, List.map_cons, List.sum_cons, Nat.add_assoc]
      · intro x
        have := h3 x
        simp only [times, List.map_cons, List.sum_cons] at this ⊢
        omega
    · next hc =>
      obtain ⟨h1, h2, h3⟩ := ih cnt
      have hc' : ∀ x ∈ occs a, k < cnt x := by
        simpa using hc
      refine ⟨h1.cons a, ?_, ?_⟩
      · intro pre i post h hn
        obtain ⟨hn1, hn2⟩ := List.nodup_cons.1 hn
        have hna : a ∉ topLoop occs k cnt l := fun h => hn1 (h1.subset h)
        cases pre with
        | nil =>
          simp only [List.nil_append, List.cons.injEq] at h
          obtain ⟨rfl, rfl⟩ := h
          simp only [hna, List.filter_nil, false_iff, not_exists, not_and]
          intro x hx
          have := hc' x hx
          omega
        | cons b pre =>
          simp only [List.cons_append, List.cons.injEq] at h
          obtain ⟨rfl, rfl⟩ := h
          rw [List.filter_cons_of_neg (by simpa using hna)]
          exact h2 pre i post rfl hn2
      · intro x
        have := h3 x
        by_cases hx : x ∈ occs a
        · have := hc' x hx
          omega
        · simp only [times, List.map_cons, List.sum_cons, List.count_eq_zero_of_not_mem hx, Nat.zero_add] at this ⊢
          exact this

/-- `a` comes before `b` in the order of cost per occurrence, then of number. -/
def Better (ratio : ℕ → K) (a b : ℕ) : Prop := ratio a < ratio b ∨ (ratio a = ratio b ∧ a < b)

instance (ratio : ℕ → K) (a b : ℕ) : Decidable (Better ratio a b) := by unfold Better; infer_instance

/-- C69. Candidates are kept once each, by increasing cost per occurrence; with at most `k` candidates all are kept; otherwise a candidate is kept exactly when one of its occurrences is covered at most `k` times by better kept ones. -/
theorem topKeach_kept (ratio : ℕ → K) (occs : ℕ → List ω) (k n : ℕ) :
    (topKeach ratio occs k n).Nodup ∧ (∀ i ∈ topKeach ratio occs k n, i < n) ∧ (n ≤ k → ∀ i < n, i ∈ topKeach ratio occs k n) ∧
    (k < n → (topKeach ratio occs k n).Pairwise (Better ratio) ∧
      ∀ i < n, (i ∈ topKeach ratio occs k n ↔ ∃ x ∈ occs i, times occs ((topKeach ratio occs k n).filter (fun j => decide (Better ratio j i))) x ≤ k)) := by
  unfold topKeach
  split
  · next h =>
    refine ⟨List.nodup_range, by simp, by simp, by omega⟩
  · next h =>
    have : Std.Total (fun a b : ℕ => toLex (ratio a, a) ≤ toLex (ratio b, b)) := ⟨fun a b => le_total _ _⟩
    have : IsTrans ℕ (fun a b : ℕ => toLex (ratio a, a) ≤ toLex (ratio b, b)) := ⟨fun a b c => le_trans⟩
    obtain ⟨s, hs⟩ : ∃ s, s = (List.range n).insertionSort (fun a b => toLex (ratio a, a) ≤ toLex (ratio b, b)) := ⟨_, rfl⟩
    have hp : s.Perm (List.range n) := by rw [hs]; exact List.perm_insertionSort _ _
    have hsort : s.Pairwise (fun a b => toLex (ratio a, a) ≤ toLex (ratio b, b)) := by rw [hs]; exact List.pairwise_insertionSort _ _
    have hnd : s.Nodup := hp.nodup_iff.2 List.nodup_range
    have hbet : s.Pairwise (Better ratio) := by
      refine (hsort.and hnd).imp ?_
      rintro a b ⟨h1, h2⟩
      rw [Prod.Lex.toLex_le_toLex] at h1
      rcases h1 with h1 | ⟨h1, h3⟩
      · exact Or.inl h1
      · exact Or.inr ⟨h1, lt_of_le_of_ne h3 h2⟩
    rw [← hs]
    obtain ⟨h1, h2, -⟩ := topLoop_spec occs k s (fun _ => 0)
    refine ⟨h1.nodup hnd, fun i hi => List.mem_range.1 (hp.mem_iff.1 (h1.subset hi)), by omega, fun _ => ⟨hbet.sublist h1, ?_⟩⟩
    intro i hi
    obtain ⟨pre, post, e⟩ := List.append_of_mem (hp.mem_iff.2 (List.mem_range.2 hi))
    rw [h2 pre i post e hnd]
    have hasym : ∀ a b, Better ratio a b → ¬ Better ratio b a := by
      rintro a b (h | ⟨h, h'⟩) (g | ⟨g, g'⟩)
      · exact lt_asymm h g
      · exact absurd g h.ne'
      · exact absurd h g.ne'
      · omega
    have hfil : (topLoop occs k (fun _ => 0) s).filter (fun j => decide (Better ratio j i)) = pre.filter (fun j => decide (j ∈ topLoop occs k (fun _ => 0) s)) := by
      obtain ⟨T, hT⟩ : ∃ T, T = topLoop occs k (fun _ => 0) s := ⟨_, rfl⟩
      rw [← hT] at h1 ⊢
      -- a sublist of a list without repetition is the filter of that list
      have hTs : T = s.filter (fun j => decide (j ∈ T)) := by
        have : s.filter (fun j => decide (j ∈ T)) = T := by
          clear hT hs hp hsort hbet e h2
          induction h1 with
          | slnil => rfl
          | cons a h ih =>
            obtain ⟨g1, g2⟩ := List.nodup_cons.1 hnd
            rw [List.filter_cons_of_neg (by simpa using fun hm => g1 (h.subset hm))]
            exact ih g2
          | cons_cons a h ih =>
            obtain ⟨g1, g2⟩ := List.nodup_cons.1 hnd
            rw [List.filter_cons_of_pos (by simp)]
            congr 1
            rw [← ih g2]
            apply List.filter_congr
            intro j hj
            have : j ≠ a := by rintro rfl; exact g1 hj
            rw [ih g2]
            simp [this]
        exact this.symm
      have hb : ∀ j ∈ s, decide (Better ratio j i) = true ↔ j ∈ pre := by
        intro j hj
        rw [e, List.pairwise_append, List.pairwise_cons] at hbet
        obtain ⟨_, ⟨b1, _⟩, b2⟩ := hbet
        rw [e, List.mem_append, List.mem_cons] at hj
        rw [decide_eq_true_eq]
        have hnd' := hnd
        rw [e, List.nodup_append] at hnd'
        rcases hj with hj | rfl | hj
        · exact ⟨fun _ => hj, fun _ => b2 j hj i List.mem_cons_self⟩
        · exact ⟨fun h => absurd h (hasym _ _ h), fun h => absurd rfl (hnd'.2.2 _ h _ List.mem_cons_self)⟩
        · exact ⟨fun h => absurd (b1 j hj) (hasym _ _ h), fun h => absurd rfl (hnd'.2.2 _ h _ (List.mem_cons_of_mem _ hj))⟩
      conv_lhs => rw [hTs]
      rw [List.filter_filter]
      have hpre : ∀ j ∈ pre, decide (Better ratio j i) = true := fun j hj => (hb j (by rw [e]; exact List.mem_append_left _ hj)).2 hj
      conv_lhs => rw [e]
      rw [List.filter_append]
      have hz : (i :: post).filter (fun a => decide (Better ratio a i) && decide (a ∈ T)) = [] := by
        rw [List.filter_eq_nil_iff]
        intro j hj
        have hns : j ∉ pre := by
          intro hjp
          rw [e, List.nodup_append] at hnd
          exact hnd.2.2 j hjp j hj rfl
        have := (hb j (by rw [e]; exact List.mem_append_right _ hj)).not.2 hns
        simp only [Bool.not_eq_true] at this
        simp [this]
      rw [hz, List.append_nil]
      apply List.filter_congr
      intro j hj
      rw [hpre j hj, Bool.true_and]
    rw [hfil]
    simp

/-- C69. Every occurrence is still covered `k + 1` times, or as often as by all the candidates together if that is less. -/
theorem topKeach_covers (ratio : ℕ → K) (occs : ℕ → List ω) (k n : ℕ) (x : ω) :
    min (k + 1) (times occs (List.range n) x) ≤ times occs (topKeach ratio occs k n) x := by
  unfold topKeach
  split
  · exact min_le_right _ _
  · have := (topLoop_spec occs k ((List.range n).insertionSort (fun a b => toLex (ratio a, a) ≤ toLex (ratio b, b))) (fun _ => 0)).2.2 x
    have e : times occs ((List.range n).insertionSort (fun a b => toLex (ratio a, a) ≤ toLex (ratio b, b))) x = times occs (List.range n) x :=
      ((List.perm_insertionSort _ _).map _).sum_eq
    rw [e] at this
    simpa using this

/-- Four candidates, `k = 1`: occurrence 0 is covered twice by the cheaper ones 3 and 1, so candidate 0, which has nothing else, is dropped. -/
example : topKeach (fun i => ([9, 3, 5, 1].getD i 0 : ℕ)) (fun i => [[0], [0, 1], [1, 2], [0]].getD i []) 1 4 = [3, 1, 2] := by decide

end Verif.Mine
