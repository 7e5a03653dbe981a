import Verif.Slim.Props

/-!
# Where `SLIM.fit` stops (C112)
-/

set_option autoImplicit false
set_option linter.unusedSectionVars false

namespace Verif.Slim

variable {α κ V : Type*} [LinearOrder α] [LinearOrder κ] [LinearOrder V]

/-- No candidate was accepted: each was evaluated and none decreases the size. -/
theorem tryCandidates_none (P : Params α κ V) (choose : Finset α → Chooser α) (st : State α V) (cs : List (Finset α × ℚ))
    (h : tryCandidates P choose st cs = some (.ok none)) :
    ∀ c ∈ cs, ∃ size tab, evaluate P (choose c.1) st c.1 = some (.ok (size, tab)) ∧ st.size ≤ size := by
  induction cs with
  | nil => exact fun c hc => nomatch hc
  | cons c cs ih =>
    unfold tryCandidates at h
    cases he : evaluate P (choose c.1) st c.1 with
    | none => rw [he] at h; cases h
    | some r =>
      rw [he] at h
      cases r with
      | error e => cases h
      | ok r =>
        simp only at h
        by_cases hlt : r.1 < st.size
        · rw [if_pos hlt] at h; cases h
        · rw [if_neg hlt] at h
          intro d hd
          rcases List.mem_cons.1 hd with rfl | hd
          · exact ⟨r.1, r.2, he, not_lt.1 hlt⟩
          · exact ih h d hd

/-- How the main loop ends. -/
theorem fitLoop_end (P : Params α κ V) (O : Oracle α) (n i : ℕ) (st0 st : State α V) (h : fitLoop P O n i st0 = some (.ok st)) :
    (∃ j, O.timeUp j = true) ∨ ∃ j, tryCandidates P (O.choose j) st
      (generateCandidates (O.gain j (O.enum j st.ct)) (O.enum j st.ct) (st.ct.map Prod.fst).toFinset).1 = some (.ok none) := by
  induction n generalizing i st0 with
  | zero => cases h
  | succ n ih =>
    unfold fitLoop at h
    simp only at h
    cases ht : tryCandidates P (O.choose i) st0
        (generateCandidates (O.gain i (O.enum i st0.ct)) (O.enum i st0.ct) (st0.ct.map Prod.fst).toFinset).1 with
    | none => rw [ht] at h; cases h
    | some r =>
      rw [ht] at h
      cases r with
      | error e => cases h
      | ok r =>
        cases r with
        | none => cases h; exact Or.inr ⟨i, ht⟩
        | some st2 =>
          simp only at h
          by_cases hu : O.timeUp i = true
          · exact Or.inl ⟨i, hu⟩
          · rw [if_neg hu] at h; exact ih _ _ h

/-- The first element of a list with a property. -/
theorem exists_first {β : Type*} (p : β → Prop) (l : List β) (x : β) (hx : x ∈ l) (hp : p x) :
    ∃ l1 y l2, l = l1 ++ y :: l2 ∧ p y ∧ ∀ z ∈ l1, ¬ p z := by
  classical
  induction l with
  | nil => cases hx
  | cons a l ih =>
    by_cases ha : p a
    · exact ⟨[], a, l, rfl, ha, fun z hz => nomatch hz⟩
    · rcases List.mem_cons.1 hx with rfl | hx
      · exact absurd hp ha
      · obtain ⟨l1, y, l2, h1, h2, h3⟩ := ih hx
        refine ⟨a :: l1, y, l2, by rw [h1]; rfl, h2, fun z hz => ?_⟩
        rcases List.mem_cons.1 hz with rfl | hz
        · exact ha
        · exact h3 z hz

theorem mem_orderedPairs_iff {β : Type*} (l : List β) (x y : β) (hx : x ∈ l) (hy : y ∈ l) (hne : x ≠ y) :
    (x, y) ∈ orderedPairs l ∨ (y, x) ∈ orderedPairs l := by
  induction l with
  | nil => cases hx
  | cons a l ih =>
    unfold orderedPairs
    simp only [List.mem_append, List.mem_map, Prod.mk.injEq]
    rcases List.mem_cons.1 hx with h1 | h1
    · rcases List.mem_cons.1 hy with h2 | h2
      · exact absurd (h1.trans h2.symm) hne
      · exact Or.inl (Or.inl ⟨y, h2, h1.symm, rfl⟩)
    · rcases List.mem_cons.1 hy with h2 | h2
      · exact Or.inr (Or.inl ⟨x, h1, h2.symm, rfl⟩)
      · rcases ih h1 h2 with h | h
        · exact Or.inl (Or.inr h)
        · exact Or.inr (Or.inr h)

/-- C112. Without a time limit, `fit` ends with a code table that no further union improves: for any two itemsets of the table used
together in a transaction, whose union `Z` is not in the table, either inserting `Z` (and pruning) gives a total size that is not
smaller, or the estimated gain of a pair of used itemsets with this union is not positive. `j` is the last turn. -/
theorem fit_local_optimum (P : Params α κ V) (O : Oracle α) (hO : OracleOk O) (items : List α) (D : List (List α)) (fuel : ℕ)
    (st : State α V) (h : fit P O items fuel D = some (.ok st)) (hlim : ∀ j, O.timeUp j = false) :
    ∃ j, ∀ x ∈ st.ct, ∀ y ∈ st.ct, x ≠ y → (∃ t, t ∈ x.2 ∧ t ∈ y.2) → (∀ e ∈ st.ct, e.1 ≠ x.1 ∪ y.1) →
      (∃ size tab, evaluate P (O.choose j (x.1 ∪ y.1)) st (x.1 ∪ y.1) = some (.ok (size, tab)) ∧ st.size ≤ size) ∨
      ∃ a ∈ st.ct, ∃ b ∈ st.ct, a.1 ∪ b.1 = x.1 ∪ y.1 ∧ (∃ t, t ∈ a.2 ∧ t ∈ b.2) ∧ O.gain j (O.enum j st.ct) a b ≤ 0 := by
  rcases fitLoop_end P O fuel 0 _ st h with ⟨j, hj⟩ | ⟨j, hj⟩
  · rw [hlim] at hj; cases hj
  refine ⟨j, fun x hx y hy hne hco hnew => ?_⟩
  have hall := tryCandidates_none P (O.choose j) st _ hj
  have hperm := hO.1 j st.ct
  have hpair : ∃ p ∈ orderedPairs (O.enum j st.ct), CoUsed p ∧ p.1.1 ∪ p.2.1 = x.1 ∪ y.1 := by
    obtain ⟨t, h1, h2⟩ := hco
    rcases mem_orderedPairs_iff (O.enum j st.ct) x y (hperm.mem_iff.2 hx) (hperm.mem_iff.2 hy) hne with hp | hp
    · exact ⟨(x, y), hp, ⟨t, Finset.mem_inter.2 ⟨h1, h2⟩⟩, rfl⟩
    · exact ⟨(y, x), hp, ⟨t, Finset.mem_inter.2 ⟨h2, h1⟩⟩, Finset.union_comm _ _⟩
  obtain ⟨p0, hp0, hp0'⟩ := hpair
  obtain ⟨l1, p, l2, e1, ⟨e2, e3⟩, e4⟩ := exists_first (fun p => CoUsed p ∧ p.1.1 ∪ p.2.1 = x.1 ∪ y.1) _ p0 hp0 hp0'
  have hpm := mem_orderedPairs (O.enum j st.ct) p (by rw [e1]; simp)
  by_cases hg : 0 < O.gain j (O.enum j st.ct) p.1 p.2
  · left
    have hc : (p.1.1 ∪ p.2.1, O.gain j (O.enum j st.ct) p.1 p.2) ∈
        (generateCandidates (O.gain j (O.enum j st.ct)) (O.enum j st.ct) (st.ct.map Prod.fst).toFinset).1 := by
      refine (mem_generateCandidates _ _ _ _).2 ⟨l1, p, l2, e1, e2, rfl, ?_, fun q hq hqc hqe => ?_, hg⟩
      · simp only [List.mem_toFinset, List.mem_map, not_exists, not_and]
        intro e he hee
        exact hnew e he (hee.trans e3)
      · exact e4 q hq ⟨hqc, hqe.trans e3⟩
    have := hall _ hc
    simp only [e3] at this
    exact this
  · right
    refine ⟨p.1, hperm.mem_iff.1 hpm.1, p.2, hperm.mem_iff.1 hpm.2, e3, ?_, not_lt.1 hg⟩
    obtain ⟨t, ht⟩ := e2
    exact ⟨t, Finset.mem_inter.1 ht⟩

/-- A run that ends while two itemsets are used together: with a cost of 3 per used itemset and 1 per use, inserting `{1, 2}` pays and
inserting `{2, 3}` does not. -/
example :
    let P : Params ℕ ℕ ℕ := ⟨fun X => 10 - X.card, fun tab => (tab.map (fun e => 3 + e.2.card)).sum,
      fun sct => (sct.map (fun e => 3 + e.2.card)).sum, false⟩
    let r := (fit P ⟨fun _ tab => tab, fun _ _ _ _ => 1, fun _ _ => exChoose, fun _ => false⟩ [] 5
      [[1, 2], [1, 2], [2, 3], [3], [2]]).bind Except.toOption
    r.map (fun st => (showTable st.ct, st.size)) = some ([([1, 2], [0, 1]), ([2], [2, 4]), ([1], []), ([3], [2, 3])], 15) ∧
    r.map (fun st => ((evaluate P exChoose st {2, 3}).bind Except.toOption).map Prod.fst) = some (some 17) := by
  decide +kernel

end Verif.Slim
