import Verif.Slim.CodesProps

/-!
# `SLIMVectorizer.transform` on different batches (C167)

No further model: `vectTransform` (strategy `one-hot`) and `vectCodes` (strategy `codes`).
-/

set_option autoImplicit false
set_option linter.unusedSectionVars false

namespace Verif.Slim

variable {α κ V : Type*} [LinearOrder α] [LinearOrder κ] [LinearOrder V]

/-- A row is determined by the columns that are set in it. -/
theorem marked_inj (cols : List (Finset α)) (hn : cols.Nodup) (r s : List Bool) (hr : r.length = cols.length) (hs : s.length = cols.length)
    (h : marked cols r = marked cols s) : r = s := by
  have hsub : ∀ (cs : List (Finset α)) (bs : List Bool) (X : Finset α), X ∈ marked cs bs → X ∈ cs := by
    intro cs bs X hX
    unfold marked at hX
    obtain ⟨p, hp, rfl⟩ := List.mem_map.1 hX
    exact (List.of_mem_zip (List.mem_of_mem_filter hp)).1
  induction cols generalizing r s with
  | nil => rw [List.length_nil, List.length_eq_zero_iff] at hr hs; rw [hr, hs]
  | cons X cols ih =>
    obtain ⟨hX, hn⟩ := List.nodup_cons.1 hn
    cases r with
    | nil => cases hr
    | cons a r =>
      cases s with
      | nil => cases hs
      | cons b s =>
        have hm : ∀ (c : Bool) (q : List Bool), marked (X :: cols) (c :: q) = if c then X :: marked cols q else marked cols q := by
          intro c q; cases c <;> rfl
        rw [hm, hm] at h
        simp only [List.length_cons, Nat.add_right_cancel_iff] at hr hs
        cases a <;> cases b <;> simp only [if_true, Bool.false_eq_true, if_false] at h
        · rw [ih hn r s hr hs h]
        · exact absurd (hsub _ _ _ (by rw [h]; exact List.mem_cons_self)) hX
        · exact absurd (hsub _ _ _ (by rw [← h]; exact List.mem_cons_self)) hX
        · rw [ih hn r s hr hs (List.cons.inj h).2]

theorem columns_seen (st : State α V) (hg : Good st.sct st.ct) (k : ℕ) (stop : Finset α) (D D' : List (List α)) (h : seenItems stop D = seenItems stop D') :
    vectColumns st k (toVertical stop D) = vectColumns st k (toVertical stop D') := by
  have h1 : vectEligible st (toVertical stop D) = vectEligible st (toVertical stop D') := by
    rw [eligible_seen st hg, eligible_seen st hg, h]
  have h2 : ∀ vert : Sct α, vectColumns st k vert = ((vectEligible st vert).insertionSort (fun a b => b.2 ≤ a.2)).take k := fun _ => rfl
  rw [h2, h2, h1]

/-- C167 for batches with the same items (missing: other batches, `batch_changes_row`): the columns are the same, and a transaction gets the same row in both, with both strategies. Stop items, the order of the items, repeated items and the place of the
transaction do not matter. -/
theorem batches_alike_partial (items : List α) (D : List (List α)) (st : State α V) (h : Reach (κ := κ) items D st) (k : ℕ) (stop : Finset α) (A B : List (List α))
    (hs : ∀ x, x ∉ stop → ((∃ d ∈ A, x ∈ d) ↔ ∃ d ∈ B, x ∈ d)) :
    ∃ (cols : List (Finset α)) (mA mB : List (List Bool)) (cA cB : List (List (Option ℚ))),
      vectTransform st k stop A = .ok (cols, mA) ∧ vectTransform st k stop B = .ok (cols, mB) ∧
      vectCodes st k stop A = .ok (cols, cA) ∧ vectCodes st k stop B = .ok (cols, cB) ∧
      ∀ (t u : ℕ) (x y : List α), A[t]? = some x → B[u]? = some y → (∀ i, i ∉ stop → (i ∈ x ↔ i ∈ y)) →
        (∃ row, mA[t]? = some row ∧ mB[u]? = some row) ∧ ∃ row, cA[t]? = some row ∧ cB[u]? = some row := by
  obtain ⟨hg, _, _⟩ := reach_inv items D st h
  have hseen : seenItems stop A = seenItems stop B := by
    ext x
    unfold seenItems
    rw [Finset.mem_sdiff, Finset.mem_sdiff, List.mem_toFinset, List.mem_toFinset, List.mem_flatten, List.mem_flatten]
    exact and_congr_left (fun hx => hs x hx)
  have hcols := columns_seen st hg k stop A B hseen
  obtain ⟨⟨c1, mA⟩, a1, a2, a3⟩ := codes_eq (κ := κ) items D st h k stop A
  obtain ⟨⟨c2, mB⟩, b1, b2, b3⟩ := codes_eq (κ := κ) items D st h k stop B
  simp only at a2 b2 a3 b3
  have hc : c2 = c1 := by rw [a2, b2, hcols]
  subst hc
  obtain ⟨cA', mA', a4, a5, -, hn, -, -, a6⟩ := vectorizer_content_partial (κ := κ) items D st h k stop A
  obtain ⟨cB', mB', b4, b5, -, -, -, -, b6⟩ := vectorizer_content_partial (κ := κ) items D st h k stop B
  rw [a1, Except.ok.injEq, Prod.mk.injEq] at a4
  rw [b1, Except.ok.injEq, Prod.mk.injEq] at b4
  obtain ⟨rfl, rfl⟩ := a4
  obtain ⟨rfl, rfl⟩ := b4
  refine ⟨_, mA, mB, _, _, a1, b1, a3, b3, fun t u x y hx hy hxy => ?_⟩
  have hlt : t < mA.length := by
    rw [a5 (by rintro rfl; simp at hx)]
    exact (List.getElem?_eq_some_iff.1 hx).1
  have hlu : u < mB.length := by
    rw [b5 (by rintro rfl; simp at hy)]
    exact (List.getElem?_eq_some_iff.1 hy).1
  have hrA := List.getElem?_eq_getElem hlt
  have hrB := List.getElem?_eq_getElem hlu
  obtain ⟨l1, g1, -⟩ := a6 t _ x hrA hx
  obtain ⟨l2, g2, -⟩ := b6 u _ y hrB hy
  have hset : x.toFinset \ stop = y.toFinset \ stop := by
    ext i
    rw [Finset.mem_sdiff, Finset.mem_sdiff, List.mem_toFinset, List.mem_toFinset]
    exact and_congr_left (fun hi => hxy i hi)
  have hrow : mA[t] = mB[u] := marked_inj _ hn _ _ l1 l2 (by rw [g1, g2, hset])
  refine ⟨⟨_, hrA, by rw [hrB, hrow]⟩, ?_⟩
  rw [List.getElem?_map, List.getElem?_map, hrA, hrB, hrow, hseen]
  exact ⟨_, rfl, rfl⟩

/-- C167 fails: trained on `[1, 2], [1, 2, 3], [3], [3]`, with one column, the transaction `[1, 2]` has its pattern when it comes alone, and none when `[3]` comes with it. -/
theorem batch_changes_row :
    Reach (κ := ℕ) [] [[1, 2], [1, 2, 3], [3], [3]] codesSt ∧
    (vectTransform codesSt 1 ∅ [[1, 2]]).toOption.map (fun r => (r.1.map sortSet, r.2)) = some ([[1, 2]], [[true]]) ∧
    (vectTransform codesSt 1 ∅ [[1, 2], [3]]).toOption.map (fun r => (r.1.map sortSet, r.2)) = some ([[3]], [[false], [true]]) :=
  ⟨codesSt_reach, by decide, by decide⟩

/-- The hypothesis of `batches_alike_partial` on two batches with the items 1, 2, 3, up to the stop item 4. -/
example : (∀ x : ℕ, x ∉ ({4} : Finset ℕ) → ((∃ d ∈ [[1, 2], [3]], x ∈ d) ↔ ∃ d ∈ [[4], [3, 2, 4], [2, 1]], x ∈ d)) := by
  intro x hx
  simp only [Finset.mem_singleton] at hx
  simp only [List.mem_cons, List.not_mem_nil, or_false, exists_eq_or_imp, exists_eq_left]
  omega

end Verif.Slim
