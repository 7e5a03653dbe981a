import Verif.Mdlp.UnitLemmas

/-!
# The discretizer and the units of the features (C117)

Source: `/repo/skmine/preprocessing/mdlp_discretizer.py:96-137,186-260`. The models are those of C28 and C97.
-/

set_option autoImplicit false
set_option linter.unusedSectionVars false

namespace Verif.Mdlp

open FI

/-- A row whose value in column `j` is changed by `f j`. -/
def changeRow (f : ℕ → ℚ → ℚ) (r : List ℚ) : List ℚ := r.zipIdx.map (fun x => f x.2 x.1)

/-- Labelled rows with their values changed. -/
def changeRows (f : ℕ → ℚ → ℚ) (rows : List (List ℚ × ℕ)) : List (List ℚ × ℕ) := rows.map (fun r => (changeRow f r.1, r.2))

/-- The order that `order` gives to samples depends on how their values compare, not on the values: it is the same after the changes `f`. -/
def ComparesOnly (order : List (ℚ × ℕ) → List (ℚ × ℕ)) (f : ℚ → ℚ) : Prop := ∀ l, order (revalue f l) = revalue f (order l)

theorem changeRow_getD (f : ℕ → ℚ → ℚ) (r : List ℚ) (j : ℕ) (hj : j < r.length) : (changeRow f r).getD j 0 = f j (r.getD j 0) := by
  unfold changeRow
  rw [List.getD_eq_getElem?_getD, List.getD_eq_getElem?_getD, List.getElem?_map, List.getElem?_zipIdx, List.getElem?_eq_getElem hj]
  simp

/-- Column `j` of the changed rows. -/
theorem column_change (f : ℕ → ℚ → ℚ) (rows : List (List ℚ × ℕ)) (width j : ℕ) (hr : ∀ r ∈ rows, r.1.length = width) (hj : j < width) :
    (changeRows f rows).map (fun r => (r.1.getD j 0, r.2)) = revalue (f j) (rows.map (fun r => (r.1.getD j 0, r.2))) := by
  unfold changeRows revalue
  rw [List.map_map, List.map_map]
  refine List.map_congr_left ?_
  intro r h
  simp only [Function.comp]
  rw [changeRow_getD f r.1 j (by rw [hr r h]; exact hj)]

theorem mapM_some_all {β γ : Type} (F : β → Option (Except Err γ)) : ∀ (l : List β) (c : β → γ), (∀ j ∈ l, F j = some (.ok (c j))) → (l.mapM F).map (fun l => l.mapM id) = some (.ok (l.map c)) := by
  intro l c h
  have e : l.mapM F = some (l.map (fun j => .ok (c j))) := by
    induction l with
    | nil => rfl
    | cons a l ih =>
      rw [List.mapM_cons, h a List.mem_cons_self, ih (fun j hj => h j (List.mem_cons_of_mem _ hj))]
      rfl
  rw [e, Option.map_some, Option.some.injEq]
  clear e h
  induction l with
  | nil => rfl
  | cons a l ih => rw [List.map_cons, List.mapM_cons, ih]; rfl

/-- C117, increasing changes. Every column `j` is changed by a strictly increasing function `f j` of its own (another unit, a logarithm, ranks). With the same shuffle, and a sort that only compares values, `fit` succeeds before and after, and
`fit_transform` gives the same codes. For changes of unit `a x + b` the cut points are the changed cut points, and all new rows get the same codes. -/
theorem increasing_change (f : ℕ → ℚ → ℚ) (hf : ∀ j, StrictMono (f j)) (fuel width : ℕ) (perm : List (List ℚ × ℕ) → List (List ℚ × ℕ)) (order : List (ℚ × ℕ) → List (ℚ × ℕ)) (ho : Sorts order) (hc : ∀ j, j < width → ComparesOnly order (f j))
    (rows : List (List ℚ × ℕ)) (hne : rows ≠ []) (hr : ∀ r ∈ rows, r.1.length = width) (hp : (perm rows).Perm rows) (hp' : perm (changeRows f rows) = changeRows f (perm rows)) (hfuel : 2 * rows.length ≤ fuel) :
    ∃ cuts cuts' : List (List ℚ), fitAll fuel width perm order rows = some (.ok cuts) ∧ fitAll fuel width perm order (changeRows f rows) = some (.ok cuts') ∧
      (∃ codes, transformArray cuts width (rows.map Prod.fst) = .ok codes ∧ transformArray cuts' width ((changeRows f rows).map Prod.fst) = .ok codes) ∧
      (∀ a b : ℕ → ℚ, (∀ j x, f j x = a j * x + b j) → cuts'.length = cuts.length ∧ (∀ (j : ℕ) (cs : List ℚ), cuts[j]? = some cs → cuts'[j]? = some (cs.map (f j))) ∧
        ∀ new : List (List ℚ), (∀ r ∈ new, r.length = width) → transformArray cuts' width (new.map (changeRow f)) = transformArray cuts width new) := by
  obtain ⟨col, hcol⟩ : ∃ col : ℕ → List (ℚ × ℕ), col = fun j => order ((perm rows).map (fun r => (r.1.getD j 0, r.2))) := ⟨_, rfl⟩
  have hcl : ∀ j, (col j).length = rows.length := by
    intro j; rw [hcol]; rw [((ho _).1).length_eq, List.length_map, hp.length_eq]
  have hcol' : ∀ j, j < width → order ((perm (changeRows f rows)).map (fun r => (r.1.getD j 0, r.2))) = revalue (f j) (col j) := by
    intro j hj
    rw [hp', column_change f (perm rows) width j (fun r h => hr r (hp.mem_iff.1 h)) hj, hc j hj, hcol]
  have key : ∀ j, ∃ c c' : List ℚ, fitColumn fuel (col j) = some (.ok c) ∧ fitColumn fuel (revalue (f j) (col j)) = some (.ok c') ∧ c.Pairwise (· < ·) ∧ c'.Pairwise (· < ·) ∧
      (∀ x ∈ col j, c'.countP (· < f j x.1) = c.countP (· < x.1)) ∧ (∀ a b : ℚ, (∀ x, f j x = a * x + b) → c' = c.map (f j)) := by
    intro j
    refine column_revalue (f j) (hf j) (col j) ?_ ?_ fuel (by rw [hcl]; exact hfuel)
    · intro h0
      have := hcl j
      rw [h0] at this
      exact hne (List.length_eq_zero_iff.1 this.symm)
    · rw [hcol]; exact (ho _).2
  choose c c' k1 k2 k3 k4 k5 k6 using key
  have hfit : fitAll fuel width perm order rows = some (.ok ((List.range width).map c)) := by
    unfold fitAll
    refine mapM_some_all _ _ c ?_
    intro j _
    have := k1 j
    rw [hcol] at this
    exact this
  have hfit' : fitAll fuel width perm order (changeRows f rows) = some (.ok ((List.range width).map c')) := by
    unfold fitAll
    refine mapM_some_all _ _ c' ?_
    intro j hj
    rw [hcol' j (List.mem_range.1 hj)]
    exact k2 j
  have hcode : ∀ (d : ℕ → List ℚ), (∀ j, (d j).Pairwise (· < ·)) → ∀ new : List (List ℚ),
      transformArray ((List.range width).map d) width new = .ok (new.map (fun r => (List.range width).map (fun j => (d j).countP (· < r.getD j 0)))) := by
    intro d hd new
    unfold transformArray
    rw [if_pos (by simp)]
    congr 1
    refine List.map_congr_left ?_
    intro r _
    rw [List.zipIdx_map, List.map_map]
    refine List.ext_getElem (by simp) ?_
    intro i h1 h2
    simp only [List.getElem_map, List.getElem_zipIdx, List.getElem_range, Function.comp, Prod.map, id, Nat.zero_add]
    exact searchSorted_count _ _ ((hd i).imp le_of_lt)
  have hsame : transformArray ((List.range width).map c') width ((changeRows f rows).map Prod.fst) = transformArray ((List.range width).map c) width (rows.map Prod.fst) := by
    rw [hcode c k3, hcode c' k4]
    congr 1
    unfold changeRows
    rw [List.map_map, List.map_map, List.map_map]
    refine List.map_congr_left ?_
    intro r h
    simp only [Function.comp]
    refine List.map_congr_left ?_
    intro j hj
    have hj := List.mem_range.1 hj
    rw [changeRow_getD f r.1 j (by rw [hr r h]; exact hj)]
    refine k5 j (r.1.getD j 0, r.2) ?_
    rw [hcol, (ho _).1.mem_iff]
    exact List.mem_map.2 ⟨r, hp.mem_iff.2 h, rfl⟩
  refine ⟨_, _, hfit, hfit', ⟨_, hcode c k3 _, hsame.trans (hcode c k3 _)⟩, ?_⟩
  · intro a b hab
    have hcc : ∀ j, c' j = (c j).map (f j) := fun j => k6 j (a j) (b j) (hab j)
    refine ⟨by simp, ?_, ?_⟩
    · intro j cs h
      rw [List.getElem?_map] at h ⊢
      cases hj : (List.range width)[j]? with
      | none => rw [hj] at h; cases h
      | some i =>
        have hi : i = j := by
          obtain ⟨h1, h2⟩ := List.getElem?_eq_some_iff.1 hj
          rw [List.getElem_range] at h2
          exact h2.symm
        subst hi
        rw [hj] at h
        simp only [Option.map_some, Option.some.injEq] at h ⊢
        rw [hcc, h]
    · intro new hn
      rw [hcode c k3, hcode c' k4, List.map_map]
      congr 1
      refine List.map_congr_left ?_
      intro r h
      simp only [Function.comp]
      refine List.map_congr_left ?_
      intro j hj
      rw [changeRow_getD f r j (by rw [hn r h]; exact List.mem_range.1 hj), hcc, List.countP_map]
      congr 1
      funext x
      simp [(hf j).lt_iff_lt]

/-- C117, classes. Renaming the classes one to one changes no cut point: the numbers that stand for the classes are names. No condition on the data; the sort compares values only, so it gives the same order to the renamed samples. -/
theorem classes_renamed (g : ℕ → ℕ) (hg : Function.Injective g) (fuel width : ℕ) (perm : List (List ℚ × ℕ) → List (List ℚ × ℕ)) (order : List (ℚ × ℕ) → List (ℚ × ℕ))
    (ho : ∀ l, order (l.map (fun x => (x.1, g x.2))) = (order l).map (fun x => (x.1, g x.2))) (rows : List (List ℚ × ℕ))
    (hp : perm (rows.map (fun r => (r.1, g r.2))) = (perm rows).map (fun r => (r.1, g r.2))) :
    fitAll fuel width perm order (rows.map (fun r => (r.1, g r.2))) = fitAll fuel width perm order rows := by
  unfold fitAll
  congr 1
  refine mapM_congr_mem ?_
  intro j _
  rw [hp, List.map_map]
  have e : (perm rows).map ((fun r : List ℚ × ℕ => (r.1.getD j 0, r.2)) ∘ fun r => (r.1, g r.2)) = ((perm rows).map (fun r => (r.1.getD j 0, r.2))).map (fun x => (x.1, g x.2)) := by
    rw [List.map_map]; rfl
  rw [e, ho, fitColumn_labels hg]

/-! ### Examples -/

/-- A stable sort by value. -/
def stable (l : List (ℚ × ℕ)) : List (ℚ × ℕ) := l.insertionSort (fun a b => a.1 ≤ b.1)

example : Sorts stable := fun l => ⟨List.perm_insertionSort _ _, by
  haveI : Std.Total (fun a b : ℚ × ℕ => a.1 ≤ b.1) := ⟨fun a b => le_total a.1 b.1⟩
  haveI : IsTrans (ℚ × ℕ) (fun a b => a.1 ≤ b.1) := ⟨fun _ _ _ h h' => le_trans h h'⟩
  exact List.pairwise_insertionSort _ _⟩

example (f : ℚ → ℚ) (hf : StrictMono f) : ComparesOnly stable f := by
  intro l
  unfold stable revalue
  rw [List.map_insertionSort (r := fun a b : ℚ × ℕ => a.1 ≤ b.1) (s := fun a b : ℚ × ℕ => a.1 ≤ b.1)]
  intro a _ b _
  exact hf.le_iff_le.symm

example (g : ℕ → ℕ) (l : List (ℚ × ℕ)) : stable (l.map (fun x => (x.1, g x.2))) = (stable l).map (fun x => (x.1, g x.2)) := by
  unfold stable
  rw [List.map_insertionSort (r := fun a b : ℚ × ℕ => a.1 ≤ b.1) (s := fun a b : ℚ × ℕ => a.1 ≤ b.1)]
  intro a _ b _
  exact Iff.rfl

/-- Degrees Celsius to Fahrenheit in the first column, cubes in the second. -/
example : ∀ j, StrictMono ((fun j x => if j = 0 then 9 / 5 * x + 32 else x ^ 3 : ℕ → ℚ → ℚ) j) := by
  intro j
  by_cases h : j = 0
  · intro x y hxy
    simp only [h, if_true]
    linarith
  · intro x y hxy
    simp only [if_neg h]
    exact Odd.strictMono_pow (by decide) hxy

/-- Why new rows need a change of unit: between samples 1 and 4 the value 3 is above the midpoint, between their cubes its cube is below. -/
example : ((1 : ℚ) + 4) / 2 < 3 ∧ ¬ ((1 : ℚ) ^ 3 + 4 ^ 3) / 2 < 3 ^ 3 := by norm_num

/-- Rows that meet the hypotheses on the data. -/
example : (∀ r ∈ [([1, 5], 0), ([1, 7], 0), ([(2 : ℚ), 6], 1)], r.1.length = 2) ∧ changeRows (fun j x => if j = 0 then 2 * x else x + 1) [([1, 5], 0), ([(2 : ℚ), 6], 1)] = [([2, 6], 0), ([4, 7], 1)] := by
  constructor
  · decide
  · simp [changeRows, changeRow]
    norm_num

end Verif.Mdlp
