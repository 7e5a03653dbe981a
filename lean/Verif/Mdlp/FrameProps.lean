import Verif.Mdlp.FrameModel
import Verif.Mdlp.UnitProps
import Verif.Mdlp.Props

/-!
# Every feature is discretised on its own (C155)
-/

set_option autoImplicit false
set_option linter.unusedSectionVars false

namespace Verif.Mdlp

variable {ν : Type*} [DecidableEq ν]

/-! ## Specification -/

/-- The table with the chosen columns, in the chosen order; a column may be chosen several times or not at all. -/
def choose (sel : List ℕ) (rows : List (List ℚ × ℕ)) : List (List ℚ × ℕ) := rows.map (fun r => (sel.map (fun j => r.1.getD j 0), r.2))

/-- A column of the table with the labels. -/
def columnOf (j : ℕ) (rows : List (List ℚ × ℕ)) : List (List ℚ × ℕ) := choose [j] rows

/-! ## Lemmas -/

theorem shuffle_map (g : List ℚ × ℕ → List ℚ × ℕ) (π : List ℕ) (rows : List (List ℚ × ℕ)) : shuffle π (rows.map g) = (shuffle π rows).map g := by
  unfold shuffle
  rw [List.map_filterMap]
  simp

theorem shuffle_perm {π : List ℕ} {rows : List (List ℚ × ℕ)} (h : π.Perm (List.range rows.length)) : (shuffle π rows).Perm rows := by
  have h1 := h.filterMap (fun i => rows[i]?)
  refine h1.trans (List.Perm.of_eq ?_)
  refine List.ext_getElem? (fun i => ?_)
  have : ∀ (l : List (List ℚ × ℕ)), (List.range l.length).filterMap (fun i => l[i]?) = l := by
    intro l
    have e : (List.range l.length).filterMap (fun i => l[i]?) = ((List.range l.length).map (fun i => l[i]?)).reduceOption := by
      simp [List.reduceOption, List.filterMap_map]
    rw [e]
    have e2 : (List.range l.length).map (fun i => l[i]?) = l.map some := by
      refine List.ext_getElem (by simp) (fun i h1 h2 => ?_)
      simp at h1
      simp [h1]
    rw [e2]
    simp [List.reduceOption, List.filterMap_map]
  rw [this]

theorem column_ok (fuel : ℕ) (s : List (ℚ × ℕ)) (hne : s ≠ []) (hfuel : 2 * s.length ≤ fuel) : ∃ c, fitColumn fuel s = some (.ok c) ∧ c.Pairwise (· < ·) := by
  obtain ⟨c, h1, h2, -⟩ := fit_cuts_any (scoreOf (s.map Prod.snd)) (betterOf (s.map Prod.snd)) s s hne (List.Perm.refl _) fuel hfuel
  exact ⟨c, h1, h2⟩

/-- The cut points of every column, whatever the number of columns. -/
theorem all_columns (fuel : ℕ) (π : List ℕ) (order : List (ℚ × ℕ) → List (ℚ × ℕ)) (ho : Sorts order) (rows : List (List ℚ × ℕ)) (hne : rows ≠ []) (hp : π.Perm (List.range rows.length)) (hfuel : 2 * rows.length ≤ fuel) :
    ∃ c : ℕ → List ℚ, (∀ j, (c j).Pairwise (· < ·)) ∧ (∀ j, fitColumn fuel (order ((shuffle π rows).map (fun r => (r.1.getD j 0, r.2)))) = some (.ok (c j))) := by
  have key : ∀ j, ∃ c, fitColumn fuel (order ((shuffle π rows).map (fun r => (r.1.getD j 0, r.2)))) = some (.ok c) ∧ c.Pairwise (· < ·) := by
    intro j
    have hl : (order ((shuffle π rows).map (fun r => (r.1.getD j 0, r.2)))).length = rows.length := by rw [(ho _).1.length_eq, List.length_map, (shuffle_perm hp).length_eq]
    refine column_ok fuel _ (fun e => hne ?_) (by rw [hl]; exact hfuel)
    rw [e] at hl
    exact List.length_eq_zero_iff.1 hl.symm
  choose c h1 h2 using key
  exact ⟨c, h2, h1⟩

theorem fit_chosen {fuel : ℕ} {π : List ℕ} {order : List (ℚ × ℕ) → List (ℚ × ℕ)} {rows : List (List ℚ × ℕ)} {c : ℕ → List ℚ} (hc : ∀ j, fitColumn fuel (order ((shuffle π rows).map (fun r => (r.1.getD j 0, r.2)))) = some (.ok (c j)))
    (sel : List ℕ) : fitAll fuel sel.length (shuffle π) order (choose sel rows) = some (.ok (sel.map c)) := by
  unfold fitAll
  have h := mapM_some_all (fun j => fitColumn fuel (order ((shuffle π (choose sel rows)).map (fun r => (r.1.getD j 0, r.2))))) (List.range sel.length) (fun j => c (sel.getD j 0)) (by
    intro j hj
    have hj := List.mem_range.1 hj
    rw [choose, shuffle_map, List.map_map, ← hc (sel.getD j 0)]
    congr 2
    refine List.map_congr_left (fun r _ => ?_)
    simp [hj])
  rw [h]
  congr 2
  refine List.ext_getElem (by simp) (fun i h1 h2 => ?_)
  simp only [List.length_map, List.length_range] at h1
  simp [h1]

theorem fit_plain {fuel width : ℕ} {π : List ℕ} {order : List (ℚ × ℕ) → List (ℚ × ℕ)} {rows : List (List ℚ × ℕ)} {c : ℕ → List ℚ} (hc : ∀ j, fitColumn fuel (order ((shuffle π rows).map (fun r => (r.1.getD j 0, r.2)))) = some (.ok (c j))) :
    fitAll fuel width (shuffle π) order rows = some (.ok ((List.range width).map c)) := by
  unfold fitAll
  exact mapM_some_all _ _ c (fun j _ => hc j)

theorem setKey_new (d : List (ν × List ℚ)) (k : ν) (v : List ℚ) (h : k ∉ d.map Prod.fst) : setKey d k v = d ++ [(k, v)] := by rw [setKey, if_neg h]

theorem cutDict_distinct (names : List ν) (cuts : List (List ℚ)) (hn : names.Nodup) (hl : cuts.length = names.length) : cutDict names cuts = names.zip cuts := by
  have key : ∀ (l d : List (ν × List ℚ)), ((d ++ l).map Prod.fst).Nodup → l.foldl (fun d e => setKey d e.1 e.2) d = d ++ l := by
    intro l
    induction l with
    | nil => intro d _; simp
    | cons x l ih =>
      intro d h
      have hx : x.1 ∉ d.map Prod.fst := by
        rw [List.map_append, List.nodup_append] at h
        intro hm
        exact h.2.2 _ hm x.1 (by simp) rfl
      rw [List.foldl_cons, setKey_new d x.1 x.2 hx, ih (d ++ [(x.1, x.2)]) (by simpa using h)]
      simp
  have := key (names.zip cuts) [] (by rw [List.nil_append, List.map_fst_zip (by omega)]; exact hn)
  simpa [cutDict] using this

theorem setKey_keys (d : List (ν × List ℚ)) (k : ν) (v : List ℚ) : (setKey d k v).map Prod.fst = if k ∈ d.map Prod.fst then d.map Prod.fst else d.map Prod.fst ++ [k] := by
  unfold setKey
  split
  · rw [List.map_map]
    refine List.map_congr_left (fun e _ => ?_)
    simp only [Function.comp]
    split
    · next h => exact h.symm
    · rfl
  · simp

theorem foldl_keys : ∀ (l d : List (ν × List ℚ)), (d.map Prod.fst).Nodup → ((l.foldl (fun d e => setKey d e.1 e.2) d).map Prod.fst).Nodup ∧
    (∀ k, k ∈ (l.foldl (fun d e => setKey d e.1 e.2) d).map Prod.fst ↔ k ∈ d.map Prod.fst ∨ k ∈ l.map Prod.fst)
  | [], d, h => ⟨h, by simp⟩
  | x :: l, d, h => by
    have h1 : ((setKey d x.1 x.2).map Prod.fst).Nodup := by
      rw [setKey_keys]
      split
      · exact h
      · next hx =>
        rw [List.nodup_append]
        refine ⟨h, by simp, ?_⟩
        intro a ha b hb e
        rw [List.mem_singleton] at hb
        rw [e, hb] at ha
        exact hx ha
    obtain ⟨h2, h3⟩ := foldl_keys l (setKey d x.1 x.2) h1
    refine ⟨h2, fun k => ?_⟩
    rw [List.foldl_cons, h3, setKey_keys, List.map_cons, List.mem_cons]
    split
    · next hx =>
      constructor
      · rintro (a | a)
        · exact .inl a
        · exact .inr (.inr a)
      · rintro (a | rfl | a)
        · exact .inl a
        · exact .inl hx
        · exact .inr a
    · rw [List.mem_append, List.mem_singleton]
      tauto

/-! ## Properties -/

/-- C155, features. Fitting on some of the columns, in any order, gives these columns the cut points they get in the fit on all columns: no feature influences another. `π` is the same random permutation of the rows. -/
theorem features_alone (fuel width : ℕ) (π : List ℕ) (order : List (ℚ × ℕ) → List (ℚ × ℕ)) (ho : Sorts order) (rows : List (List ℚ × ℕ)) (hne : rows ≠ []) (hp : π.Perm (List.range rows.length)) (hfuel : 2 * rows.length ≤ fuel)
    (sel : List ℕ) (hs : ∀ j ∈ sel, j < width) : ∃ cuts, fitAll fuel width (shuffle π) order rows = some (.ok cuts) ∧ cuts.length = width ∧ ∃ cuts', fitAll fuel sel.length (shuffle π) order (choose sel rows) = some (.ok cuts') ∧
      cuts'.length = sel.length ∧ ∀ (i j : ℕ), sel[i]? = some j → cuts'[i]? = cuts[j]? := by
  obtain ⟨c, -, hc⟩ := all_columns fuel π order ho rows hne hp hfuel
  refine ⟨_, fit_plain hc, by simp, _, fit_chosen hc sel, by simp, fun i j hij => ?_⟩
  rw [List.getElem?_map, hij, List.getElem?_map, List.getElem?_range (hs j (List.mem_of_getElem? hij))]

/-- Full statement (C155): `fit_transform` on a data frame gives every column the codes of a fit on that column alone, under its own name. Proved for distinct column names. Missing: repeated names (`repeated_names`), where it fails. -/
theorem frame_alone_partial (fuel : ℕ) (π : List ℕ) (order : List (ℚ × ℕ) → List (ℚ × ℕ)) (ho : Sorts order) (names : List ν) (hn : names.Nodup) (rows : List (List ℚ × ℕ)) (hne : rows ≠ []) (hp : π.Perm (List.range rows.length))
    (hfuel : 2 * rows.length ≤ fuel) : ∃ d out, fitFrame fuel π order names rows = some (.ok d) ∧ d.map Prod.fst = names ∧ transformFrame d names (rows.map Prod.fst) = .ok (names, out) ∧ out.length = rows.length ∧
      ∀ j, j < names.length → ∃ c, fitAll fuel 1 (shuffle π) order (columnOf j rows) = some (.ok [c]) ∧ ∀ (t : ℕ) (r : List ℚ × ℕ), rows[t]? = some r → ∃ codes, out[t]? = some codes ∧ codes[j]? = some (c.countP (· < r.1.getD j 0)) := by
  obtain ⟨c, hs, hc⟩ := all_columns fuel π order ho rows hne hp hfuel
  have hd : cutDict names ((List.range names.length).map c) = names.zip ((List.range names.length).map c) := cutDict_distinct _ _ hn (by simp)
  have hf : (names.zip ((List.range names.length).map c)).map Prod.fst = names := List.map_fst_zip (by simp)
  have hsn : (names.zip ((List.range names.length).map c)).map Prod.snd = (List.range names.length).map c := List.map_snd_zip (by simp)
  refine ⟨cutDict names ((List.range names.length).map c), rows.map (fun r => (List.range names.length).map (fun j => (c j).countP (· < r.1.getD j 0))), ?_, ?_, ?_, by simp, ?_⟩
  · rw [fitFrame, fit_plain hc]
    rfl
  · rw [hd, hf]
  · rw [hd]
    unfold transformFrame transformArray
    rw [if_pos (by rw [hf]), hsn, if_pos (by simp)]
    simp only
    rw [if_pos (by simp)]
    congr 2
    rw [List.map_map]
    refine List.map_congr_left (fun r _ => ?_)
    simp only [Function.comp]
    rw [List.zipIdx_map, List.map_map]
    refine List.ext_getElem (by simp) (fun i h1 h2 => ?_)
    simp only [List.getElem_map, List.getElem_zipIdx, List.getElem_range, Function.comp, Prod.map, id, Nat.zero_add]
    exact searchSorted_count _ _ ((hs i).imp le_of_lt)
  · intro j hj
    refine ⟨c j, fit_chosen hc [j], fun t r ht => ?_⟩
    refine ⟨(List.range names.length).map (fun j => (c j).countP (· < r.1.getD j 0)), by rw [List.getElem?_map, ht]; rfl, ?_⟩
    rw [List.getElem?_map, List.getElem?_range hj]
    rfl

/-- C155 fails for every data frame with a repeated column name: the fit succeeds, keeps fewer lists of cut points than there are columns, and `transform` raises `ValueError` on the fitted frame itself. -/
theorem repeated_names (fuel : ℕ) (π : List ℕ) (order : List (ℚ × ℕ) → List (ℚ × ℕ)) (ho : Sorts order) (names : List ν) (hn : ¬ names.Nodup) (rows : List (List ℚ × ℕ)) (hne : rows ≠ []) (hp : π.Perm (List.range rows.length))
    (hfuel : 2 * rows.length ≤ fuel) : ∃ d, fitFrame fuel π order names rows = some (.ok d) ∧ d.length < names.length ∧ transformFrame d names (rows.map Prod.fst) = .error .value := by
  obtain ⟨c, -, hc⟩ := all_columns fuel π order ho rows hne hp hfuel
  have hf : (names.zip ((List.range names.length).map c)).map Prod.fst = names := List.map_fst_zip (by simp)
  obtain ⟨h1, h2⟩ := foldl_keys (names.zip ((List.range names.length).map c)) [] (by simp)
  have hmem : ((cutDict names ((List.range names.length).map c)).map Prod.fst).toFinset = names.toFinset := by
    ext k
    rw [List.mem_toFinset, List.mem_toFinset, cutDict, h2, hf]
    simp
  have hlen : (cutDict names ((List.range names.length).map c)).length < names.length := by
    have e1 := List.toFinset_card_of_nodup h1
    have e2 : names.toFinset.card < names.length := lt_of_le_of_ne (List.toFinset_card_le names) (fun e => hn (by
      exact Multiset.toFinset_card_eq_card_iff_nodup.1 e))
    rw [← List.length_map (f := Prod.fst)]
    unfold cutDict at hmem ⊢
    rw [← e1, hmem]
    exact e2
  refine ⟨cutDict names ((List.range names.length).map c), ?_, hlen, ?_⟩
  · rw [fitFrame, fit_plain hc]
    rfl
  · unfold transformFrame transformArray
    rw [if_pos hmem, if_pos (by rw [List.length_map]; omega)]
    simp only
    rw [if_neg (by omega)]

/-! ## Examples -/

/-- Three rows, two columns, a permutation of the rows, a choice of columns. -/
example : [2, 0, 1].Perm (List.range [([1, 5], 0), ([1, 7], 0), ([(2 : ℚ), 6], 1)].length) ∧ shuffle [2, 0, 1] [([1, 5], 0), ([1, 7], 0), ([2, 6], 1)] = [([2, 6], 1), ([1, 5], 0), ([1, 7], 0)] ∧
    choose [1, 0, 1] [([1, 5], 0), ([2, 6], 1)] = [([5, 1, 5], 0), ([6, 2, 6], 1)] := by
  refine ⟨by decide, ?_, ?_⟩ <;> rfl

theorem stable_sorts : Sorts stable := fun l => ⟨List.perm_insertionSort _ _, by
  haveI : Std.Total (fun a b : ℚ × ℕ => a.1 ≤ b.1) := ⟨fun a b => le_total a.1 b.1⟩
  haveI : IsTrans (ℚ × ℕ) (fun a b => a.1 ≤ b.1) := ⟨fun _ _ _ h h' => le_trans h h'⟩
  exact List.pairwise_insertionSort _ _⟩

/-- The hypotheses of `repeated_names` hold. -/
example : ∃ d, fitFrame 6 [2, 0, 1] stable ["a", "a"] [([1, 5], 0), ([1, 7], 0), ([(2 : ℚ), 6], 1)] = some (.ok d) ∧ d.length < 2 ∧ transformFrame d ["a", "a"] [[1, 5], [1, 7], [2, 6]] = .error .value :=
  repeated_names 6 [2, 0, 1] stable stable_sorts ["a", "a"] (by decide) [([1, 5], 0), ([1, 7], 0), ([(2 : ℚ), 6], 1)] (by simp) (by decide) (by simp)

/-- The hypotheses of `frame_alone_partial` hold. -/
example : ∃ d, fitFrame 6 [2, 0, 1] stable ["a", "b"] [([1, 5], 0), ([1, 7], 0), ([(2 : ℚ), 6], 1)] = some (.ok d) ∧ d.map Prod.fst = ["a", "b"] := by
  obtain ⟨d, -, h1, h2, -⟩ := frame_alone_partial 6 [2, 0, 1] stable stable_sorts ["a", "b"] (by decide) [([1, 5], 0), ([1, 7], 0), ([(2 : ℚ), 6], 1)] (by simp) (by decide) (by simp)
  exact ⟨d, h1, h2⟩

end Verif.Mdlp
