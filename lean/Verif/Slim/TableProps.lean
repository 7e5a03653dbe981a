import Verif.Slim.TableModel
import Verif.Slim.OrderProps

/-!
# SLIM on binary tables (C156, C157)
-/

set_option autoImplicit false
set_option linter.unusedSectionVars false

namespace Verif.Slim

variable {α κ V R : Type*} [LinearOrder α] [LinearOrder κ] [LinearOrder V] [LinearOrder R] [AddCommMonoid R]

/-! ## Specification -/

/-- The transaction of a row: the names of the columns that are true there. -/
def rowItems (tab : List (α × List Bool)) (t : ℕ) : List α :=
  (tab.filter (fun c => decide (c.2[t]? = some true))).map Prod.fst

/-- The transactions of the rows of a table. -/
def rowsOf (tab : List (α × List Bool)) (n : ℕ) : List (List α) := (List.range n).map (rowItems tab)

/-- The rows whose label is not zero, in their order. -/
def labelled (y : List ℤ) (D : List (List α)) : List (List α) := ((D.zip y).filter (fun p => decide (p.2 ≠ 0))).map Prod.fst

/-- Two fits end alike: both do not end, raise the same exception, or give the same code table with the same size, the same known items and the
same supports. -/
def SameFit : Option (Except Err (State α V)) → Option (Except Err (State α V)) → Prop
  | none, none => True
  | some (.error e), some (.error e') => e = e'
  | some (.ok st), some (.ok st') => st.ct = st'.ct ∧ st.size = st'.size ∧ (∀ a, a ∈ st.sct.map Prod.fst ↔ a ∈ st'.sct.map Prod.fst) ∧
      ∀ a, lookup st.sct a = lookup st'.sct a
  | _, _ => False

/-! ## Lemmas -/

theorem foldDict_spec (g : α → Finset ℕ) (l : List α) (d : Sct α) (hnd : (d.map Prod.fst).Nodup)
    (hd : ∀ a ∈ d.map Prod.fst, lookup d a = g a) :
    ((l.foldl (fun d k => dictSet d k (g k)) d).map Prod.fst).Nodup ∧
    (∀ a, a ∈ (l.foldl (fun d k => dictSet d k (g k)) d).map Prod.fst ↔ a ∈ d.map Prod.fst ∨ a ∈ l) ∧
    ∀ a ∈ (l.foldl (fun d k => dictSet d k (g k)) d).map Prod.fst, lookup (l.foldl (fun d k => dictSet d k (g k)) d) a = g a := by
  induction l generalizing d with
  | nil => exact ⟨hnd, by simp, hd⟩
  | cons k l ih =>
    rw [List.foldl_cons]
    obtain ⟨h1, h2, h3⟩ := ih (dictSet d k (g k)) (nodup_dictSet d k _ hnd) (fun a ha => by
      rw [lookup_dictSet d hnd]
      split_ifs with h
      · rw [h]
      · rw [mem_keys_dictSet] at ha
        exact hd a (ha.resolve_left h))
    refine ⟨h1, fun a => ?_, h3⟩
    rw [h2, mem_keys_dictSet, List.mem_cons]
    tauto

theorem tableVertical_nodup (tab : List (α × List Bool)) (n : ℕ) : ((tableVertical tab n).map Prod.fst).Nodup :=
  (foldDict_spec (whereTrue tab n) _ [] (by simp) (by simp)).1

theorem tableVertical_keys (tab : List (α × List Bool)) (n : ℕ) (a : α) : a ∈ (tableVertical tab n).map Prod.fst ↔ a ∈ tab.map Prod.fst := by
  have h := (foldDict_spec (whereTrue tab n) (tab.map Prod.fst) [] (by simp) (by simp)).2.1 a
  rw [tableVertical, h]
  simp

theorem mem_whereTrue (tab : List (α × List Bool)) (n : ℕ) (a : α) (t : ℕ) :
    t ∈ whereTrue tab n a ↔ t < n ∧ ∃ c ∈ tab, c.1 = a ∧ c.2[t]? = some true := by
  unfold whereTrue
  rw [Finset.mem_filter, Finset.mem_range, List.any_eq_true]
  simp only [Bool.and_eq_true, decide_eq_true_eq, List.getD_eq_getElem?_getD]
  constructor
  · rintro ⟨h, c, hc, h1, h2⟩
    refine ⟨h, c, hc, h1, ?_⟩
    cases h3 : c.2[t]? with
    | none => rw [h3] at h2; cases h2
    | some b => rw [h3] at h2; exact congrArg some h2
  · rintro ⟨h, c, hc, h1, h2⟩
    exact ⟨h, c, hc, h1, by rw [h2]; rfl⟩

theorem tableVertical_lookup (tab : List (α × List Bool)) (n : ℕ) (a : α) : lookup (tableVertical tab n) a = whereTrue tab n a := by
  by_cases h : a ∈ (tableVertical tab n).map Prod.fst
  · exact (foldDict_spec (whereTrue tab n) (tab.map Prod.fst) [] (by simp) (by simp)).2.2 a h
  · rw [lookup_of_not_mem h]
    symm
    rw [Finset.eq_empty_iff_forall_notMem]
    intro t ht
    obtain ⟨_, c, hc, rfl, _⟩ := (mem_whereTrue tab n a t).1 ht
    exact h ((tableVertical_keys tab n _).2 (List.mem_map_of_mem hc))

theorem mem_rowItems (tab : List (α × List Bool)) (t : ℕ) (a : α) : a ∈ rowItems tab t ↔ ∃ c ∈ tab, c.1 = a ∧ c.2[t]? = some true := by
  unfold rowItems
  rw [List.mem_map]
  simp only [List.mem_filter, decide_eq_true_eq]
  constructor
  · rintro ⟨c, ⟨h1, h2⟩, h3⟩; exact ⟨c, h1, h3, h2⟩
  · rintro ⟨c, h1, h3, h2⟩; exact ⟨c, ⟨h1, h2⟩, h3⟩

theorem rowsOf_get (tab : List (α × List Bool)) (n t : ℕ) : (rowsOf tab n)[t]? = if t < n then some (rowItems tab t) else none := by
  unfold rowsOf
  rw [List.getElem?_map]
  split_ifs with h
  · rw [List.getElem?_range h]; rfl
  · rw [List.getElem?_eq_none (by simpa using h)]; rfl

theorem occurs_rowsOf (tab : List (α × List Bool)) (n : ℕ) (a : α) (t : ℕ) :
    Occurs (rowsOf tab n) a t ↔ t ∈ whereTrue tab n a := by
  unfold Occurs
  rw [rowsOf_get, mem_whereTrue, ← mem_rowItems]
  split_ifs with h
  · simp [h]
  · simp [h]

theorem lookup_rows (tab : List (α × List Bool)) (n : ℕ) (a : α) : lookup (toVertical ∅ (rowsOf tab n)) a = lookup (tableVertical tab n) a := by
  ext t
  rw [mem_lookup_toVertical, occurs_rowsOf, tableVertical_lookup]
  simp

theorem keys_rows (tab : List (α × List Bool)) (n : ℕ) (a : α) (h : a ∈ (toVertical ∅ (rowsOf tab n)).map Prod.fst) : a ∈ tab.map Prod.fst := by
  obtain ⟨t, ht⟩ := ((mem_toVertical_keys _ _ _).1 h).1
  rw [occurs_rowsOf, mem_whereTrue] at ht
  obtain ⟨_, c, hc, rfl, _⟩ := ht
  exact List.mem_map_of_mem hc

theorem moved_refl {K : Type*} (tab : List (K × Finset ℕ)) : moved (Function.Embedding.refl ℕ) tab = tab := by
  unfold moved
  rw [List.map_congr_left (g := id), List.map_id]
  intro e _
  exact Prod.ext rfl Finset.map_refl

theorem prefit_cards_sorted (items : List α) (vert : Sct α) :
    ((vert.insertionSort (fun a b => b.2.card ≤ a.2.card) ++
      (items.dedup.filter (fun i => i ∉ (vert.insertionSort (fun a b => b.2.card ≤ a.2.card)).map Prod.fst)).map (fun i => (i, (∅ : Finset ℕ)))).map
      (fun e => e.2.card)).Pairwise (fun a b => b ≤ a) := by
  rw [List.map_append, List.pairwise_append]
  refine ⟨cards_sorted vert, ?_, ?_⟩
  · rw [List.map_map, List.pairwise_map]
    exact List.pairwise_of_forall (fun _ _ => by simp)
  · intro a _ b hb
    rw [List.map_map, List.mem_map] at hb
    obtain ⟨i, _, rfl⟩ := hb
    simp

/-- Two vertical representations with the same supports and, together with the items, the same known items. -/
theorem prefit_same {P : Params α κ V} (hP : CountsOnly P) (hinj : Function.Injective P.key) (items items' : List α) (v v' : Sct α)
    (hv : (v.map Prod.fst).Nodup) (hv' : (v'.map Prod.fst).Nodup)
    (hk : ∀ a, (a ∈ v.map Prod.fst ∨ a ∈ items) ↔ (a ∈ v'.map Prod.fst ∨ a ∈ items')) (hl : ∀ a, lookup v a = lookup v' a) :
    StMoved (Function.Embedding.refl ℕ) (prefitVertical P items v) (prefitVertical P items' v') := by
  obtain ⟨hn, hk1, hl1⟩ := prefit_sct P items v hv
  obtain ⟨hn', hk1', hl1'⟩ := prefit_sct P items' v' hv'
  have hperm : (prefitVertical P items' v').sct.Perm (prefitVertical P items v).sct := by
    refine perm_of_lookup hn' hn (fun k => ?_) (fun k => ?_)
    · rw [hk1, hk1', hk]
    · rw [hl1, hl1', hl]
  refine ⟨⟨fun a => ?_, fun a => ?_⟩, ?_, ?_⟩
  · rw [hk1, hk1', hk]
  · rw [Finset.map_refl, hl1, hl1', hl]
  · rw [moved_refl]
    change sortTable P ((prefitVertical P items' v').sct.map (fun e => ({e.1}, e.2))) = sortTable P ((prefitVertical P items v).sct.map (fun e => ({e.1}, e.2)))
    refine eq_of_sorted_perm P.key hinj _ _ ?_ (prefit_ct_nodup P items' v' hv') (sortTable_sorted P _) (sortTable_sorted P _)
    exact (sortTable_perm P _).trans ((hperm.map _).trans (sortTable_perm P _).symm)
  · refine hP.initTotal _ _ ?_
    exact List.Perm.eq_of_pairwise (fun a b _ _ h3 h4 => le_antisymm h4 h3) (prefit_cards_sorted items' v') (prefit_cards_sorted items v)
      (hperm.map _)

theorem sameFit_of_moved {x y : Option (Except Err (State α V))} (h : OutMoved (Function.Embedding.refl ℕ) x y) : SameFit x y := by
  rcases x with _ | e | st <;> rcases y with _ | e' | st' <;> try exact h
  obtain ⟨⟨h1, h2⟩, h3, h4⟩ := h
  rw [moved_refl] at h3
  exact ⟨h3.symm, h4.symm, fun a => (h1 a).symm, fun a => by rw [h2 a, Finset.map_refl]⟩

theorem sctAll_keys (items : List α) (v : Sct α) (a : α) :
    a ∈ (v ++ (items.dedup.filter (fun i => i ∉ v.map Prod.fst)).map (fun i => (i, (∅ : Finset ℕ)))).map Prod.fst ↔ a ∈ v.map Prod.fst ∨ a ∈ items := by
  rw [List.map_append, List.mem_append, List.map_map]
  simp only [List.mem_map, List.mem_filter, List.mem_dedup, decide_eq_true_eq, Function.comp]
  by_cases h : a ∈ v.map Prod.fst
  · simp only [List.mem_map] at h; simp [h]
  · simp only [List.mem_map] at h
    simp [h]

theorem sctAll_lookup (items : List α) (v : Sct α) (hv : (v.map Prod.fst).Nodup) (a : α) :
    lookup (v ++ (items.dedup.filter (fun i => i ∉ v.map Prod.fst)).map (fun i => (i, (∅ : Finset ℕ)))) a = lookup v a := by
  set w := v ++ (items.dedup.filter (fun i => i ∉ v.map Prod.fst)).map (fun i => (i, (∅ : Finset ℕ))) with hw
  have hnd : (w.map Prod.fst).Nodup := by
    rw [hw, List.map_append, List.map_map, List.nodup_append]
    refine ⟨hv, ?_, ?_⟩
    · have : (Prod.fst ∘ fun i : α => (i, (∅ : Finset ℕ))) = id := rfl
      rw [this, List.map_id]
      exact (List.nodup_dedup items).filter _
    · intro b hb c hc
      rw [List.mem_map] at hc
      obtain ⟨i, hi, rfl⟩ := hc
      rw [List.mem_filter, decide_eq_true_eq] at hi
      rintro rfl
      exact hi.2 hb
  by_cases h : a ∈ v.map Prod.fst
  · obtain ⟨e, he, rfl⟩ := List.mem_map.1 h
    rw [lookup_of_mem hv he]
    exact lookup_of_mem hnd (by rw [hw]; exact List.mem_append_left _ he)
  · rw [lookup_of_not_mem h]
    by_cases h2 : a ∈ w.map Prod.fst
    · obtain ⟨e, he, rfl⟩ := List.mem_map.1 h2
      rw [lookup_of_mem hnd he]
      rw [hw, List.mem_append] at he
      rcases he with he | he
      · exact absurd (List.mem_map_of_mem he) h
      · obtain ⟨i, _, rfl⟩ := List.mem_map.1 he
        rfl
    · exact lookup_of_not_mem h2

/-! ## C156 -/

/-- C156. `fit` on a table gives what `fit` gives on the transactions of its rows when the constructor argument `items` also names the columns. -/
theorem table_as_transactions (S : Settings α V) (hiter : ∀ (X : Finset α) (a : α), a ∈ S.iter X ↔ a ∈ X) (hS : CountsOnly (S.params [] []))
    (O : Oracle α) (hO : OracleCounts O) (fuel : ℕ) (tab : List (α × List Bool)) (n : ℕ) :
    SameFit (fitTable S O fuel tab n none) (fitLists { S with items := S.items ++ tab.map Prod.fst } O fuel (rowsOf tab n)) := by
  have hk : ∀ a, (a ∈ (tableVertical tab n).map Prod.fst ∨ a ∈ S.items) ↔
      (a ∈ (toVertical ∅ (rowsOf tab n)).map Prod.fst ∨ a ∈ S.items ++ tab.map Prod.fst) := by
    intro a
    rw [tableVertical_keys, List.mem_append]
    constructor
    · tauto
    · rintro (h | h | h)
      · exact Or.inl (keys_rows tab n a h)
      · exact Or.inr h
      · exact Or.inl h
  have hl := fun a => (lookup_rows tab n a).symm
  have hkey : coverKey S.iter (tableVertical tab n ++ (S.items.dedup.filter (fun i => i ∉ (tableVertical tab n).map Prod.fst)).map
      (fun i => (i, (∅ : Finset ℕ)))) [] = coverKey S.iter (sctOf (S.items ++ tab.map Prod.fst) (rowsOf tab n)) [] := by
    refine coverKey_congr S.iter _ _ (fun a => ?_) (fun a => ?_) []
    · unfold sctOf
      rw [sctAll_keys, sctAll_keys, hk]
    · unfold sctOf
      rw [sctAll_lookup _ _ (tableVertical_nodup tab n), sctAll_lookup _ _ (toVertical_nodup _ _), hl]
  apply sameFit_of_moved
  unfold fitTable fitLists fit prefit Settings.params
  dsimp only
  rw [hkey]
  have hc : CountsOnly (⟨coverKey S.iter (sctOf (S.items ++ tab.map Prod.fst) (rowsOf tab n)) [], S.total, S.initTotal, S.pruning⟩ :
    Params α (CoverKey α) V) := ⟨hS.total, hS.initTotal⟩
  exact fitLoop_moved hc hO fuel 0 (prefit_same hc (coverKey_injective _ hiter _ _) _ _ _ _ (tableVertical_nodup tab n)
    (toVertical_nodup _ _) hk hl)

theorem coverMatrix_ct (st st' : State α V) (h : st.ct = st'.ct) (vert : Sct α) (n : ℕ) : coverMatrix st vert n = coverMatrix st' vert n := by
  unfold coverMatrix knownItemsets transform
  rw [h]

/-- C156. Fits that end alike answer alike: same itemsets, same covers and same code lengths of new data, given as transactions or as a table. -/
theorem same_fit_same_answers (st st' : State α V) (h : SameFit (some (.ok st)) (some (.ok st'))) :
    (∀ s d, transform st s d = transform st' s d) ∧ (∀ D, slimCover st D = slimCover st' D) ∧
    (∀ tab n, coverTable st tab n = coverTable st' tab n) ∧
    (∀ (code : ℕ → ℕ → R) D, getCodeLength code st D = getCodeLength code st' D) ∧
    ∀ (code : ℕ → ℕ → R) tab n, codeLengthTable code st tab n = codeLengthTable code st' tab n := by
  obtain ⟨h1, _, h3, _⟩ := h
  have hct : ∀ tab n, coverTable st tab n = coverTable st' tab n := by
    intro tab n
    unfold coverTable
    rw [coverMatrix_ct st st' h1]
    simp only [h3]
  have hsc : ∀ D, slimCover st D = slimCover st' D := fun D => coverMatrix_ct st st' h1 _ _
  have hco : ∀ code : ℕ → ℕ → R, codeOf code st = codeOf code st' := by
    intro code
    funext X
    unfold codeOf
    rw [h1]
  refine ⟨fun s d => by unfold transform; rw [h1], hsc, hct, fun code D => ?_, fun code tab n => ?_⟩
  · unfold getCodeLength
    rw [hsc, hco]
  · unfold codeLengthTable
    rw [hct, hco]

/-! ## New tables -/

theorem cover_table_good (st : State α V) (hg : Good st.sct st.ct)
    (tab : List (α × List Bool)) (n : ℕ) :
    ∃ cols mat cols' mat', coverTable st tab n = .ok (cols, mat) ∧ slimCover st (rowsOf tab n) = .ok (cols', mat') ∧
      mat.map (marked cols) = mat'.map (marked cols') ∧ mat.length = n := by
  obtain ⟨cols', mat', h1, h2, h3⟩ := cover_row_greedy_good st hg (rowsOf tab n)
  set known := tab.filter (fun c => c.1 ∈ st.sct.map Prod.fst) with hknown
  set vert := tableVertical known n with hvert
  have hK := knownItemsets_eq st vert hg.keys.nonempty
  have hnd : (knownItemsets st vert).Nodup := by rw [hK]; exact hg.keys.nodup.filter _
  have hcov : cover vert (knownItemsets st vert) = .ok (coverMap (lookup vert) (knownItemsets st vert)) := by
    unfold cover
    rw [if_pos, coverLoop_eq _ _ _ hnd (by simp), List.nil_append]
    rw [List.all_eq_true]
    intro X hX
    rw [hK, List.mem_filter] at hX
    exact hX.2
  refine ⟨_, _, cols', mat', by unfold coverTable coverMatrix; rw [← hknown, ← hvert, hcov], h1, ?_, by simp⟩
  have hlen : (rowsOf tab n).length = n := by simp [rowsOf]
  rw [hlen] at h2
  apply List.ext_getElem?
  intro t
  by_cases ht : t < n
  · obtain ⟨row, hr1, hr2⟩ := h3 t (rowItems tab t) (by rw [rowsOf_get, if_pos ht])
    rw [List.getElem?_map, List.getElem?_map, List.getElem?_map, hr1, List.getElem?_range ht]
    simp only [Option.map_some, Option.some.injEq]
    rw [hr2, marked_map]
    have hocc : ∀ X ∈ st.ct.map Prod.fst, ∀ a ∈ X, a ∈ (rowItems tab t).toFinset ↔ t ∈ lookup vert a := by
      intro X hX a ha
      rw [hvert, tableVertical_lookup, mem_whereTrue, List.mem_toFinset, mem_rowItems]
      have hin := hg.keys.known X hX a ha
      simp only [ht, true_and, hknown, List.mem_filter, decide_eq_true_eq]
      constructor
      · rintro ⟨c, hc, rfl, h5⟩; exact ⟨c, ⟨hc, hin⟩, rfl, h5⟩
      · rintro ⟨c, ⟨hc, _⟩, h4, h5⟩; exact ⟨c, hc, h4, h5⟩
    have hsub : ∀ X ∈ knownItemsets st vert, X ∈ st.ct.map Prod.fst := by
      intro X hX; rw [hK, List.mem_filter] at hX; exact hX.1
    rw [coverMap_greedy _ _ (fun X hX => hg.keys.nonempty X (hsub X hX)) t (rowItems tab t).toFinset (fun X hX => hocc X (hsub X hX)), hK, greedy_filter]
    intro X hX hs
    apply decide_eq_true
    intro x hx
    exact mem_keys_of_lookup ((hocc X hX x hx).1 (hs hx))
  · rw [List.getElem?_eq_none (by simpa using ht), List.getElem?_eq_none (by rw [List.length_map, h2]; omega)]

/-- C156. `cover` on a table marks in every row the itemsets that `cover` marks for the transaction of the row. -/
theorem cover_table_rows (items : List α) (D : List (List α)) (st : State α V) (h : Reach (κ := κ) items D st)
    (tab : List (α × List Bool)) (n : ℕ) :
    ∃ cols mat cols' mat', coverTable st tab n = .ok (cols, mat) ∧ slimCover st (rowsOf tab n) = .ok (cols', mat') ∧
      mat.map (marked cols) = mat'.map (marked cols') ∧ mat.length = n :=
  cover_table_good st (reach_inv items D st h).1 tab n

theorem code_length_table_good (st : State α V) (hg : Good st.sct st.ct) (code : ℕ → ℕ → R) (tab : List (α × List Bool)) (n : ℕ) :
    codeLengthTable code st tab n = getCodeLength code st (rowsOf tab n) := by
  obtain ⟨cols, mat, cols', mat', h1, h2, h3, _⟩ := cover_table_good st hg tab n
  unfold codeLengthTable getCodeLength
  rw [h1, h2]
  simp only [Except.ok.injEq]
  have := congrArg (List.map (fun X : List (Finset α) => let s := (X.map (codeOf code st)).sum; if s = 0 then (⊤ : WithTop R) else (s : WithTop R))) h3
  rw [List.map_map, List.map_map] at this
  exact this

/-- C156. `get_code_length` of a table is that of the transactions of its rows. -/
theorem code_length_table_rows (items : List α) (D : List (List α)) (st : State α V) (h : Reach (κ := κ) items D st)
    (code : ℕ → ℕ → R) (tab : List (α × List Bool)) (n : ℕ) :
    codeLengthTable code st tab n = getCodeLength code st (rowsOf tab n) :=
  code_length_table_good st (reach_inv items D st h).1 code tab n

/-! ## C157 -/

theorem zip_labels (tab : List (α × List Bool)) (y : List ℤ) (n : ℕ) (h : y.length ≤ n) :
    (rowsOf tab n).zip y = (List.range y.length).map (fun t => (rowItems tab t, y.getD t 0)) := by
  apply List.ext_getElem
  · simp [rowsOf, h]
  · intro t h1 h2
    have h3 : t < y.length := by simpa using h2
    simp [rowsOf, h3]

theorem labelled_rows (tab : List (α × List Bool)) (y : List ℤ) (n : ℕ) (h : y.length ≤ n) :
    labelled y (rowsOf tab n) = ((List.range y.length).filter (fun t => decide (y.getD t 0 ≠ 0))).map (rowItems tab) := by
  unfold labelled
  rw [zip_labels tab y n h, List.filter_map, List.map_map]
  rfl

theorem rowItems_select (tab : List (α × List Bool)) (mask : List ℕ) (i : ℕ) (h : i < mask.length) :
    rowItems (tab.map (fun c => (c.1, mask.map (fun t => c.2.getD t false)))) i = rowItems tab mask[i] := by
  unfold rowItems
  rw [List.filter_map, List.map_map]
  have : ((fun c : α × List Bool => decide (c.2[i]? = some true)) ∘ fun c : α × List Bool => (c.1, mask.map (fun t => c.2.getD t false))) =
      fun c => decide (c.2[mask[i]]? = some true) := by
    funext c
    simp only [Function.comp, List.getElem?_map, List.getElem?_eq_getElem h, Option.map_some, List.getD_eq_getElem?_getD, Option.some.injEq]
    cases c.2[mask[i]]? <;> simp
  rw [this]
  rfl

theorem rowsOf_select (tab : List (α × List Bool)) (mask : List ℕ) :
    rowsOf (tab.map (fun c => (c.1, mask.map (fun t => c.2.getD t false)))) mask.length = mask.map (rowItems tab) := by
  apply List.ext_getElem
  · simp [rowsOf]
  · intro i h1 h2
    have h3 : i < mask.length := by simpa using h2
    rw [List.getElem_map, ← rowItems_select tab mask i h3]
    simp [rowsOf]

/-- C157. With labels, `fit` on a table gives what `fit` gives on the transactions of the rows whose label is not zero. -/
theorem labels_select_rows (S : Settings α V) (hiter : ∀ (X : Finset α) (a : α), a ∈ S.iter X ↔ a ∈ X) (hS : CountsOnly (S.params [] []))
    (O : Oracle α) (hO : OracleCounts O) (fuel : ℕ) (tab : List (α × List Bool)) (n : ℕ) (y : List ℤ) (hy : y.length = n) :
    SameFit (fitTable S O fuel tab n (some y))
      (fitLists { S with items := S.items ++ tab.map Prod.fst } O fuel (labelled y (rowsOf tab n))) := by
  have hs : supervised y tab n = .ok (tab.map (fun c => (c.1, ((List.range y.length).filter (fun t => decide (y.getD t 0 ≠ 0))).map
      (fun t => c.2.getD t false))), ((List.range y.length).filter (fun t => decide (y.getD t 0 ≠ 0))).length) := by
    unfold supervised
    rw [if_pos]
    rw [List.all_eq_true]
    intro t ht
    rw [List.mem_filter, List.mem_range] at ht
    exact decide_eq_true (by omega)
  have h := table_as_transactions S hiter hS O hO fuel (tab.map (fun c => (c.1, ((List.range y.length).filter (fun t => decide (y.getD t 0 ≠ 0))).map
      (fun t => c.2.getD t false)))) ((List.range y.length).filter (fun t => decide (y.getD t 0 ≠ 0))).length
  rw [rowsOf_select, ← labelled_rows tab y n hy.le, List.map_map] at h
  have h2 : fitTable S O fuel tab n (some y) = fitTable S O fuel (tab.map (fun c => (c.1, ((List.range y.length).filter (fun t => decide (y.getD t 0 ≠ 0))).map
      (fun t => c.2.getD t false)))) ((List.range y.length).filter (fun t => decide (y.getD t 0 ≠ 0))).length none := by
    unfold fitTable
    dsimp only
    rw [hs]
  rw [h2]
  exact h

/-- C157. When no label is zero the labels do not matter. -/
theorem nonzero_labels_ignored_partial (S : Settings α V) (O : Oracle α) (fuel : ℕ) (tab : List (α × List Bool)) (n : ℕ)
    (htab : ∀ c ∈ tab, c.2.length = n) (y : List ℤ) (hy : y.length = n) (h0 : ∀ v ∈ y, v ≠ 0) :
    fitTable S O fuel tab n (some y) = fitTable S O fuel tab n none := by
  have hm : (List.range y.length).filter (fun t => decide (y.getD t 0 ≠ 0)) = List.range n := by
    rw [hy]
    apply List.filter_eq_self.2
    intro t ht
    rw [List.mem_range, ← hy] at ht
    apply decide_eq_true
    rw [List.getD_eq_getElem?_getD, List.getElem?_eq_getElem ht]
    exact h0 _ (List.getElem_mem ht)
  have hs : supervised y tab n = .ok (tab, n) := by
    unfold supervised
    dsimp only
    rw [hm, if_pos (by simp), List.length_range]
    congr 2
    rw [List.map_congr_left (g := id), List.map_id]
    intro c hc
    refine Prod.ext rfl ?_
    change (List.range n).map (fun t => c.2.getD t false) = c.2
    apply List.ext_getElem
    · simp [htab c hc]
    · intro t h1 h2
      simp [h2]
  unfold fitTable
  dsimp only
  rw [hs]

/-- The table used in the examples: three columns, one of them without true value, and four rows. -/
def exTab : List (ℕ × List Bool) := [(5, [false, false, false, false]), (1, [true, true, true, false]), (2, [true, true, false, true])]

theorem exS2_counts : CountsOnly ((exS2 true).params [] []) := by
  refine ⟨fun t t' h => ?_, fun s s' h => congrArg List.sum h⟩
  have := congrArg (List.map Prod.snd) h
  have h2 : t.map (fun e => e.2.card) = t'.map (fun e => e.2.card) := by simpa [List.map_map, Function.comp_def] using this
  exact congrArg List.sum h2

/-- The hypotheses of `table_as_transactions` and `labels_select_rows` hold in a case where the fit takes a candidate; the column without true
value is known. -/
example : (∀ (X : Finset ℕ) (a : ℕ), a ∈ (exS2 true).iter X ↔ a ∈ X) ∧ CountsOnly ((exS2 true).params [] []) ∧ OracleCounts exO3 ∧
    rowsOf exTab 4 = [[1, 2], [1, 2], [1], [2]] ∧ labelled [1, 1, 0, 3] (rowsOf exTab 4) = [[1, 2], [1, 2], [2]] ∧
    (fitLists { exS2 true with items := [5, 1, 2] } exO3 9 (rowsOf exTab 4)).map (Except.map (fun st => showTable st.ct)) =
      some (.ok [([1, 2], [0, 1]), ([1], [2]), ([2], [3]), ([5], [])]) ∧
    (fitTable (exS2 true) exO3 9 exTab 4 (some [1, 1, 0, 3])).map (Except.map (fun st => showTable st.ct)) =
      some (.ok [([1, 2], [0, 1]), ([2], [2]), ([1], []), ([5], [])]) :=
  ⟨fun _ _ => mem_sortSet _ _, exS2_counts, exO3_counts, by decide, by decide, by decide +kernel, by decide +kernel⟩

/-- A reachable state and a new table, with an unknown column and a column without true value: the covers differ in their columns and agree on
what they mark. -/
example : ((coverTable (prefit (exP false) [7] [[1, 2], [1, 2, 3]]) [(9, [true, true]), (3, [false, false]), (1, [true, false])] 2).map
      (fun r => (r.1.map sortSet, r.2))).toOption = some ([[1], [3]], [[true, false], [false, false]]) ∧
    ((slimCover (prefit (exP false) [7] [[1, 2], [1, 2, 3]]) (rowsOf [(9, [true, true]), (3, [false, false]), (1, [true, false])] 2)).map
      (fun r => (r.1.map sortSet, r.2))).toOption = some ([[1]], [[true], [false]]) := by
  decide +kernel

/-- Labels without zero, and too many labels. -/
example : (∀ c ∈ exTab, c.2.length = 4) ∧ (∀ v ∈ ([1, -1, 2, 1] : List ℤ), v ≠ 0) ∧
    ∃ t, 4 ≤ t ∧ ∃ v, ([1, 0, 0, 0, 1] : List ℤ)[t]? = some v ∧ v ≠ 0 :=
  ⟨by decide, by decide, 4, by decide, 1, rfl, by decide⟩

/-- C157 fails: `y` is documented as ignored, but the label of the last two rows being zero these rows are lost. On transactions the labels are
ignored. -/
theorem labels_not_ignored :
    (fitTable (exS2 true) exO3 9 exTab 4 none).map (Except.map (fun st => showTable st.ct)) =
      some (.ok [([1, 2], [0, 1]), ([1], [2]), ([2], [3]), ([5], [])]) ∧
    (fitTable (exS2 true) exO3 9 exTab 4 (some [1, 1, 0, 0])).map (Except.map (fun st => showTable st.ct)) =
      some (.ok [([1, 2], [0, 1]), ([1], []), ([2], []), ([5], [])]) := by
  decide +kernel

/-- C157: too many labels. -/
theorem too_many_labels (S : Settings α V) (O : Oracle α) (fuel : ℕ) (tab : List (α × List Bool)) (n : ℕ) (y : List ℤ)
    (h : ∃ t, n ≤ t ∧ ∃ v, y[t]? = some v ∧ v ≠ 0) : fitTable S O fuel tab n (some y) = some (.error .indexError) := by
  obtain ⟨t, h1, v, h2, h3⟩ := h
  have hs : supervised y tab n = .error .indexError := by
    unfold supervised
    rw [if_neg]
    rw [List.all_eq_true]
    intro hall
    have := hall t (List.mem_filter.2 ⟨List.mem_range.2 (List.getElem?_eq_some_iff.1 h2).1, by
      rw [List.getD_eq_getElem?_getD, h2]; exact decide_eq_true h3⟩)
    exact absurd (of_decide_eq_true this) (by omega)
  unfold fitTable
  dsimp only
  rw [hs]

end Verif.Slim
