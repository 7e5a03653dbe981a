import Verif.Slim.RowLemmas
import Verif.Slim.DupLemmas
import Mathlib.Data.Finset.Max

/-!
# Properties of SLIM (C12 - C17, C19, C20)
-/

set_option autoImplicit false
set_option linter.unusedSectionVars false

namespace Verif.Slim

variable {α κ V : Type*} [LinearOrder α] [LinearOrder κ] [LinearOrder V]

/-- The states reached from `prefit(D)` by calls of `update(candidate)` with candidates that are not in the code table. The sort
key, the sizes and the `pruning` option may differ from call to call. -/
inductive Reach (items : List α) (D : List (List α)) : State α V → Prop
  | prefit (P : Params α κ V) : Reach items D (prefit P items D)
  | update (P : Params α κ V) (choose : Chooser α) (st st' : State α V) (c : Finset α) (h : Reach items D st)
      (hch : ChooserOk choose) (hnew : ∀ u, (c, u) ∉ st.ct) (hu : update P choose st c = some (.ok st')) :
      Reach items D st'

theorem inhabited_of_update (P : Params α κ V) (choose : Chooser α) (st : State α V) (c : Finset α) (hg : Good st.sct st.ct)
    (hne : c.Nonempty) (hkn : ∀ x ∈ c, x ∈ st.sct.map Prod.fst) (hnew : c ∉ st.ct.map Prod.fst) (r : V × Table α)
    (h : evaluate P choose st c = some (.ok r)) : Inhabited st.sct := by
  by_contra hin
  have hp : ((st.ct.map Prod.fst).insertIdx (bisect P st.ct c) c).Perm (c :: st.ct.map Prod.fst) :=
    List.perm_insertIdx _ _ (by rw [List.length_map]; exact bisect_le P st.ct c)
  have hko : KeysOk st.sct (c :: st.ct.map Prod.fst) :=
    ⟨List.nodup_cons.2 ⟨hnew, hg.keys.nodup⟩, fun a ha => List.mem_cons_of_mem _ (hg.keys.single a ha),
      fun X hX => by
        rcases List.mem_cons.1 hX with rfl | hX
        · exact hne
        · exact hg.keys.nonempty X hX,
      fun X hX => by
        rcases List.mem_cons.1 hX with rfl | hX
        · exact hkn
        · exact hg.keys.known X hX⟩
  have hko2 := hko.perm hp
  have hgc := coverMap_good st.sct _ hko2
  unfold evaluate at h
  rw [if_neg (Finset.nonempty_iff_ne_empty.1 hne), cover_eq _ _ hko2] at h
  simp only at h
  have herr : computeSizes P (coverMap (lookup st.sct) ((st.ct.map Prod.fst).insertIdx (bisect P st.ct c) c)) =
      .error .valueError := by
    unfold computeSizes
    rw [if_pos]
    rw [List.all_eq_true]
    intro e he
    apply decide_eq_true
    rw [Finset.eq_empty_iff_forall_notMem]
    intro t ht
    obtain ⟨a, ha⟩ := hgc.keys.nonempty _ (mem_key_of_mem he)
    exact hin ⟨a, t, hgc.lossless.sound e he a ha t ht⟩
  rw [herr] at h
  cases h

theorem evaluate_known (P : Params α κ V) (choose : Chooser α) (st : State α V) (c : Finset α) (r : V × Table α)
    (h : evaluate P choose st c = some (.ok r)) : c.Nonempty ∧ ∀ x ∈ c, x ∈ st.sct.map Prod.fst := by
  unfold evaluate at h
  by_cases hc : c = ∅
  · rw [if_pos hc] at h; cases h
  · refine ⟨Finset.nonempty_iff_ne_empty.2 hc, ?_⟩
    rw [if_neg hc] at h
    by_cases hk : (((st.ct.map Prod.fst).insertIdx (bisect P st.ct c) c).all
        (fun X => decide (∀ x ∈ X, x ∈ st.sct.map Prod.fst))) = true
    · have hmem : c ∈ (st.ct.map Prod.fst).insertIdx (bisect P st.ct c) c :=
        (List.perm_insertIdx c (st.ct.map Prod.fst) (by rw [List.length_map]; exact bisect_le P st.ct c)).mem_iff.2
          List.mem_cons_self
      exact of_decide_eq_true (List.all_eq_true.1 hk c hmem)
    · have : cover st.sct ((st.ct.map Prod.fst).insertIdx (bisect P st.ct c) c) = .error .keyError := by
        unfold cover; rw [if_neg hk]
      rw [this] at h
      cases h

/-- Invariant of all reachable states. -/
theorem reach_inv (items : List α) (D : List (List α)) (st : State α V) (h : Reach (κ := κ) items D st) :
    Good st.sct st.ct ∧ (∀ a, a ∈ st.sct.map Prod.fst ↔ (∃ t, Occurs D a t) ∨ a ∈ items) ∧
      ∀ a t, t ∈ lookup st.sct a ↔ Occurs D a t := by
  induction h with
  | prefit P =>
    have hnd := toVertical_nodup ∅ D
    refine ⟨prefit_good P items _ hnd, fun a => ?_, fun a t => ?_⟩
    · have := (prefit_sct P items _ hnd).2.1 a
      unfold prefit
      rw [this, mem_toVertical_keys]
      simp
    · unfold prefit
      rw [(prefit_sct P items _ hnd).2.2 a, mem_lookup_toVertical]
      simp
  | update P choose st st' c _ hch hnew hu ih =>
    obtain ⟨hg, hk, ho⟩ := ih
    unfold update at hu
    cases he : evaluate P choose st c with
    | none => rw [he] at hu; cases hu
    | some r =>
      cases r with
      | error e => rw [he] at hu; cases hu
      | ok r =>
        rw [he] at hu
        simp only [Option.some.injEq, Except.ok.injEq] at hu
        subst hu
        obtain ⟨h1, h2⟩ := evaluate_known P choose st c r he
        have h3 : c ∉ st.ct.map Prod.fst := by
          intro hc
          obtain ⟨e, hce, rfl⟩ := List.mem_map.1 hc
          exact hnew e.2 hce
        obtain ⟨tab, g1, g2, _⟩ := evaluate_spec P choose hch st hg (inhabited_of_update P choose st c hg h1 h2 h3 r he) c h1 h2 h3
        rw [g1] at he
        simp only [Option.some.injEq, Except.ok.injEq] at he
        subst he
        exact ⟨(updateUsages_good P st hg tab g2 _).1, hk, ho⟩

theorem lossless_of_good {D : List (List α)} {st : State α V} (hg : Good st.sct st.ct)
    (ho : ∀ a t, t ∈ lookup st.sct a ↔ Occurs D a t) : Lossless (Occurs D) st.ct where
  nodup := hg.keys.nodup
  complete := fun a t h => hg.lossless.complete a t ((ho a t).2 h)
  sound := fun e he a ha t ht => (ho a t).1 (hg.lossless.sound e he a ha t ht)
  unique := hg.lossless.unique

/-! ## Concrete instance used in the examples -/

/-- Parameters for the examples: longest itemsets first, and as size the number of uses of itemsets. -/
def exP (pruning : Bool) : Params ℕ ℕ ℕ where
  key := fun X => 10 - X.card
  total := fun tab => (tab.map (fun e => e.2.card)).sum
  initTotal := fun sct => (sct.map (fun e => e.2.card)).sum
  pruning := pruning

/-- A chooser: the first member of minimal usage in a fixed enumeration of the table. -/
def exChoose : Chooser ℕ := fun _ ps tab =>
  match (tab.filter (fun e => e.1 ∈ ps)).insertionSort (fun a b => a.2.card ≤ b.2.card) with
  | [] => ∅
  | e :: _ => e.1

/-- Readable form of a table. -/
def showTable (tab : Table ℕ) : List (List ℕ × List ℕ) := tab.map (fun e => (sortSet e.1, sortSet e.2))

example : showTable (prefit (exP false) [7] [[1, 2], [1, 2, 3], [3, 3], []]).ct =
    [([1], [0, 1]), ([2], [0, 1]), ([3], [1, 2]), ([7], [])] := by decide

/-- C12. After `prefit(D)` and any sequence of successful `update(candidate)` calls (candidates not yet in the table, pruning on
or off, whatever the sizes and the iteration orders), the code table is a lossless cover of `D`. -/
theorem history_lossless (items : List α) (D : List (List α)) (st : State α V) (h : Reach (κ := κ) items D st) :
    Lossless (Occurs D) st.ct := by
  obtain ⟨hg, _, ho⟩ := reach_inv items D st h
  exact lossless_of_good hg ho

/-- C12. Such an update never fails when the candidate is a non-empty set of known items and `D` has at least one item. -/
theorem history_total (items : List α) (D : List (List α)) (st : State α V) (h : Reach (κ := κ) items D st)
    (P : Params α κ V) (choose : Chooser α) (hch : ChooserOk choose) (c : Finset α) (hne : c.Nonempty)
    (hkn : ∀ x ∈ c, (∃ t, Occurs D x t) ∨ x ∈ items) (hnew : ∀ u, (c, u) ∉ st.ct) (hD : ∃ a t, Occurs D a t) :
    ∃ st', update P choose st c = some (.ok st') := by
  obtain ⟨hg, hk, ho⟩ := reach_inv items D st h
  obtain ⟨a, t, hat⟩ := hD
  obtain ⟨tab, g1, _⟩ := evaluate_spec P choose hch st hg ⟨a, t, (ho a t).2 hat⟩ c hne (fun x hx => (hk x).2 (hkn x hx))
    (fun hc => by
      obtain ⟨e, hce, rfl⟩ := List.mem_map.1 hc
      exact hnew e.2 hce)
  exact ⟨_, by unfold update; rw [g1]⟩

/-- `update` with `{1, 2}` on four transactions. -/
example : ((update (exP false) exChoose (prefit (exP false) [] [[1, 2], [1, 2, 3], [3, 3], []]) {1, 2}).bind
      Except.toOption).map (fun st => (showTable st.ct, st.size)) =
    some ([([1, 2], [0, 1]), ([1], []), ([2], []), ([3], [1, 2])], 4) := by decide

/-- Choosers that behave as required exist. -/
theorem chooserOk_exists : ∃ choose : Chooser α, ChooserOk choose := by
  have h : ∀ (ps : Finset (Finset α)) (tab : Table α), ∃ X, ps.Nonempty →
      X ∈ ps ∧ ∀ c ∈ ps, (lookup tab X).card ≤ (lookup tab c).card := by
    intro ps tab
    by_cases hp : ps.Nonempty
    · obtain ⟨X, hX, hm⟩ := Finset.exists_min_image ps (fun X => (lookup tab X).card) hp
      exact ⟨X, fun _ => ⟨hX, hm⟩⟩
    · exact ⟨∅, fun h => absurd h hp⟩
  choose f hf using h
  exact ⟨fun _ ps tab => f ps tab, fun _ ps tab hp => hf ps tab hp⟩

/-- The hypotheses of `history_lossless` and `history_total` hold for updates with `{1, 2}`, with pruning on and off. -/
example (b : Bool) : ∃ (choose : Chooser ℕ) (st : State ℕ ℕ), ChooserOk choose ∧
    update (exP b) choose (prefit (exP b) [] [[1, 2], [1, 2, 3], [3, 3], []]) {1, 2} = some (.ok st) ∧
    Reach (κ := ℕ) [] [[1, 2], [1, 2, 3], [3, 3], []] st := by
  obtain ⟨choose, hch⟩ := chooserOk_exists (α := ℕ)
  have hr : Reach (κ := ℕ) [] [[1, 2], [1, 2, 3], [3, 3], []] (prefit (exP b) [] [[1, 2], [1, 2, 3], [3, 3], []]) := .prefit _
  have hnew : ∀ u, (({1, 2} : Finset ℕ), u) ∉ (prefit (exP b) [] [[1, 2], [1, 2, 3], [3, 3], []]).ct := by
    intro u hu
    have h1 := mem_key_of_mem hu
    have h2 : ({1, 2} : Finset ℕ) ∉ (prefit (exP b) [] [[1, 2], [1, 2, 3], [3, 3], []]).ct.map Prod.fst := by
      cases b <;> decide
    exact h2 h1
  obtain ⟨st, hst⟩ := history_total [] _ _ hr (exP b) choose hch {1, 2} ⟨1, by decide⟩
    (fun x hx => by
      rcases Finset.mem_insert.1 hx with rfl | hx
      · exact Or.inl ⟨0, [1, 2], rfl, by decide⟩
      · rw [Finset.mem_singleton.1 hx]; exact Or.inl ⟨0, [1, 2], rfl, by decide⟩) hnew ⟨1, 0, [1, 2], rfl, by decide⟩
  exact ⟨choose, st, hch, hst, .update _ choose _ st _ hr hch hnew hst⟩

theorem fit_inv (P : Params α κ V) (O : Oracle α) (hO : OracleOk O) (items : List α) (D : List (List α)) :
    ∃ fuel st, fit P O items fuel D = some (.ok st) ∧ FitInv P (prefit P items D) st := by
  have hg := (reach_inv items D (prefit P items D) (.prefit P)).1
  have h := fitLoop_spec P O hO (prefit P items D) (prefit P items D) ⟨rfl, hg, Or.inl rfl⟩ 0 _ (Nat.lt_succ_self _)
  exact ⟨_, h⟩

theorem fitLoop_mono (P : Params α κ V) (O : Oracle α) (n m i : ℕ) (st : State α V) (r : Except Err (State α V))
    (h : fitLoop P O n i st = some r) (hnm : n ≤ m) : fitLoop P O m i st = some r := by
  induction n generalizing m i st with
  | zero => cases h
  | succ n ih =>
    cases m with
    | zero => omega
    | succ m =>
      unfold fitLoop at h ⊢
      simp only at h ⊢
      cases ht : tryCandidates P (O.choose i) st
        (generateCandidates (O.gain i (O.enum i st.ct)) (O.enum i st.ct) (st.ct.map Prod.fst).toFinset).1 with
      | none => rw [ht] at h; cases h
      | some x =>
        rw [ht] at h
        cases x with
        | error e => exact h
        | ok x =>
          cases x with
          | none => exact h
          | some st2 =>
            simp only at h ⊢
            by_cases htime : O.timeUp i = true
            · rw [if_pos htime] at h ⊢; exact h
            · rw [if_neg htime] at h ⊢
              exact ih m (i + 1) st2 h (by omega)

/-- C14. `fit` terminates without error, whatever the sizes, gains, orders and time limit: from some number of turns on, its
result does not change. -/
theorem fit_terminates (P : Params α κ V) (O : Oracle α) (hO : OracleOk O) (items : List α) (D : List (List α)) :
    ∃ n st, ∀ m, n ≤ m → fit P O items m D = some (.ok st) := by
  obtain ⟨n, st, h, _⟩ := fit_inv P O hO items D
  exact ⟨n, st, fun m hm => fitLoop_mono P O n m 0 _ _ h hm⟩

/-- The result of a finished `fit`. -/
theorem fit_result (P : Params α κ V) (O : Oracle α) (hO : OracleOk O) (items : List α) (D : List (List α)) (fuel : ℕ)
    (r : Except Err (State α V)) (h : fit P O items fuel D = some r) :
    ∃ st, r = .ok st ∧ FitInv P (prefit P items D) st := by
  obtain ⟨n, st, h1, h2⟩ := fit_inv P O hO items D
  have h3 := fitLoop_mono P O n (max n fuel) 0 _ _ h1 (le_max_left _ _)
  have h4 := fitLoop_mono P O fuel (max n fuel) 0 _ _ h (le_max_right _ _)
  rw [h3, Option.some.injEq] at h4
  exact ⟨st, h4.symm, h2⟩

/-- C12 and C14. The code table after `fit` is lossless, and either nothing was accepted, or the reported size is strictly
smaller than after `prefit` and it is the size of the resulting table (listed in some order). -/
theorem fit_lossless (P : Params α κ V) (O : Oracle α) (hO : OracleOk O) (items : List α) (D : List (List α)) (fuel : ℕ)
    (st : State α V) (h : fit P O items fuel D = some (.ok st)) :
    Lossless (Occurs D) st.ct ∧
      (st = prefit P items D ∨ (st.size < (prefit P items D).size ∧
        ∃ tab : Table α, tab.Perm st.ct ∧ st.size = P.total (tab.filter (fun e => e.2 ≠ ∅)))) := by
  obtain ⟨st', h1, h2⟩ := fit_result P O hO items D fuel _ h
  simp only [Except.ok.injEq] at h1
  subst h1
  have hr := reach_inv items D (prefit P items D) (.prefit P)
  refine ⟨lossless_of_good (by rw [h2.sct]; exact h2.good) ?_, h2.size⟩
  rw [h2.sct]
  exact hr.2.2

/-- An environment as required exists, for all gains. -/
theorem oracleOk_exists (gain : ℕ → Table α → (Finset α × Finset ℕ) → (Finset α × Finset ℕ) → ℚ) :
    ∃ O : Oracle α, OracleOk O ∧ O.gain = gain := by
  obtain ⟨choose, hch⟩ := chooserOk_exists (α := α)
  exact ⟨⟨fun _ tab => tab, gain, fun _ _ => choose, fun _ => false⟩, ⟨fun _ _ => List.Perm.refl _, fun _ _ => hch⟩, rfl⟩

/-- A run of `fit` without pruning: `{1, 3}` and then `{1, 2, 3}` are accepted and the size goes from 7 to 3. -/
example : ((fit (exP false) ⟨fun _ tab => tab, fun _ _ _ _ => 1, fun _ _ => exChoose, fun _ => false⟩ [] 5
      [[1, 2, 3], [1, 2, 3], [3]]).bind Except.toOption).map (fun st => (showTable st.ct, st.size)) =
    some ([([1, 2, 3], [0, 1]), ([1, 3], []), ([3], [2]), ([1], []), ([2], [])], 3) ∧
    (prefit (exP false) [] [[1, 2, 3], [1, 2, 3], [3]]).size = 7 := by decide

/-- C14. Every candidate accepted by the inner loop of `fit` strictly decreases the size. -/
theorem accepted_decreases (P : Params α κ V) (choose : Finset α → Chooser α) (st st' : State α V)
    (cs : List (Finset α × ℚ)) (h : tryCandidates P choose st cs = some (.ok (some st'))) : st'.size < st.size := by
  induction cs with
  | nil => cases h
  | cons c cs ih =>
    unfold tryCandidates at h
    cases he : evaluate P (choose c.1) st c.1 with
    | none => rw [he] at h; cases h
    | some r =>
      rw [he] at h
      cases r with
      | error e => cases h
      | ok r =>
        obtain ⟨size, usages⟩ := r
        simp only at h
        by_cases hlt : size < st.size
        · rw [if_pos hlt] at h
          simp only [Option.some.injEq, Except.ok.injEq] at h
          subst h
          exact hlt
        · rw [if_neg hlt] at h
          exact ih h

/-- C13. On any transaction list, `SLIM.cover` of a fitted or updated model returns one row per transaction. The itemsets marked
in a row are pairwise disjoint, included in the transaction, and their union is the set of the items of the transaction that the
model knows. -/
theorem cover_rows (items : List α) (D : List (List α)) (st : State α V) (h : Reach (κ := κ) items D st)
    (D' : List (List α)) :
    ∃ (cols : List (Finset α)) (mat : List (List Bool)), slimCover st D' = .ok (cols, mat) ∧ mat.length = D'.length ∧ cols.Nodup ∧
      (∀ X ∈ cols, ∃ u, (X, u) ∈ st.ct) ∧
      ∀ (t : ℕ) (row : List Bool) (tr : List α), mat[t]? = some row → D'[t]? = some tr →
        row.length = cols.length ∧
        (marked cols row).Pairwise Disjoint ∧
        (∀ X ∈ marked cols row, ∀ x ∈ X, x ∈ tr) ∧
        (∀ a, (∃ X ∈ marked cols row, a ∈ X) ↔ a ∈ tr ∧ ((∃ t, Occurs D a t) ∨ a ∈ items)) := by
  obtain ⟨hg, hk, _⟩ := reach_inv items D st h
  obtain ⟨cols, mat, h1, h2, h3, h4, h5⟩ := coverMatrix_spec st hg (toVertical ∅ D') D'.length
  refine ⟨cols, mat, h1, h2, h4, fun X hX => ?_, fun t row tr hrow htr => ?_⟩
  · obtain ⟨e, he, rfl⟩ := List.mem_map.1 ((h3 X).1 hX).1
    exact ⟨e.2, he⟩
  · obtain ⟨g1, g2, g3, g4⟩ := h5 t row hrow
    have hocc : ∀ a, t ∈ lookup (toVertical ∅ D') a ↔ a ∈ tr := by
      intro a
      rw [mem_lookup_toVertical]
      constructor
      · rintro ⟨⟨tr', htr', ha⟩, _⟩
        rw [htr, Option.some.injEq] at htr'
        rw [htr']
        exact ha
      · exact fun ha => ⟨⟨tr, htr, ha⟩, by simp⟩
    exact ⟨g1, g2, fun X hX x hx => (hocc x).1 (g3 X hX x hx), fun a => by rw [g4, hocc, hk]⟩

/-- C13 for tabular data: a row holds the items whose column is true. -/
theorem cover_rows_tabular (items : List α) (D : List (List α)) (st : State α V) (h : Reach (κ := κ) items D st)
    (tabular : List (α × List Bool)) (hnd : (tabular.map Prod.fst).Nodup) (n : ℕ) :
    ∃ (cols : List (Finset α)) (mat : List (List Bool)), slimCoverTabular st tabular n = .ok (cols, mat) ∧ mat.length = n ∧ cols.Nodup ∧
      ∀ (t : ℕ) (row : List Bool), mat[t]? = some row →
        row.length = cols.length ∧
        (marked cols row).Pairwise Disjoint ∧
        (∀ a, (∃ X ∈ marked cols row, a ∈ X) ↔
          (∃ c ∈ tabular, c.1 = a ∧ c.2[t]? = some true) ∧ ((∃ t, Occurs D a t) ∨ a ∈ items)) := by
  obtain ⟨hg, hk, _⟩ := reach_inv items D st h
  obtain ⟨cols, mat, h1, h2, h3, h4, h5⟩ := coverMatrix_spec st hg
    ((tabular.filter (fun c => c.1 ∈ st.sct.map Prod.fst)).map
      (fun c => (c.1, (Finset.range n).filter (fun t => c.2.getD t false = true)))) n
  refine ⟨cols, mat, h1, h2, h4, fun t row hrow => ?_⟩
  obtain ⟨g1, g2, g3, g4⟩ := h5 t row hrow
  have htn : t < n := by rw [← h2]; exact (List.getElem?_eq_some_iff.1 hrow).1
  refine ⟨g1, g2, fun a => ?_⟩
  rw [g4, hk]
  have hkeys : (((tabular.filter (fun c => c.1 ∈ st.sct.map Prod.fst)).map
      (fun c => (c.1, (Finset.range n).filter (fun t => c.2.getD t false = true)))).map Prod.fst).Nodup := by
    rw [List.map_map]
    exact hnd.sublist (List.filter_sublist.map Prod.fst)
  have hget : ∀ (l : List Bool), l.getD t false = true ↔ l[t]? = some true := by
    intro l
    rw [List.getD_eq_getElem?_getD]
    cases l[t]? with
    | none => simp
    | some b => simp
  constructor
  · rintro ⟨hl, hkn⟩
    refine ⟨?_, hkn⟩
    have hm := mem_of_key hkeys (mem_keys_of_lookup hl)
    obtain ⟨c, hc, hce⟩ := List.mem_map.1 hm
    rw [Prod.mk.injEq] at hce
    rw [← hce.2, Finset.mem_filter, hget] at hl
    exact ⟨c, (List.mem_filter.1 hc).1, hce.1, hl.2⟩
  · rintro ⟨⟨c, hc, rfl, hct⟩, hkn⟩
    refine ⟨?_, hkn⟩
    have hm : (c.1, (Finset.range n).filter (fun t => c.2.getD t false = true)) ∈
        ((tabular.filter (fun c => c.1 ∈ st.sct.map Prod.fst)).map
          (fun c => (c.1, (Finset.range n).filter (fun t => c.2.getD t false = true)))) :=
      List.mem_map.2 ⟨c, List.mem_filter.2 ⟨hc, decide_eq_true ((hk _).2 hkn)⟩, rfl⟩
    rw [lookup_of_mem hkeys hm, Finset.mem_filter, hget]
    exact ⟨Finset.mem_range.2 htn, hct⟩

/-- New data with an unknown item and an empty transaction. -/
example : (((update (exP false) exChoose (prefit (exP false) [] [[1, 2], [1, 2, 3]]) {1, 2}).bind Except.toOption).bind
      (fun st => (slimCover st [[2, 1, 9], [], [1, 3]]).toOption)).map (fun r => (r.1.map sortSet, r.2)) =
    some ([[1, 2], [1], [2], [3]],
      [[true, false, false, false], [false, false, false, false], [false, true, false, true]]) := by decide

/-- C15. Post-pruning a lossless table terminates without error, returns a lossless table made of itemsets of the given one,
keeps all the singletons and does not increase the size, whatever the order in which ties are examined and whatever the code
table `old` it is compared to. -/
theorem prune_correct (P : Params α κ V) (choose : Chooser α) (hch : ChooserOk choose) (sct : Sct α)
    (hin : ∃ a t, t ∈ lookup sct a) (old ctc : Table α)
    (hl : Lossless (fun a t => t ∈ lookup sct a) ctc) (hs : ∀ a ∈ sct.map Prod.fst, ∃ u, ({a}, u) ∈ ctc)
    (hne : ∀ e ∈ ctc, e.1.Nonempty) (hkn : ∀ e ∈ ctc, ∀ x ∈ e.1, x ∈ sct.map Prod.fst) :
    ∃ tab size, prune P sct choose old ctc (P.total (ctc.filter (fun e => e.2 ≠ ∅))) = some (.ok (tab, size)) ∧
      Lossless (fun a t => t ∈ lookup sct a) tab ∧
      (∀ a ∈ sct.map Prod.fst, ∃ u, ({a}, u) ∈ tab) ∧
      (∀ e ∈ tab, ∃ u, (e.1, u) ∈ ctc) ∧
      size = P.total (tab.filter (fun e => e.2 ≠ ∅)) ∧ size ≤ P.total (ctc.filter (fun e => e.2 ≠ ∅)) := by
  have hg : Good sct ctc := by
    refine ⟨⟨hl.nodup, fun a ha => ?_, fun X hX => ?_, fun X hX => ?_⟩, hl⟩
    · obtain ⟨u, hu⟩ := hs a ha; exact mem_key_of_mem hu
    · obtain ⟨e, he, rfl⟩ := List.mem_map.1 hX; exact hne e he
    · obtain ⟨e, he, rfl⟩ := List.mem_map.1 hX; exact hkn e he
  obtain ⟨tab, h1, h2, h3, h4⟩ := prune_spec P sct hin choose hch old ctc hg
  refine ⟨tab, _, h1, h2.lossless, fun a ha => ?_, fun e he => ?_, rfl, h3⟩
  · obtain ⟨e, he, hea⟩ := List.mem_map.1 (h2.keys.single a ha)
    exact ⟨e.2, by rw [← hea]; exact he⟩
  · obtain ⟨e', he', hee⟩ := List.mem_map.1 (h4 e.1 (mem_key_of_mem he))
    exact ⟨e'.2, by rw [← hee]; exact he'⟩

/-- `{1, 2}` is removed: `{1, 2, 3}` covers it. -/
example : ((prune (exP true) [(1, {0, 1}), (2, {0, 1}), (3, {0, 1})] exChoose
      [({1, 2}, {0, 1}), ({1}, ∅), ({2}, ∅), ({3}, {0, 1})]
      [({1, 2, 3}, {0, 1}), ({1, 2}, ∅), ({1}, ∅), ({2}, ∅), ({3}, ∅)] 2).bind Except.toOption).map
        (fun r => (showTable r.1, r.2)) =
    some ([([1, 2, 3], [0, 1]), ([1], []), ([2], []), ([3], [])], 2) := by decide

/-- C16, what holds. `reconstruct` returns the transactions of `D`, each as the sorted list of its distinct items, in order, up to
the last non-empty one; it fails when all are empty. Missing: the trailing empty transactions. -/
theorem reconstruct_partial (items : List α) (D : List (List α)) (st : State α V) (h : Reach (κ := κ) items D st) :
    ((∀ tr ∈ D, tr = []) ∧ reconstruct st = .error .valueError) ∨
    ∃ D1 tr D2, D = D1 ++ tr :: D2 ∧ tr ≠ [] ∧ (∀ x ∈ D2, x = []) ∧
      reconstruct st = .ok ((D1 ++ [tr]).map (fun tr => sortSet tr.toFinset)) := by
  have hg := (reach_inv items D st h).1
  exact reconstruct_spec D st (history_lossless items D st h) (fun e he => hg.keys.nonempty _ (mem_key_of_mem he))

/-- C16. When the last transaction is not empty, `reconstruct` gives all the transactions back. -/
theorem reconstruct_exact (items : List α) (D : List (List α)) (tr : List α) (htr : tr ≠ []) (st : State α V)
    (h : Reach (κ := κ) items (D ++ [tr]) st) :
    reconstruct st = .ok ((D ++ [tr]).map (fun tr => sortSet tr.toFinset)) := by
  rcases reconstruct_partial items _ st h with ⟨h1, _⟩ | ⟨D1, tr', D2, h1, h2, h3, h4⟩
  · exact absurd (h1 tr (by simp)) htr
  · cases hD2 : D2.reverse with
    | nil =>
      rw [List.reverse_eq_nil_iff] at hD2
      subst hD2
      rw [h1]
      exact h4
    | cons x xs =>
      have h5 : D2 = xs.reverse ++ [x] := by rw [← List.reverse_reverse D2, hD2, List.reverse_cons]
      have h6 : D ++ [tr] = (D1 ++ tr' :: xs.reverse) ++ [x] := by rw [h1, h5]; simp
      have h7 := (List.append_inj' h6 rfl).2
      simp only [List.cons.injEq, and_true] at h7
      exact absurd (h7 ▸ h3 x (by rw [h5]; simp)) htr

/-- C19. The candidates returned by `generate_candidates` are exactly the unions of two entries of the code table used together
in a transaction, not in the given stack, whose estimated gain is positive when the union is met for the first time. -/
theorem candidates_exact (gain : (Finset α × Finset ℕ) → (Finset α × Finset ℕ) → ℚ) (tab : Table α)
    (stack : Finset (Finset α)) (c : Finset α × ℚ) :
    c ∈ (generateCandidates gain tab stack).1 ↔ ∃ before x y after, orderedPairs tab = before ++ (x, y) :: after ∧
      (∃ t, t ∈ x.2 ∧ t ∈ y.2) ∧ c = (x.1 ∪ y.1, gain x y) ∧ c.1 ∉ stack ∧
      (∀ q ∈ before, (∃ t, t ∈ q.1.2 ∧ t ∈ q.2.2) → q.1.1 ∪ q.2.1 ≠ c.1) ∧ 0 < c.2 := by
  have hco : ∀ p : (Finset α × Finset ℕ) × (Finset α × Finset ℕ), CoUsed p ↔ ∃ t, t ∈ p.1.2 ∧ t ∈ p.2.2 := by
    intro p
    unfold CoUsed Finset.Nonempty
    simp only [Finset.mem_inter]
  rw [mem_generateCandidates]
  simp only [hco]
  constructor
  · rintro ⟨l1, ⟨x, y⟩, l2, h⟩; exact ⟨l1, x, y, l2, h⟩
  · rintro ⟨l1, x, y, l2, h⟩; exact ⟨l1, (x, y), l2, h⟩

/-- Three entries; `{1, 3}` and `{2, 3}` are not used together. -/
example : (generateCandidates (fun _ _ => 1) [({1}, {0, 1}), ({2}, {0, 1}), ({3}, {2})] (∅ : Finset (Finset ℕ))).1.map
    (fun c => (sortSet c.1, c.2)) = [([1, 2], 1)] := by decide

/-- C19. They are distinct and listed by non-increasing gain. -/
theorem candidates_distinct_sorted (gain : (Finset α × Finset ℕ) → (Finset α × Finset ℕ) → ℚ) (tab : Table α)
    (stack : Finset (Finset α)) :
    ((generateCandidates gain tab stack).1.map Prod.fst).Nodup ∧
      (generateCandidates gain tab stack).1.Pairwise (fun a b => b.2 ≤ a.2) := by
  unfold generateCandidates
  simp only
  constructor
  · rw [((List.perm_insertionSort _ _).map Prod.fst).nodup_iff, genOuter_eq]
    exact genPairs_nodup _ _ _
  · have : Std.Total (fun a b : Finset α × ℚ => b.2 ≤ a.2) := ⟨fun a b => le_total _ _⟩
    have : IsTrans (Finset α × ℚ) (fun a b => b.2 ≤ a.2) := ⟨fun a b c h1 h2 => le_trans h2 h1⟩
    exact List.pairwise_insertionSort _ _

/-- C19. The stack grows by the unions of the pairs used together, so that no later call with this stack returns a union
considered before. -/
theorem candidates_fresh (gain gain' : (Finset α × Finset ℕ) → (Finset α × Finset ℕ) → ℚ) (tab tab' : Table α)
    (stack : Finset (Finset α)) :
    stack ⊆ (generateCandidates gain tab stack).2 ∧
    (∀ c ∈ (generateCandidates gain tab stack).1, c.1 ∈ (generateCandidates gain tab stack).2) ∧
    ∀ c ∈ (generateCandidates gain' tab' (generateCandidates gain tab stack).2).1,
      c.1 ∉ stack ∧ c.1 ∉ (generateCandidates gain tab stack).1.map Prod.fst := by
  have hst : ∀ X, X ∈ (generateCandidates gain tab stack).2 ↔
      X ∈ stack ∨ ∃ p ∈ orderedPairs tab, CoUsed p ∧ X = p.1.1 ∪ p.2.1 := by
    intro X
    unfold generateCandidates
    simp only
    rw [genOuter_eq, genPairs_stack]
  have h2 : ∀ c ∈ (generateCandidates gain tab stack).1, c.1 ∈ (generateCandidates gain tab stack).2 := by
    intro c hc
    obtain ⟨l1, p, l2, h1, h2, h3, _⟩ := (mem_generateCandidates _ _ _ c).1 hc
    exact (hst _).2 (Or.inr ⟨p, by rw [h1]; simp, h2, by rw [h3]⟩)
  refine ⟨fun X hX => (hst X).2 (Or.inl hX), h2, fun c hc => ?_⟩
  obtain ⟨_, _, _, _, _, _, h4, _⟩ := (mem_generateCandidates _ _ _ c).1 hc
  refine ⟨fun h => h4 ((hst _).2 (Or.inl h)), fun h => ?_⟩
  obtain ⟨c', hc', he⟩ := List.mem_map.1 h
  exact h4 (he ▸ h2 c' hc')

/-- C20. After `prefit(D)` the code table holds exactly one singleton per item of `D` or of `items`, with the transactions
containing it. -/
theorem prefit_singletons (P : Params α κ V) (items : List α) (D : List (List α)) :
    ((prefit P items D).ct.map Prod.fst).Nodup ∧
    (∀ X u, (X, u) ∈ (prefit P items D).ct ↔
      ∃ a, X = {a} ∧ ((∃ t, Occurs D a t) ∨ a ∈ items) ∧ ∀ t, t ∈ u ↔ Occurs D a t) := by
  have hnd := toVertical_nodup ∅ D
  obtain ⟨_, hk, ho⟩ := reach_inv items D (prefit P items D) (.prefit P)
  have hsn : ((prefit P items D).sct.map Prod.fst).Nodup := (prefit_sct P items _ hnd).1
  refine ⟨prefit_ct_nodup P items _ hnd, fun X u => ?_⟩
  have hm := prefit_ct_mem P items (toVertical ∅ D) (X, u)
  change (X, u) ∈ (prefit P items D).ct ↔ ∃ x ∈ (prefit P items D).sct, (X, u) = ({x.1}, x.2) at hm
  rw [hm]
  constructor
  · rintro ⟨x, hx, he⟩
    rw [Prod.mk.injEq] at he
    obtain ⟨rfl, rfl⟩ := he
    refine ⟨x.1, rfl, (hk x.1).1 (mem_key_of_mem hx), fun t => ?_⟩
    rw [← lookup_of_mem hsn hx]
    exact ho x.1 t
  · rintro ⟨a, rfl, ha, hu⟩
    have hin := mem_of_key hsn ((hk a).2 ha)
    refine ⟨_, hin, ?_⟩
    rw [Prod.mk.injEq]
    refine ⟨rfl, ?_⟩
    ext t
    rw [hu, ho]

/-- C17 fails. After `prefit([[1, 2], [1, 2], [3]])`, `update({1, 2})` twice: item `1` of transaction `0` is not covered any
more. -/
theorem update_twice_loses :
    let D := [[1, 2], [1, 2], [3]]
    ∃ st1 st2 : State ℕ ℕ, update (exP false) exChoose (prefit (exP false) [] D) {1, 2} = some (.ok st1) ∧
      update (exP false) exChoose st1 {1, 2} = some (.ok st2) ∧
      Lossless (Occurs D) st1.ct ∧ ¬ Lossless (Occurs D) st2.ct ∧ Occurs D 1 0 ∧ ∀ e ∈ st2.ct, 1 ∈ e.1 → 0 ∉ e.2 := by
  intro D
  have key : ((update (exP false) exChoose (prefit (exP false) [] D) {1, 2}).bind Except.toOption).any (fun st1 =>
      ((update (exP false) exChoose st1 {1, 2}).bind Except.toOption).any (fun st2 =>
        st2.ct.all (fun e => decide (1 ∈ e.1 → 0 ∉ e.2)))) = true := by decide
  have hget : ∀ (x : Option (Except Err (State ℕ ℕ))) (p : State ℕ ℕ → Bool),
      (x.bind Except.toOption).any p = true → ∃ st, x = some (.ok st) ∧ p st = true := by
    intro x p h
    rcases x with _ | _ | st
    · cases h
    · cases h
    · exact ⟨st, rfl, h⟩
  obtain ⟨st1, h1, key⟩ := hget _ _ key
  obtain ⟨st2, h2, key⟩ := hget _ _ key
  have hocc : Occurs D 1 0 := ⟨[1, 2], rfl, by decide⟩
  have hno : ∀ e ∈ st2.ct, 1 ∈ e.1 → 0 ∉ e.2 := fun e he => of_decide_eq_true (List.all_eq_true.1 key e he)
  refine ⟨st1, st2, h1, h2, ?_, fun hl => ?_, hocc, hno⟩
  · obtain ⟨choose, hch⟩ := chooserOk_exists (α := ℕ)
    have h3 : update (exP false) choose (prefit (exP false) [] D) {1, 2} = some (.ok st1) := by
      rw [← h1]
      rfl
    refine history_lossless (κ := ℕ) [] D st1 (.update _ choose _ st1 {1, 2} (.prefit _) hch (fun u hu => ?_) h3)
    have h4 := mem_key_of_mem hu
    have h5 : ({1, 2} : Finset ℕ) ∉ (prefit (exP false) [] D).ct.map Prod.fst := by decide
    exact h5 h4
  · obtain ⟨e, he, h4, h5⟩ := hl.complete 1 0 hocc
    exact hno e he h4 h5

/-- The table is kept sorted by `prefit` and `update`. -/
theorem table_sorted (P : Params α κ V) (items : List α) (D : List (List α)) :
    (prefit P items D).ct.Pairwise (fun a b => P.key a.1 ≤ P.key b.1) ∧
    ∀ (choose : Chooser α) (st st' : State α V) (c : Finset α), update P choose st c = some (.ok st') →
      st'.ct.Pairwise (fun a b => P.key a.1 ≤ P.key b.1) := by
  refine ⟨sortTable_sorted P _, fun choose st st' c h => ?_⟩
  unfold update at h
  cases he : evaluate P choose st c with
  | none => rw [he] at h; cases h
  | some r =>
    cases r with
    | error e => rw [he] at h; cases h
    | ok r =>
      rw [he] at h
      simp only [Option.some.injEq, Except.ok.injEq] at h
      subst h
      exact sortTable_sorted P _

/-- C17, exact, without pruning. In a table sorted by the current key (`table_sorted`), `update` with a candidate of the table
keeps the cover lossless exactly when the candidate is not used at all in the cover of the data by the itemsets of the table.
Missing from C17: the case where it is used, where data is always lost (`update_existing_exact_partial` in `Slim/OwnProps.lean` says how). -/
theorem update_existing_partial (P : Params α κ V) (hP : P.pruning = false) (choose : Chooser α) (items : List α)
    (D : List (List α)) (st : State α V) (h : Reach (κ := κ) items D st)
    (hs : st.ct.Pairwise (fun a b => P.key a.1 ≤ P.key b.1)) (c : Finset α) (u : Finset ℕ) (hc : (c, u) ∈ st.ct)
    (st' : State α V) (hu : update P choose st c = some (.ok st')) :
    ∃ tab, cover st.sct (st.ct.map Prod.fst) = .ok tab ∧ (Lossless (Occurs D) st'.ct ↔ (c, ∅) ∈ tab) := by
  obtain ⟨hg, hk, ho⟩ := reach_inv items D st h
  have hck : c ∈ st.ct.map Prod.fst := mem_key_of_mem hc
  refine ⟨_, cover_eq _ _ hg.keys, ?_⟩
  have hst' : ∃ size, st' = updateUsages P st (dictSet (coverMap (lookup st.sct) (st.ct.map Prod.fst)) c ∅) size := by
    unfold update evaluate at hu
    rw [if_neg (Finset.nonempty_iff_ne_empty.1 (hg.keys.nonempty c hck)), cover_dup P st hg hs c hck] at hu
    simp only [hP] at hu
    cases hsz : computeSizes P (dictSet (coverMap (lookup st.sct) (st.ct.map Prod.fst)) c ∅) with
    | error e => rw [hsz] at hu; cases hu
    | ok size =>
      rw [hsz] at hu
      simp only [Bool.false_eq_true, if_false, Option.some.injEq, Except.ok.injEq] at hu
      exact ⟨size, hu.symm⟩
  have htab := coverMap_good st.sct _ hg.keys
  have hkeys := keys_coverMap (lookup st.sct) (st.ct.map Prod.fst)
  generalize coverMap (lookup st.sct) (st.ct.map Prod.fst) = tab at htab hkeys hst'
  have hl : Lossless (Occurs D) tab := ⟨htab.lossless.nodup, fun a t h => htab.lossless.complete a t ((ho a t).2 h),
    fun e he a ha t ht => (ho a t).1 (htab.lossless.sound e he a ha t ht), htab.lossless.unique⟩
  obtain ⟨size, rfl⟩ := hst'
  obtain ⟨hm, hnd⟩ := updateUsages_same_keys P st hg (dictSet tab c ∅)
    (by rw [keys_dictSet, if_pos (by rw [hkeys]; exact hck), hkeys]) size
  constructor
  · intro hl2
    obtain ⟨e, he, rfl⟩ := List.mem_map.1 (hkeys ▸ hck : c ∈ tab.map Prod.fst)
    obtain ⟨a, ha⟩ := htab.keys.nonempty _ (mem_key_of_mem he)
    suffices he2 : e.2 = ∅ by rw [← he2]; exact he
    rw [Finset.eq_empty_iff_forall_notMem]
    intro t ht
    obtain ⟨e', he', h1, h2⟩ := hl2.complete a t (hl.sound e he a ha t ht)
    rw [hm, mem_dictSet] at he'
    rcases he' with rfl | ⟨he', hne⟩
    · exact absurd h2 (by simp)
    · exact hne (by rw [hl.unique e' he' e he a h1 t h2 ha ht])
  · intro hin
    refine hl.congr hnd (fun e he => ?_) (fun e he => Or.inl ?_)
    · rw [hm, mem_dictSet] at he
      rcases he with rfl | he
      · exact hin
      · exact he.1
    · rw [hm, mem_dictSet]
      by_cases hec : e.1 = c
      · left
        exact eq_of_mem_of_key hl.nodup he hin hec
      · exact Or.inr ⟨he, hec⟩

/-- C16 fails: a trailing empty transaction is lost, and a database of empty transactions raises an error. -/
theorem reconstruct_loses_trailing :
    reconstruct (prefit (exP false) [] [[1, 2], []]) = .ok [[1, 2]] ∧
    reconstruct (prefit (exP false) [] [[], []]) = .error .valueError := by
  constructor <;> decide

end Verif.Slim
