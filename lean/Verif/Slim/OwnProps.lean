import Verif.Slim.OwnLemmas

/-!
# The usages of a fitted SLIM are those of its own cover (C113), and updates with an itemset of the table under pruning (C17)
-/

set_option autoImplicit false
set_option linter.unusedSectionVars false

namespace Verif.Slim

variable {α κ V : Type*} [LinearOrder α] [LinearOrder κ] [LinearOrder V]

/-! ## Specification -/

/-- Every transaction of `D` is covered greedily by the itemsets of the table, in the order of the table: the itemsets that list the
transaction are those obtained by taking, one after the other, each itemset included in what remains of it. -/
def GreedyUsages (D : List (List α)) (tab : Table α) : Prop :=
  ∀ (t : ℕ) (tr : List α), D[t]? = some tr → (tab.filter (fun e => t ∈ e.2)).map Prod.fst = greedy (tab.map Prod.fst) tr.toFinset

/-- The states reached from `prefit(D)` by `update(candidate)` with candidates that are not in the code table, on one object. -/
inductive ReachKey (P : Params α κ V) (items : List α) (D : List (List α)) : State α V → Prop
  | prefit : ReachKey P items D (prefit P items D)
  | update (choose : Chooser α) (st st' : State α V) (c : Finset α) (h : ReachKey P items D st)
      (hch : ChooserOk choose) (hnew : ∀ u, (c, u) ∉ st.ct) (hu : update P choose st c = some (.ok st')) : ReachKey P items D st'

/-! ## Lemmas -/

theorem ReachKey.reach {P : Params α κ V} {items : List α} {D : List (List α)} {st : State α V} (h : ReachKey P items D st) :
    Reach (κ := κ) items D st := by
  induction h with
  | prefit => exact Reach.prefit P
  | update choose st st' c _ hch hnew hu ih => exact Reach.update P choose st st' c ih hch hnew hu

theorem not_key {tab : Table α} {c : Finset α} (h : ∀ u, (c, u) ∉ tab) : c ∉ tab.map Prod.fst := by
  intro hc
  obtain ⟨e, he, rfl⟩ := List.mem_map.1 hc
  exact h e.2 he

theorem ReachKey.settled {P : Params α κ V} (hinj : Function.Injective P.key) {items : List α} {D : List (List α)} {st : State α V}
    (h : ReachKey P items D st) : Settled P st := by
  induction h with
  | prefit => exact prefit_settled P items D
  | update choose st st' c h hch hnew hu ih =>
    exact update_settled P hinj choose hch st st' (reach_inv items D st h.reach).1 ih c (not_key hnew) hu

theorem ReachKey.sct_eq {P : Params α κ V} {items : List α} {D : List (List α)} {st : State α V} (h : ReachKey P items D st) :
    st.sct = (Slim.prefit P items D).sct := by
  induction h with
  | prefit => rfl
  | update choose st st' c h hch hnew hu ih =>
    unfold Slim.update at hu
    cases he : evaluate P choose st c with
    | none => rw [he] at hu; cases hu
    | some r =>
      cases r with
      | error e => rw [he] at hu; cases hu
      | ok r =>
        rw [he] at hu
        simp only [Option.some.injEq, Except.ok.injEq] at hu
        rw [← ih, ← hu]
        rfl

theorem own_greedy {D : List (List α)} {st : State α V} (hg : Good st.sct st.ct) (ho : ∀ a t, t ∈ lookup st.sct a ↔ Occurs D a t)
    (h : Own st.sct st.ct) : GreedyUsages D st.ct := by
  intro t tr htr
  have := coverMap_greedy (lookup st.sct) (st.ct.map Prod.fst) hg.keys.nonempty t tr.toFinset (fun _ _ a _ => by
    rw [ho, List.mem_toFinset]
    constructor
    · exact fun ha => ⟨tr, htr, ha⟩
    · rintro ⟨tr', htr', ha⟩
      rw [htr, Option.some.injEq] at htr'
      exact htr' ▸ ha)
  rw [h] at this
  exact this

theorem greedy_cover {D : List (List α)} {st : State α V} (hg : Good st.sct st.ct) (h : GreedyUsages D st.ct) :
    ∃ cols mat, slimCover st D = .ok (cols, mat) ∧ mat.length = D.length ∧
      ∀ (t : ℕ) (row : List Bool), mat[t]? = some row → marked cols row = (st.ct.filter (fun e => t ∈ e.2)).map Prod.fst := by
  obtain ⟨cols, mat, h1, h2, h3⟩ := cover_row_greedy_good st hg D
  refine ⟨cols, mat, h1, h2, fun t row hrow => ?_⟩
  have hlt : t < D.length := by rw [← h2]; exact (List.getElem?_eq_some_iff.1 hrow).1
  obtain ⟨row', hr, hm⟩ := h3 t D[t] (List.getElem?_eq_getElem hlt)
  rw [hrow, Option.some.injEq] at hr
  rw [hr, hm, h t D[t] (List.getElem?_eq_getElem hlt)]

/-- Settings for the examples: the size is the number of uses of itemsets. -/
def exS2 (pruning : Bool) : Settings ℕ ℕ :=
  ⟨[], pruning, sortSet, fun tab => (tab.map (fun e => e.2.card)).sum, fun sct => (sct.map (fun e => e.2.card)).sum⟩

/-! ## C113 -/

/-- C113. After a `fit` on any object, used before or not, every transaction of the data is covered greedily by the code table in its own
order, and `cover` on the same data marks in each row exactly the itemsets that list this transaction. -/
theorem fit_usages (S : Settings α V) (hiter : ∀ (X : Finset α) (a : α), a ∈ S.iter X ↔ a ∈ X) (o : SObj α V) (O : Oracle α)
    (hO : OracleOk O) (fuel : ℕ) (D asked : List (List α)) (st : State α V) (h : (sstep S o (.fit O fuel D asked)).st = some st) :
    GreedyUsages D st.ct ∧ ∃ cols mat, slimCover st D = .ok (cols, mat) ∧ mat.length = D.length ∧
      ∀ (t : ℕ) (row : List Bool), mat[t]? = some row → marked cols row = (st.ct.filter (fun e => t ∈ e.2)).map Prod.fst := by
  have hfit : fit (S.params (sctOf S.items D) o.memo) O S.items fuel D = some (.ok st) := by
    unfold sstep at h
    simp only at h
    cases hf : fit (S.params (sctOf S.items D) o.memo) O S.items fuel D with
    | none => rw [hf] at h; cases h
    | some r =>
      cases r with
      | error e => rw [hf] at h; cases h
      | ok r =>
        rw [hf] at h
        simp only [Option.bind_some, Except.toOption, Option.some.injEq] at h
        rw [h]
  have hinj : Function.Injective (S.params (sctOf S.items D) o.memo).key := coverKey_injective S.iter hiter _ _
  generalize S.params (sctOf S.items D) o.memo = P at hfit hinj
  obtain ⟨hg, hsct, _⟩ := fit_good P O hO S.items D fuel st hfit
  have ho : ∀ a t, t ∈ lookup st.sct a ↔ Occurs D a t := by
    rw [hsct]
    exact (reach_inv S.items D _ (Reach.prefit P)).2.2
  have hs := fitLoop_settled P hinj O hO fuel 0 _ st (prefit_good P S.items _ (toVertical_nodup ∅ D)) (prefit_settled P S.items D) hfit
  have h1 := own_greedy hg ho hs.own
  exact ⟨h1, greedy_cover hg h1⟩

/-- A fit on an object used before, where four itemsets are accepted: the usages, and the greedy covers of two transactions. -/
example : ((sstep (exS2 false) (srun (exS2 false) SObj.new [.fit exO 9 [[3], [3, 1]] []])
    (.fit exO 9 [[1, 2, 3], [3, 2, 1], [1, 2], [4, 2, 1]] [])).st.map
      (fun st => (showTable st.ct, greedy (st.ct.map Prod.fst) {3, 2, 1} == [{1, 2, 3}], greedy (st.ct.map Prod.fst) {1, 2} == [{1, 2}]))) =
    some ([([1, 2, 3], [0, 1]), ([1, 2, 4], [3]), ([2, 3], []), ([1, 2], [2]), ([2], []), ([3], []), ([1], []), ([4], [])], true, true) := by
  decide +kernel

/-- C113. The same after `prefit` and any number of `update(candidate)` with itemsets that are not in the table. -/
theorem history_usages (P : Params α κ V) (hinj : Function.Injective P.key) (items : List α) (D : List (List α)) (st : State α V)
    (h : ReachKey P items D st) :
    GreedyUsages D st.ct ∧ ∃ cols mat, slimCover st D = .ok (cols, mat) ∧ mat.length = D.length ∧
      ∀ (t : ℕ) (row : List Bool), mat[t]? = some row → marked cols row = (st.ct.filter (fun e => t ∈ e.2)).map Prod.fst := by
  obtain ⟨hg, _, ho⟩ := reach_inv items D st h.reach
  have h1 := own_greedy hg ho (h.settled hinj).own
  exact ⟨h1, greedy_cover hg h1⟩

/-- C113. The code table is determined by its itemsets: two histories on the same data that end with the same itemsets end with the same
order and the same usages, whatever happened in between. -/
theorem history_determined (P : Params α κ V) (hinj : Function.Injective P.key) (items : List α) (D : List (List α)) (st st' : State α V)
    (h : ReachKey P items D st) (h' : ReachKey P items D st') (hX : ∀ X, (∃ u, (X, u) ∈ st.ct) ↔ ∃ u, (X, u) ∈ st'.ct) : st.ct = st'.ct := by
  have hs := h.settled hinj
  have hs' := h'.settled hinj
  have hnd := (reach_inv items D st h.reach).1.keys.nodup
  have hnd' := (reach_inv items D st' h'.reach).1.keys.nodup
  have hm : ∀ (tab : Table α) X, X ∈ tab.map Prod.fst ↔ ∃ u, (X, u) ∈ tab := by
    intro tab X
    rw [List.mem_map]
    exact ⟨fun ⟨e, he, hh⟩ => ⟨e.2, by rw [← hh]; exact he⟩, fun ⟨u, hu⟩ => ⟨_, hu, rfl⟩⟩
  have hp : (st.ct.map Prod.fst).Perm (st'.ct.map Prod.fst) :=
    (List.perm_ext_iff_of_nodup hnd hnd').2 (fun X => by rw [hm, hm, hX])
  have hk : st.ct.map Prod.fst = st'.ct.map Prod.fst := by
    refine hp.eq_of_pairwise (le := fun X Y => P.key X ≤ P.key Y) (fun a b _ _ h1 h2 => hinj (le_antisymm h1 h2)) ?_ ?_
    · rw [List.pairwise_map]; exact hs.sorted
    · rw [List.pairwise_map]; exact hs'.sorted
  have h1 := hs.own
  have h2 := hs'.own
  unfold Own at h1 h2
  rw [h.sct_eq, hk] at h1
  rw [h'.sct_eq] at h2
  rw [← h1, h2]

/-! ## C17 with pruning -/

/-- The first loop of `_prune` when no usage decreased, except to nothing. -/
theorem pruneInit_unchanged (old ctc : Table α) (ps : Finset (Finset α)) (hnd : (ctc.map Prod.fst).Nodup)
    (h : ∀ e ∈ old, lookup ctc e.1 = e.2 ∨ lookup ctc e.1 = ∅) :
    (pruneInit old ctc ps).2 = ps ∧
      ∀ e, e ∈ (pruneInit old ctc ps).1 ↔ e ∈ ctc ∧ ¬ (1 < e.1.card ∧ e.2 = ∅ ∧ e.1 ∈ old.map Prod.fst) := by
  induction old generalizing ctc with
  | nil => exact ⟨rfl, fun e => by simp [pruneInit]⟩
  | cons x old ih =>
    obtain ⟨X, u⟩ := x
    have hx := h (X, u) List.mem_cons_self
    have hold := fun e (he : e ∈ old) => h e (List.mem_cons_of_mem _ he)
    simp only at hx
    unfold pruneInit
    by_cases h1 : 1 < X.card
    · rw [if_pos h1]
      by_cases h2 : lookup ctc X = ∅
      · rw [if_pos h2]
        obtain ⟨g1, g2⟩ := ih (dictDel ctc X) (hnd.sublist (keys_dictDel_sublist ctc X)) (fun e he => by
          by_cases heX : e.1 = X
          · right
            rw [heX]
            refine lookup_of_not_mem ?_
            rw [keys_dictDel_eq, List.mem_filter]
            simp
          · rw [lookup_dictDel _ hnd _ _ heX]
            exact hold e he)
        refine ⟨g1, fun e => ?_⟩
        rw [g2, mem_dictDel, List.map_cons, List.mem_cons]
        constructor
        · rintro ⟨⟨h3, h4⟩, h5⟩
          refine ⟨h3, ?_⟩
          rintro ⟨h6, h7, h8 | h8⟩
          · exact h4 h8
          · exact h5 ⟨h6, h7, h8⟩
        · rintro ⟨h3, h4⟩
          refine ⟨⟨h3, fun h5 => h4 ⟨h5 ▸ h1, ?_, Or.inl h5⟩⟩, fun h5 => h4 ⟨h5.1, h5.2.1, Or.inr h5.2.2⟩⟩
          rw [← lookup_of_mem hnd h3, h5, h2]
      · rw [if_neg h2]
        have h3 : lookup ctc X = u := hx.resolve_right h2
        rw [if_neg (by rw [h3]; exact lt_irrefl _)]
        obtain ⟨g1, g2⟩ := ih ctc hnd hold
        refine ⟨g1, fun e => ?_⟩
        rw [g2, List.map_cons, List.mem_cons]
        constructor
        · rintro ⟨h4, h5⟩
          refine ⟨h4, ?_⟩
          rintro ⟨h6, h7, h8 | h8⟩
          · have h9 := lookup_of_mem hnd h4
            rw [h8, h7] at h9
            exact h2 h9
          · exact h5 ⟨h6, h7, h8⟩
        · rintro ⟨h4, h5⟩
          exact ⟨h4, fun h6 => h5 ⟨h6.1, h6.2.1, Or.inr h6.2.2⟩⟩
    · rw [if_neg h1]
      obtain ⟨g1, g2⟩ := ih ctc hnd hold
      refine ⟨g1, fun e => ?_⟩
      rw [g2, List.map_cons, List.mem_cons]
      constructor
      · rintro ⟨h4, h5⟩
        refine ⟨h4, ?_⟩
        rintro ⟨h6, h7, h8 | h8⟩
        · rw [h8] at h6
          exact h1 h6
        · exact h5 ⟨h6, h7, h8⟩
      · rintro ⟨h4, h5⟩
        exact ⟨h4, fun h6 => h5 ⟨h6.1, h6.2.1, Or.inr h6.2.2⟩⟩

/-- The members of the table after `update(usages=...)`, when `usages` has all the singletons. -/
theorem updateUsages_mem_single (P : Params α κ V) (st : State α V) (hg : Good st.sct st.ct) (usages : Table α)
    (hnd : (usages.map Prod.fst).Nodup) (hsing : ∀ a ∈ st.sct.map Prod.fst, {a} ∈ usages.map Prod.fst) (size : V) (e : Finset α × Finset ℕ) :
    e ∈ (updateUsages P st usages size).ct ↔ e ∈ usages := by
  unfold updateUsages
  rw [(sortTable_perm P _).mem_iff, List.mem_filter, mem_dictUpdate _ _ hnd]
  simp only [decide_eq_true_eq, List.mem_filter, not_and, not_lt]
  constructor
  · rintro ⟨h | ⟨h1, h2⟩, h3⟩
    · exact h
    · exfalso
      have hcard := h3 (mem_key_of_mem h1) h2
      have hne := hg.keys.nonempty _ (mem_key_of_mem h1)
      obtain ⟨a, ha⟩ := Finset.card_eq_one.1 (le_antisymm hcard hne.card_pos)
      apply h2
      rw [ha]
      exact hsing a (hg.keys.known _ (mem_key_of_mem h1) a (by rw [ha]; simp))
  · exact fun h => ⟨Or.inl h, fun _ h2 => absurd (mem_key_of_mem h) h2⟩

/-- C17, exact, with and without pruning, on one object. `update` with an itemset `c` of the table keeps the table lossless exactly when `c`
is not used. All the other used itemsets keep their usages, and `c` ends up unused or out of the table: the items of `c` are lost in all the
transactions that listed it. With pruning and more than one item, `c` leaves the table.
Missing from C17: the case where `c` is used, where data is always lost. -/
theorem update_existing_exact_partial (P : Params α κ V) (hinj : Function.Injective P.key) (choose : Chooser α) (items : List α)
    (D : List (List α)) (st : State α V) (h : ReachKey P items D st) (c : Finset α) (u : Finset ℕ) (hc : (c, u) ∈ st.ct)
    (st' : State α V) (hu : update P choose st c = some (.ok st')) :
    (Lossless (Occurs D) st'.ct ↔ u = ∅) ∧
      (∀ X v, v ≠ ∅ → ((X, v) ∈ st'.ct ↔ (X, v) ∈ st.ct ∧ X ≠ c)) ∧
      (P.pruning = true → 1 < c.card → c ∉ st'.ct.map Prod.fst) := by
  obtain ⟨hg, hk, ho⟩ := reach_inv items D st h.reach
  obtain ⟨hown, hs⟩ := h.settled hinj
  have hl := lossless_of_good hg ho
  have hck : c ∈ st.ct.map Prod.fst := mem_key_of_mem hc
  have hkd : (dictSet st.ct c ∅).map Prod.fst = st.ct.map Prod.fst := by rw [keys_dictSet, if_pos hck]
  have hndd : ((dictSet st.ct c ∅).map Prod.fst).Nodup := by rw [hkd]; exact hg.keys.nodup
  -- the usages computed by `evaluate`
  have hev : ∃ size usages, st' = updateUsages P st usages size ∧ (usages.map Prod.fst).Nodup ∧
      ((P.pruning = false ∧ usages = dictSet st.ct c ∅) ∨ (P.pruning = true ∧
        ∀ e, e ∈ usages ↔ e ∈ dictSet st.ct c ∅ ∧ ¬ (1 < e.1.card ∧ e.2 = ∅ ∧ e.1 ∈ st.ct.map Prod.fst))) := by
    unfold update evaluate at hu
    rw [if_neg (Finset.nonempty_iff_ne_empty.1 (hg.keys.nonempty c hck)), cover_dup P st hg hs c hck] at hu
    unfold Own at hown
    rw [hown] at hu
    simp only at hu
    cases hsz : computeSizes P (dictSet st.ct c ∅) with
    | error e => rw [hsz] at hu; cases hu
    | ok size =>
      rw [hsz] at hu
      simp only at hu
      by_cases hpr : P.pruning = true
      · rw [if_pos hpr] at hu
        obtain ⟨g1, g2⟩ := pruneInit_unchanged st.ct (dictSet st.ct c ∅) ∅ hndd (fun e he => by
          rw [lookup_dictSet _ hg.keys.nodup]
          by_cases hec : e.1 = c
          · right; rw [if_pos hec]
          · left; rw [if_neg hec]; exact lookup_of_mem hg.keys.nodup he)
        have hprune : prune P st.sct choose st.ct (dictSet st.ct c ∅) size = some (.ok ((pruneInit st.ct (dictSet st.ct c ∅) ∅).1, size)) := by
          unfold prune
          simp only
          rw [g1]
          obtain ⟨n, hn⟩ : ∃ n, ((pruneInit st.ct (dictSet st.ct c ∅) ∅).1.length + 1) * ((pruneInit st.ct (dictSet st.ct c ∅) ∅).1.length + 1) = n := ⟨_, rfl⟩
          rw [hn]
          cases n with
          | zero => unfold pruneLoop; rw [if_pos rfl]
          | succ n => unfold pruneLoop; rw [if_pos rfl]
        rw [hprune] at hu
        simp only [Option.some.injEq, Except.ok.injEq] at hu
        have hsub : ∀ (old ctc : Table α) (ps : Finset (Finset α)), ((pruneInit old ctc ps).1.map Prod.fst).Sublist (ctc.map Prod.fst) := by
          intro old
          induction old with
          | nil => exact fun ctc ps => List.Sublist.refl _
          | cons x old ih =>
            intro ctc ps
            obtain ⟨X, w⟩ := x
            unfold pruneInit
            by_cases h1 : 1 < X.card
            · rw [if_pos h1]
              by_cases h2 : lookup ctc X = ∅
              · rw [if_pos h2]; exact (ih _ _).trans (keys_dictDel_sublist ctc X)
              · rw [if_neg h2]
                by_cases h3 : (lookup ctc X).card < w.card
                · rw [if_pos h3]; exact ih _ _
                · rw [if_neg h3]; exact ih _ _
            · rw [if_neg h1]; exact ih _ _
        exact ⟨size, _, hu.symm, hndd.sublist (hsub _ _ _), Or.inr ⟨hpr, g2⟩⟩
      · rw [if_neg hpr] at hu
        simp only [Option.some.injEq, Except.ok.injEq] at hu
        exact ⟨size, _, hu.symm, hndd, Or.inl ⟨by simpa using hpr, rfl⟩⟩
  obtain ⟨size, usages, rfl, hnd, hus⟩ := hev
  have hsing : ∀ a ∈ st.sct.map Prod.fst, {a} ∈ usages.map Prod.fst := by
    intro a ha
    have h1 : {a} ∈ (dictSet st.ct c ∅).map Prod.fst := by rw [hkd]; exact hg.keys.single a ha
    rcases hus with ⟨_, rfl⟩ | ⟨_, h2⟩
    · exact h1
    · obtain ⟨e, he, hea⟩ := List.mem_map.1 h1
      refine List.mem_map.2 ⟨e, (h2 e).2 ⟨he, ?_⟩, hea⟩
      rintro ⟨h3, _⟩
      rw [hea, Finset.card_singleton] at h3
      omega
  have hm := updateUsages_mem_single P st hg usages hnd hsing size
  have hnd' : ((updateUsages P st usages size).ct.map Prod.fst).Nodup := by
    unfold updateUsages
    rw [((sortTable_perm P _).map Prod.fst).nodup_iff]
    exact nodup_filter_keys _ _ (nodup_dictUpdate _ _ hg.keys.nodup)
  have hused : ∀ X v, v ≠ ∅ → ((X, v) ∈ (updateUsages P st usages size).ct ↔ (X, v) ∈ st.ct ∧ X ≠ c) := by
    intro X v hv
    rw [hm]
    have hd : (X, v) ∈ dictSet st.ct c ∅ ↔ (X, v) ∈ st.ct ∧ X ≠ c := by
      rw [mem_dictSet]
      constructor
      · rintro (h1 | h1)
        · exact absurd (Prod.mk.inj h1).2 hv
        · exact h1
      · exact Or.inr
    rcases hus with ⟨_, rfl⟩ | ⟨_, h2⟩
    · exact hd
    · rw [h2, hd]
      exact ⟨fun h => h.1, fun h => ⟨h, fun h3 => hv h3.2.1⟩⟩
  refine ⟨⟨fun hl2 => ?_, fun hue => ?_⟩, hused, fun hpr hcard hin => ?_⟩
  · obtain ⟨a, ha⟩ := hg.keys.nonempty _ hck
    rw [Finset.eq_empty_iff_forall_notMem]
    intro t ht
    obtain ⟨e, he, h1, h2⟩ := hl2.complete a t (hl.sound _ hc a ha t ht)
    obtain ⟨h3, h4⟩ := (hused e.1 e.2 (fun h => by rw [h] at h2; exact absurd h2 (by simp))).1 he
    exact h4 (congrArg Prod.fst (hl.unique e h3 _ hc a h1 t h2 ha ht))
  · subst hue
    have hsame : ∀ e, e ∈ dictSet st.ct c ∅ ↔ e ∈ st.ct := by
      intro e
      rw [mem_dictSet]
      constructor
      · rintro (rfl | h1)
        · exact hc
        · exact h1.1
      · intro h1
        by_cases h2 : e.1 = c
        · exact Or.inl (eq_of_mem_of_key hg.keys.nodup h1 hc h2)
        · exact Or.inr ⟨h1, h2⟩
    refine hl.congr hnd' (fun e he => ?_) (fun e he => ?_)
    · rw [hm] at he
      rcases hus with ⟨_, rfl⟩ | ⟨_, h2⟩
      · exact (hsame e).1 he
      · exact (hsame e).1 ((h2 e).1 he).1
    · by_cases h1 : e.2 = ∅
      · exact Or.inr h1
      · left
        rw [hm]
        rcases hus with ⟨_, rfl⟩ | ⟨_, h2⟩
        · exact (hsame e).2 he
        · exact (h2 e).2 ⟨(hsame e).2 he, fun h3 => h1 h3.2.1⟩
  · obtain ⟨e, he, rfl⟩ := List.mem_map.1 hin
    rw [hm] at he
    rcases hus with ⟨h1, _⟩ | ⟨_, h2⟩
    · rw [h1] at hpr; cases hpr
    · obtain ⟨h3, h4⟩ := (h2 e).1 he
      refine h4 ⟨hcard, ?_, hck⟩
      rw [mem_dictSet] at h3
      rcases h3 with h3 | h3
      · exact congrArg Prod.snd h3
      · exact absurd rfl h3.2

/-- The hypotheses hold for a table reached with pruning where `{1, 2}` is used: its second insertion drops it, and the transactions 0 and 1
are covered by nothing. -/
example : let D := [[1, 2], [1, 2], [3]]
    let P := (exS2 true).params (sctOf [] D) []
    Function.Injective P.key ∧ ∃ st st' : State ℕ ℕ, ReachKey P [] D st ∧ (({1, 2} : Finset ℕ), ({0, 1} : Finset ℕ)) ∈ st.ct ∧
      update P exChoose st {1, 2} = some (.ok st') ∧ showTable st'.ct = [([1], []), ([2], []), ([3], [2])] := by
  intro D P
  refine ⟨coverKey_injective _ (fun X a => mem_sortSet X a) _ _, ?_⟩
  have key : ((update P exChoose (prefit P [] D) {1, 2}).bind Except.toOption).any (fun st1 =>
      ((update P exChoose st1 {1, 2}).bind Except.toOption).any (fun st2 =>
        decide ((({1, 2} : Finset ℕ), ({0, 1} : Finset ℕ)) ∈ st1.ct ∧ showTable st2.ct = [([1], []), ([2], []), ([3], [2])]))) = true := by
    decide +kernel
  have hget : ∀ (x : Option (Except Err (State ℕ ℕ))) (p : State ℕ ℕ → Bool),
      (x.bind Except.toOption).any p = true → ∃ st, x = some (.ok st) ∧ p st = true := by
    intro x p h
    rcases x with _ | _ | st
    · cases h
    · cases h
    · exact ⟨st, rfl, h⟩
  obtain ⟨st1, h1, key⟩ := hget _ _ key
  obtain ⟨st2, h2, key⟩ := hget _ _ key
  have key := of_decide_eq_true key
  obtain ⟨choose, hch⟩ := chooserOk_exists (α := ℕ)
  have h3 : update P choose (prefit P [] D) {1, 2} = some (.ok st1) := by
    rw [← h1]
    rfl
  refine ⟨st1, st2, .update choose _ st1 {1, 2} .prefit hch (fun u hu => ?_) h3, key.1, h2, key.2⟩
  have h5 : ({1, 2} : Finset ℕ) ∉ (prefit P [] D).ct.map Prod.fst := by decide +kernel
  exact h5 (mem_key_of_mem hu)

end Verif.Slim
