import Verif.Slim.SessModel
import Verif.Slim.Props

/-!
# Properties of SLIM objects used again and again (C111)
-/

set_option autoImplicit false
set_option linter.unusedSectionVars false

namespace Verif.Slim

variable {α V : Type*} [LinearOrder α] [LinearOrder V]

/-! ## Specification -/

/-- The number of transactions of `D` containing all the items of `X`. -/
def containing (D : List (List α)) (X : Finset α) : ℕ := (D.filter (fun tr => decide (∀ a ∈ X, a ∈ tr))).length

/-- The standard cover order, as documented: longer itemsets first, then those contained in more transactions of `D`, then
lexicographically (`iter X` lists the items of `X`). -/
def Before (D : List (List α)) (iter : Finset α → List α) (X Y : Finset α) : Prop :=
  Y.card < X.card ∨ (X.card = Y.card ∧ (containing D Y < containing D X ∨ (containing D X = containing D Y ∧ iter X ≤ iter Y)))

/-- The call does not bring other data than `D`. -/
def OnData (D : List (List α)) : SOp α → Prop
  | .prefit D' _ => D' = D
  | .fit O _ D' _ => D' = D ∧ OracleOk O
  | .update _ _ _ => True
  | .query _ => True

/-! ## Lemmas -/

theorem getSupport_congr (sct sct' : Sct α) (hk : ∀ a, a ∈ sct.map Prod.fst ↔ a ∈ sct'.map Prod.fst)
    (hl : ∀ a, lookup sct a = lookup sct' a) (q : List α) (m : Memo α) : getSupport sct q m = getSupport sct' q m := by
  induction q with
  | nil => rfl
  | cons a rest ih =>
    unfold getSupport
    cases memoGet m (a :: rest) with
    | some r => rfl
    | none =>
      simp only
      by_cases ha : a ∈ sct.map Prod.fst
      · rw [if_neg (not_not_intro ha), if_neg (not_not_intro ((hk a).1 ha))]
        cases rest with
        | nil => simp only [hl]
        | cons b rest' => simp only [ih, hl]
      · rw [if_pos ha, if_pos (fun h => ha ((hk a).2 h))]

theorem coverKey_congr (iter : Finset α → List α) (sct sct' : Sct α) (hk : ∀ a, a ∈ sct.map Prod.fst ↔ a ∈ sct'.map Prod.fst)
    (hl : ∀ a, lookup sct a = lookup sct' a) (m : Memo α) : coverKey iter sct m = coverKey iter sct' m := by
  funext X
  unfold coverKey
  rw [getSupport_congr sct sct' hk hl]

theorem ask_right (items : List α) (D : List (List α)) (qs : List (List α)) (m : Memo α) (hm : MemoRight items D m) :
    MemoRight items D (ask (sctOf items D) m qs) := by
  induction qs generalizing m with
  | nil => exact hm
  | cons q qs ih =>
    refine ih _ (fun e he => ?_)
    rcases (getSupport_right items D q.reverse m (fun k' _ _ r hr => (hm _ hr).2)).2 e he with h | h
    · exact hm e h
    · exact h

/-- Two right answers have the same size. -/
theorem rightAnswer_size (items : List α) (D : List (List α)) (q : List α) (r r' : Except Err (Finset ℕ))
    (h : RightAnswer items D q r) (h' : RightAnswer items D q r') : supportSize r = supportSize r' := by
  rcases h with ⟨h1, rfl⟩ | ⟨h1, ⟨a, h2, h3⟩, rfl⟩ | ⟨h1, h2, s, rfl, h4⟩
  · rcases h' with ⟨_, rfl⟩ | ⟨h5, _, rfl⟩ | ⟨h5, _⟩
    · rfl
    · rfl
    · exact absurd h1 h5
  · rcases h' with ⟨_, rfl⟩ | ⟨h5, _, rfl⟩ | ⟨h5, h6, _⟩
    · rfl
    · rfl
    · exact absurd (h6 a h2) h3
  · rcases h' with ⟨h5, _⟩ | ⟨h5, ⟨a, h6, h7⟩, _⟩ | ⟨h5, _, s', rfl, h7⟩
    · exact absurd h5 h1
    · exact absurd (h2 a h6) h7
    · have : s = s' := by ext t; rw [h4, h7]
      rw [this]

theorem coverKey_right (items : List α) (D : List (List α)) (iter : Finset α → List α) (m m' : Memo α)
    (hm : MemoRight items D m) (hm' : MemoRight items D m') :
    coverKey iter (sctOf items D) m = coverKey iter (sctOf items D) m' := by
  funext X
  unfold coverKey
  rw [rightAnswer_size items D _ _ _ (getSupport_right items D (iter X).reverse m (fun k' _ _ r hr => (hm _ hr).2)).1
    (getSupport_right items D (iter X).reverse m' (fun k' _ _ r hr => (hm' _ hr).2)).1]

theorem card_tids (D : List (List α)) (X : Finset α) (hX : X.Nonempty) (s : Finset ℕ)
    (hs : ∀ t, t ∈ s ↔ ∀ a ∈ X, Occurs D a t) : s.card = containing D X := by
  have h1 : s = ((List.range D.length).filter (fun t => decide (∀ a ∈ X, a ∈ D.getD t []))).toFinset := by
    ext t
    rw [hs, List.mem_toFinset, List.mem_filter, List.mem_range, decide_eq_true_eq]
    constructor
    · intro h
      obtain ⟨b, hb⟩ := hX
      obtain ⟨tr, h2, _⟩ := h b hb
      refine ⟨(List.getElem?_eq_some_iff.1 h2).1, fun a ha => ?_⟩
      obtain ⟨tr', h3, h4⟩ := h a ha
      rw [List.getD_eq_getElem?_getD, h3]
      exact h4
    · rintro ⟨h1, h2⟩ a ha
      refine ⟨D[t], List.getElem?_eq_getElem h1, ?_⟩
      have := h2 a ha
      rwa [List.getD_eq_getElem?_getD, List.getElem?_eq_getElem h1] at this
  have h2 : (List.range D.length).map (fun t => D.getD t []) = D := by
    refine List.ext_getElem (by simp) (fun i h3 h4 => ?_)
    rw [List.getElem_map, List.getElem_range, List.getD_eq_getElem?_getD, List.getElem?_eq_getElem h4]
    rfl
  rw [h1, List.toFinset_card_of_nodup (List.nodup_range.filter _)]
  unfold containing
  conv_rhs => rw [← h2]
  rw [List.filter_map, List.length_map]
  rfl

/-- With right stored results, the sort key is the documented order. -/
theorem coverKey_before (items : List α) (D : List (List α)) (iter : Finset α → List α)
    (hiter : ∀ (X : Finset α) (a : α), a ∈ iter X ↔ a ∈ X) (m : Memo α) (hm : MemoRight items D m) (X Y : Finset α)
    (hX : X.Nonempty) (hXk : ∀ a ∈ X, Known items D a) (hY : Y.Nonempty) (hYk : ∀ a ∈ Y, Known items D a)
    (h : coverKey iter (sctOf items D) m X ≤ coverKey iter (sctOf items D) m Y) : Before D iter X Y := by
  have key : ∀ Z : Finset α, Z.Nonempty → (∀ a ∈ Z, Known items D a) →
      supportSize (getSupport (sctOf items D) (iter Z).reverse m).1 = containing D Z := by
    intro Z hZ hk
    rcases (getSupport_right items D (iter Z).reverse m (fun k' _ _ r hr => (hm _ hr).2)).1 with
      ⟨h1, _⟩ | ⟨_, ⟨a, h2, h3⟩, _⟩ | ⟨_, _, s, h3, h4⟩
    · obtain ⟨a, ha⟩ := hZ
      have := (hiter Z a).2 ha
      rw [List.reverse_eq_nil_iff] at h1
      rw [h1] at this
      cases this
    · exact absurd (hk a ((hiter Z a).1 (List.mem_reverse.1 h2))) h3
    · rw [h3]
      refine card_tids D Z hZ s (fun t => ?_)
      rw [h4]
      simp only [List.mem_reverse, hiter]
  unfold coverKey at h
  rw [key X hX hXk, key Y hY hYk, Prod.Lex.toLex_le_toLex] at h
  unfold Before
  rcases h with h | ⟨h, h2⟩
  · left; simp only at h; omega
  · right
    simp only at h h2
    refine ⟨by omega, ?_⟩
    rw [Prod.Lex.toLex_le_toLex] at h2
    rcases h2 with h2 | ⟨h2, h3⟩
    · left; simp only at h2; omega
    · right; simp only at h2 h3; exact ⟨by omega, h3⟩

theorem keys_dictUpdate {K W : Type*} [DecidableEq K] (d d2 : List (K × W)) (x : K)
    (h : x ∈ (dictUpdate d d2).map Prod.fst) : x ∈ d2.map Prod.fst ∨ x ∈ d.map Prod.fst := by
  unfold dictUpdate at h
  induction d2 generalizing d with
  | nil => exact Or.inr h
  | cons e d2 ih =>
    rw [List.foldl_cons] at h
    rcases ih _ h with h | h
    · exact Or.inl (List.mem_cons_of_mem _ h)
    · rcases (mem_keys_dictSet d e.1 e.2 x).1 h with h | h
      · left; rw [h]; exact List.mem_cons_self
      · exact Or.inr h

theorem keys_dictDel {K W : Type*} [DecidableEq K] (d : List (K × W)) (k x : K) (h : x ∈ (dictDel d k).map Prod.fst) :
    x ∈ d.map Prod.fst := by
  obtain ⟨e, he, rfl⟩ := List.mem_map.1 h
  exact List.mem_map_of_mem (List.mem_filter.1 he).1

theorem keys_coverLoop (s : α → Finset ℕ) (acc : Table α) (L : List (Finset α)) (X : Finset α)
    (h : X ∈ (coverLoop s acc L).map Prod.fst) : X ∈ L ∨ X ∈ acc.map Prod.fst := by
  induction L generalizing s acc with
  | nil => exact Or.inr h
  | cons Y L ih =>
    rw [coverLoop] at h
    rcases ih _ _ h with h | h
    · exact Or.inl (List.mem_cons_of_mem _ h)
    · rcases (mem_keys_dictSet _ _ _ _).1 h with h | h
      · left; rw [h]; exact List.mem_cons_self
      · exact Or.inr h

theorem keys_cover (sct : Sct α) (L : List (Finset α)) (tab : Table α) (h : cover sct L = .ok tab) (X : Finset α)
    (hX : X ∈ tab.map Prod.fst) : X ∈ L := by
  unfold cover at h
  split at h
  · cases h
    rcases keys_coverLoop _ _ _ _ hX with h | h
    · exact h
    · cases h
  · cases h

variable {κ : Type*} [LinearOrder κ]

theorem keys_pruneInit (old ctc : Table α) (ps : Finset (Finset α)) (X : Finset α)
    (h : X ∈ (pruneInit old ctc ps).1.map Prod.fst) : X ∈ ctc.map Prod.fst := by
  induction old generalizing ctc ps with
  | nil => exact h
  | cons e old ih =>
    obtain ⟨iset, usage⟩ := e
    unfold pruneInit at h
    by_cases h1 : 1 < iset.card
    · rw [if_pos h1] at h
      by_cases h2 : lookup ctc iset = ∅
      · rw [if_pos h2] at h; exact keys_dictDel _ _ _ (ih _ _ h)
      · rw [if_neg h2] at h
        by_cases h3 : (lookup ctc iset).card < usage.card
        · rw [if_pos h3] at h; exact ih _ _ h
        · rw [if_neg h3] at h; exact ih _ _ h
    · rw [if_neg h1] at h; exact ih _ _ h

theorem keys_pruneLoop (P : Params α κ V) (sct : Sct α) (choose : Chooser α) (n : ℕ) (ctc : Table α)
    (ps : Finset (Finset α)) (size : V) (r : Table α × V) (h : pruneLoop P sct choose n ctc ps size = some (.ok r))
    (X : Finset α) (hX : X ∈ r.1.map Prod.fst) : X ∈ ctc.map Prod.fst := by
  induction n generalizing ctc ps size with
  | zero =>
    unfold pruneLoop at h
    by_cases hp : ps = ∅
    · rw [if_pos hp] at h; cases h; exact hX
    · rw [if_neg hp] at h; cases h
  | succ n ih =>
    unfold pruneLoop at h
    by_cases hp : ps = ∅
    · rw [if_pos hp] at h; cases h; exact hX
    · rw [if_neg hp] at h
      simp only at h
      cases hc : cover sct ((ctc.map Prod.fst).erase (choose n ps ctc)) with
      | error e => rw [hc] at h; cases h
      | ok ctp =>
        rw [hc] at h
        simp only at h
        cases hs : computeSizes P ctp with
        | error e => rw [hs] at h; cases h
        | ok size2 =>
          rw [hs] at h
          simp only at h
          by_cases hlt : size2 < size
          · rw [if_pos hlt] at h
            rcases keys_dictUpdate _ _ _ (keys_dictDel _ _ _ (ih _ _ _ h)) with h | h
            · exact List.mem_of_mem_erase (keys_cover _ _ _ hc _ h)
            · exact h
          · rw [if_neg hlt] at h
            exact ih _ _ _ h

theorem keys_evaluate (P : Params α κ V) (choose : Chooser α) (st : State α V) (c : Finset α) (r : V × Table α)
    (h : evaluate P choose st c = some (.ok r)) (X : Finset α) (hX : X ∈ r.2.map Prod.fst) :
    X = c ∨ X ∈ st.ct.map Prod.fst := by
  have hins : ∀ Y, Y ∈ (st.ct.map Prod.fst).insertIdx (bisect P st.ct c) c → Y = c ∨ Y ∈ st.ct.map Prod.fst := by
    intro Y hY
    exact List.mem_cons.1 ((List.perm_insertIdx c (st.ct.map Prod.fst)
      (by rw [List.length_map]; exact bisect_le P st.ct c)).mem_iff.1 hY)
  unfold evaluate at h
  by_cases hc : c = ∅
  · rw [if_pos hc] at h; cases h
  rw [if_neg hc] at h
  cases hcov : cover st.sct ((st.ct.map Prod.fst).insertIdx (bisect P st.ct c) c) with
  | error e => rw [hcov] at h; cases h
  | ok ctc =>
    rw [hcov] at h
    simp only at h
    cases hs : computeSizes P ctc with
    | error e => rw [hs] at h; cases h
    | ok size =>
      rw [hs] at h
      simp only at h
      by_cases hp : P.pruning = true
      · rw [if_pos hp] at h
        cases hpr : prune P st.sct choose st.ct ctc size with
        | none => rw [hpr] at h; cases h
        | some res =>
          rw [hpr] at h
          cases res with
          | error e => cases h
          | ok res =>
            cases h
            unfold prune at hpr
            exact hins _ (keys_cover _ _ _ hcov _ (keys_pruneInit _ _ _ _ (keys_pruneLoop _ _ _ _ _ _ _ _ hpr _ hX)))
      · rw [if_neg hp] at h
        cases h
        exact hins _ (keys_cover _ _ _ hcov _ hX)

/-- The itemsets of a code table after an update. -/
theorem keys_updateUsages (P : Params α κ V) (st : State α V) (usages : Table α) (size : V) (X : Finset α)
    (hX : X ∈ (updateUsages P st usages size).ct.map Prod.fst) : X ∈ usages.map Prod.fst ∨ X ∈ st.ct.map Prod.fst := by
  unfold updateUsages at hX
  simp only at hX
  rw [((sortTable_perm P _).map Prod.fst).mem_iff] at hX
  obtain ⟨e, he, rfl⟩ := List.mem_map.1 hX
  exact keys_dictUpdate _ _ _ (List.mem_map_of_mem (List.mem_filter.1 he).1)

theorem update_facts (P : Params α κ V) (choose : Chooser α) (st st' : State α V) (c : Finset α)
    (h : update P choose st c = some (.ok st')) :
    st'.sct = st.sct ∧ st'.ct.Pairwise (fun a b => P.key a.1 ≤ P.key b.1) ∧ c.Nonempty ∧ (∀ x ∈ c, x ∈ st.sct.map Prod.fst) ∧
      ∀ X ∈ st'.ct.map Prod.fst, X = c ∨ X ∈ st.ct.map Prod.fst := by
  unfold update at h
  cases he : evaluate P choose st c with
  | none => rw [he] at h; cases h
  | some r =>
    rw [he] at h
    cases r with
    | error e => cases h
    | ok r =>
      simp only [Option.some.injEq, Except.ok.injEq] at h
      subst h
      obtain ⟨h1, h2⟩ := evaluate_known P choose st c r he
      refine ⟨rfl, sortTable_sorted P _, h1, h2, fun X hX => ?_⟩
      rcases keys_updateUsages _ _ _ _ _ hX with h | h
      · exact keys_evaluate P choose st c r he X h
      · exact Or.inr h

theorem tryCandidates_sorted (P : Params α κ V) (choose : Finset α → Chooser α) (st st' : State α V) (cs : List (Finset α × ℚ))
    (h : tryCandidates P choose st cs = some (.ok (some st'))) : st'.ct.Pairwise (fun a b => P.key a.1 ≤ P.key b.1) := by
  induction cs with
  | nil => cases h
  | cons c cs ih =>
    unfold tryCandidates at h
    cases he : evaluate P (choose c.1) st c.1 with
    | none => rw [he] at h; cases h
    | some r =>
      rw [he] at h
      cases r with
      | error e => cases h
      | ok r =>
        simp only at h
        by_cases hlt : r.1 < st.size
        · rw [if_pos hlt] at h
          cases h
          exact sortTable_sorted P _
        · rw [if_neg hlt] at h
          exact ih h

theorem fitLoop_sorted (P : Params α κ V) (O : Oracle α) (n i : ℕ) (st st' : State α V)
    (hs : st.ct.Pairwise (fun a b => P.key a.1 ≤ P.key b.1)) (h : fitLoop P O n i st = some (.ok st')) :
    st'.ct.Pairwise (fun a b => P.key a.1 ≤ P.key b.1) := by
  induction n generalizing i st with
  | zero => cases h
  | succ n ih =>
    unfold fitLoop at h
    simp only at h
    cases ht : tryCandidates P (O.choose i) st
        (generateCandidates (O.gain i (O.enum i st.ct)) (O.enum i st.ct) (st.ct.map Prod.fst).toFinset).1 with
    | none => rw [ht] at h; cases h
    | some r =>
      rw [ht] at h
      cases r with
      | error e => cases h
      | ok r =>
        cases r with
        | none => cases h; exact hs
        | some st2 =>
          simp only at h
          have h2 := tryCandidates_sorted P _ st st2 _ ht
          by_cases hu : O.timeUp i = true
          · rw [if_pos hu] at h; cases h; exact h2
          · rw [if_neg hu] at h; exact ih _ _ h2 h

/-- What holds of an object all of whose data were `D`. -/
structure SInv (S : Settings α V) (D : List (List α)) (o : SObj α V) : Prop where
  memo : MemoRight S.items D o.memo
  known : ∀ st, o.st = some st → ∀ a, a ∈ st.sct.map Prod.fst ↔ a ∈ (sctOf S.items D).map Prod.fst
  tids : ∀ st, o.st = some st → ∀ a, lookup st.sct a = lookup (sctOf S.items D) a
  keys : ∀ st, o.st = some st → ∀ X ∈ st.ct.map Prod.fst, X.Nonempty ∧ ∀ a ∈ X, a ∈ st.sct.map Prod.fst
  sorted : ∀ st, o.st = some st → st.ct.Pairwise (fun a b =>
    coverKey S.iter (sctOf S.items D) o.memo a.1 ≤ coverKey S.iter (sctOf S.items D) o.memo b.1)

theorem sct_sctOf (items : List α) (D : List (List α)) (sct : Sct α)
    (hk : ∀ a, a ∈ sct.map Prod.fst ↔ (∃ t, Occurs D a t) ∨ a ∈ items) (ho : ∀ a t, t ∈ lookup sct a ↔ Occurs D a t) :
    (∀ a, a ∈ sct.map Prod.fst ↔ a ∈ (sctOf items D).map Prod.fst) ∧ ∀ a, lookup sct a = lookup (sctOf items D) a := by
  refine ⟨fun a => by rw [hk, sctOf_keys]; rfl, fun a => ?_⟩
  ext t
  rw [ho, mem_lookup_sctOf]

theorem fit_good (P : Params α κ V) (O : Oracle α) (hO : OracleOk O) (items : List α) (D : List (List α)) (fuel : ℕ)
    (st : State α V) (h : fit P O items fuel D = some (.ok st)) : Good st.sct st.ct ∧ st.sct = (prefit P items D).sct ∧
      st.ct.Pairwise (fun a b => P.key a.1 ≤ P.key b.1) := by
  obtain ⟨st', h1, h2⟩ := fit_result P O hO items D fuel _ h
  cases h1
  exact ⟨by rw [h2.sct]; exact h2.good, h2.sct, fitLoop_sorted P O fuel 0 _ st (sortTable_sorted P _) h⟩

theorem sinv_step (S : Settings α V) (D : List (List α)) (o : SObj α V) (op : SOp α) (h : SInv S D o) (hop : OnData D op) :
    SInv S D (sstep S o op) := by
  cases op with
  | prefit D' asked =>
    have hD : D' = D := hop
    subst hD
    have hm := ask_right S.items D' (singles (sctOf S.items D') ++ asked) o.memo h.memo
    obtain ⟨hg, hk, ho⟩ := reach_inv S.items D' _ (.prefit (S.params (sctOf S.items D') o.memo))
    obtain ⟨e1, e2⟩ := sct_sctOf S.items D' _ hk ho
    refine ⟨hm, ?_, ?_, ?_, ?_⟩
    · rintro st ⟨⟩; exact e1
    · rintro st ⟨⟩; exact e2
    · rintro st ⟨⟩; exact fun X hX => ⟨hg.keys.nonempty X hX, hg.keys.known X hX⟩
    · rintro st ⟨⟩
      have := sortTable_sorted (S.params (sctOf S.items D') o.memo)
        ((prefit (S.params (sctOf S.items D') o.memo) S.items D').sct.map (fun e => (({e.1} : Finset α), e.2)))
      change (_ : Table α).Pairwise (fun a b => coverKey S.iter (sctOf S.items D') (ask _ _ _) a.1 ≤ coverKey S.iter _ (ask _ _ _) b.1)
      rw [coverKey_right S.items D' S.iter _ o.memo hm h.memo]
      exact this
  | fit O fuel D' asked =>
    obtain ⟨hD, hO⟩ : D' = D ∧ OracleOk O := hop
    subst hD
    have hm := ask_right S.items D' (singles (sctOf S.items D') ++ asked) o.memo h.memo
    obtain ⟨_, hk, ho⟩ := reach_inv S.items D' _ (.prefit (S.params (sctOf S.items D') o.memo))
    obtain ⟨e1, e2⟩ := sct_sctOf S.items D' _ hk ho
    have hst : ∀ st, (sstep S o (.fit O fuel D' asked)).st = some st →
        fit (S.params (sctOf S.items D') o.memo) O S.items fuel D' = some (.ok st) := by
      intro st hst
      change (fit (S.params (sctOf S.items D') o.memo) O S.items fuel D').bind Except.toOption = some st at hst
      cases hf : fit (S.params (sctOf S.items D') o.memo) O S.items fuel D' with
      | none => rw [hf] at hst; cases hst
      | some r =>
        rw [hf] at hst
        cases r with
        | error e => cases hst
        | ok st' => cases hst; rfl
    refine ⟨hm, ?_, ?_, ?_, ?_⟩
    · intro st h1; rw [(fit_good _ O hO _ _ _ _ (hst st h1)).2.1]; exact e1
    · intro st h1; rw [(fit_good _ O hO _ _ _ _ (hst st h1)).2.1]; exact e2
    · intro st h1
      obtain ⟨hg, _, _⟩ := fit_good _ O hO _ _ _ _ (hst st h1)
      exact fun X hX => ⟨hg.keys.nonempty X hX, hg.keys.known X hX⟩
    · intro st h1
      have h2 := (fit_good _ O hO _ _ _ _ (hst st h1)).2.2
      change (_ : Table α).Pairwise (fun a b => coverKey S.iter (sctOf S.items D') (ask _ _ _) a.1 ≤ coverKey S.iter _ (ask _ _ _) b.1)
      rw [coverKey_right S.items D' S.iter _ o.memo hm h.memo]
      exact h2
  | update choose c asked =>
    unfold sstep
    cases hs : o.st with
    | none => exact h
    | some st =>
      simp only
      have hask : ∀ qs, ask st.sct o.memo qs = ask (sctOf S.items D) o.memo qs := by
        intro qs
        unfold ask
        congr 1
        funext m q
        rw [getSupport_congr _ _ (h.known st hs) (h.tids st hs)]
      have hm : MemoRight S.items D (ask st.sct o.memo (S.iter c :: asked)) := by
        rw [hask]; exact ask_right _ _ _ _ h.memo
      have hkey := coverKey_right S.items D S.iter _ o.memo hm h.memo
      have hparams : S.params st.sct o.memo = S.params (sctOf S.items D) o.memo := by
        unfold Settings.params
        rw [coverKey_congr _ _ _ (h.known st hs) (h.tids st hs)]
      have same : SInv S D ⟨ask st.sct o.memo (S.iter c :: asked), some st⟩ := by
        refine ⟨hm, ?_, ?_, ?_, ?_⟩
        · rintro _ ⟨⟩; exact h.known st hs
        · rintro _ ⟨⟩; exact h.tids st hs
        · rintro _ ⟨⟩; exact h.keys st hs
        · rintro _ ⟨⟩; change (_ : Table α).Pairwise (fun a b => coverKey S.iter _ (ask _ _ _) a.1 ≤ coverKey S.iter _ (ask _ _ _) b.1)
          rw [hkey]; exact h.sorted st hs
      cases hu : update (S.params st.sct o.memo) choose st c with
      | none => exact same
      | some r =>
        cases r with
        | error e => exact same
        | ok st' =>
          obtain ⟨f1, f2, f3, f4, f5⟩ := update_facts _ choose st st' c hu
          refine ⟨hm, ?_, ?_, ?_, ?_⟩
          · rintro _ ⟨⟩; rw [f1]; exact h.known st hs
          · rintro _ ⟨⟩; rw [f1]; exact h.tids st hs
          · rintro _ ⟨⟩ X hX
            rw [f1]
            rcases f5 X hX with rfl | h5
            · exact ⟨f3, f4⟩
            · exact h.keys st hs X h5
          · rintro _ ⟨⟩
            change (_ : Table α).Pairwise (fun a b => coverKey S.iter _ (ask _ _ _) a.1 ≤ coverKey S.iter _ (ask _ _ _) b.1)
            rw [hkey]
            rw [hparams] at f2
            exact f2
  | query q =>
    unfold sstep
    cases hs : o.st with
    | none => exact h
    | some st =>
      simp only
      have hask : ask st.sct o.memo [q] = ask (sctOf S.items D) o.memo [q] := by
        unfold ask
        congr 1
        funext m q
        rw [getSupport_congr _ _ (h.known st hs) (h.tids st hs)]
      have hm : MemoRight S.items D (ask st.sct o.memo [q]) := by rw [hask]; exact ask_right _ _ _ _ h.memo
      have hkey := coverKey_right S.items D S.iter _ o.memo hm h.memo
      refine ⟨hm, ?_, ?_, ?_, ?_⟩
      · rintro _ ⟨⟩; exact h.known st hs
      · rintro _ ⟨⟩; exact h.tids st hs
      · rintro _ ⟨⟩; exact h.keys st hs
      · rintro _ ⟨⟩; change (_ : Table α).Pairwise (fun a b => coverKey S.iter _ (ask _ _ _) a.1 ≤ coverKey S.iter _ (ask _ _ _) b.1)
        rw [hkey]; exact h.sorted st hs

theorem sinv_run (S : Settings α V) (D : List (List α)) (ops : List (SOp α)) (hops : ∀ op ∈ ops, OnData D op) (o : SObj α V)
    (h : SInv S D o) : SInv S D (srun S o ops) := by
  induction ops generalizing o with
  | nil => exact h
  | cons op ops ih =>
    exact ih (fun op' ho => hops op' (List.mem_cons_of_mem _ ho)) _ (sinv_step S D o op h (hops op List.mem_cons_self))

theorem sinv_new (S : Settings α V) (D : List (List α)) : SInv S D SObj.new :=
  ⟨(fun _ he => nomatch he), (fun _ h => nomatch h), (fun _ h => nomatch h), (fun _ h => nomatch h), (fun _ h => nomatch h)⟩

/-! ## Theorems -/

/-- C111. Whatever happened before to the object, a fit ends without exception and its code table is a lossless cover of the data of
this fit. -/
theorem refit_lossless (S : Settings α V) (o : SObj α V) (O : Oracle α) (hO : OracleOk O) (D asked : List (List α)) :
    ∃ n, ∀ fuel, n ≤ fuel → ∃ st, (sstep S o (.fit O fuel D asked)).st = some st ∧ Lossless (Occurs D) st.ct := by
  obtain ⟨n, st, h⟩ := fit_terminates (S.params (sctOf S.items D) o.memo) O hO S.items D
  refine ⟨n, fun fuel hf => ⟨st, ?_, (fit_lossless _ O hO S.items D fuel st (h fuel hf)).1⟩⟩
  change (fit (S.params (sctOf S.items D) o.memo) O S.items fuel D).bind Except.toOption = some st
  rw [h fuel hf]
  rfl

/-- C111, what holds. When the object never had other data than `D`, the table returned by `transform` (with any options) lists the
itemsets in the standard cover order of `D`, after any fits, updates and queries. The full statement has no condition on the earlier
data; `refit_stale_order` refutes it. -/
theorem session_order_partial (S : Settings α V) (hiter : ∀ (X : Finset α) (a : α), a ∈ S.iter X ↔ a ∈ X) (D : List (List α))
    (ops : List (SOp α)) (hops : ∀ op ∈ ops, OnData D op) (st : State α V) (h : (srun S SObj.new ops).st = some st)
    (singletons dropNull : Bool) :
    (transform st singletons dropNull).Pairwise (fun a b => Before D S.iter a.1.toFinset b.1.toFinset) := by
  have hinv := sinv_run S D ops hops SObj.new (sinv_new S D)
  have hk := hinv.keys st h
  have hs : ∀ Y : Finset α, (sortSet Y).toFinset = Y := by
    intro Y; ext a; rw [List.mem_toFinset, mem_sortSet]
  unfold transform
  rw [List.pairwise_map]
  refine List.Pairwise.filter _ ?_
  refine List.Pairwise.imp_of_mem ?_ (hinv.sorted st h)
  intro a b ha hb hab
  have hkn : ∀ e ∈ st.ct, ∀ x ∈ e.1, Known S.items D x := fun e he x hx =>
    (sctOf_keys S.items D x).1 ((hinv.known st h x).1 ((hk e.1 (List.mem_map_of_mem he)).2 x hx))
  simp only [hs]
  exact coverKey_before S.items D S.iter hiter _ hinv.memo a.1 b.1 (hk _ (List.mem_map_of_mem ha)).1 (hkn a ha)
    (hk _ (List.mem_map_of_mem hb)).1 (hkn b hb) hab

/-- C111, what holds. Fitting again the same data gives the same code table as a new object, after any fits of these data, updates and
queries. The full statement has no condition on the earlier data; `refit_stale_order` and `refit_stale_cover` refute it. -/
theorem refit_same_partial (S : Settings α V) (D : List (List α)) (ops : List (SOp α)) (hops : ∀ op ∈ ops, OnData D op)
    (O : Oracle α) (fuel : ℕ) (asked : List (List α)) :
    (sstep S (srun S SObj.new ops) (.fit O fuel D asked)).st = (sstep S SObj.new (.fit O fuel D asked)).st := by
  have hm := (sinv_run S D ops hops SObj.new (sinv_new S D)).memo
  have hp : S.params (sctOf S.items D) (srun S SObj.new ops).memo = S.params (sctOf S.items D) (SObj.new : SObj α V).memo := by
    unfold Settings.params
    rw [coverKey_right S.items D S.iter _ _ hm (sinv_new S D).memo]
  change (fit (S.params (sctOf S.items D) (srun S SObj.new ops).memo) O S.items fuel D).bind Except.toOption = _
  rw [hp]
  rfl

/-- The settings used in the examples: items are iterated in increasing order, all sizes are 0. -/
def exS : Settings ℕ ℕ := ⟨[], false, sortSet, fun _ => 0, fun _ => 0⟩

/-- The environment used in the examples. -/
def exO : Oracle ℕ := ⟨fun _ tab => tab, fun _ _ _ _ => 1, fun _ _ => exChoose, fun _ => false⟩

/-- Calls on one data set: the hypotheses hold, and the final table is in the standard cover order (`{1, 2}`, then the more frequent item
2). -/
example : (∀ op ∈ [SOp.prefit [[1, 2], [2], [2, 1]] [[2, 1]], .update exChoose {1, 2} [], .query [1]],
      OnData [[1, 2], [2], [2, 1]] op) ∧
    (srun exS SObj.new [SOp.prefit [[1, 2], [2], [2, 1]] [[2, 1]], .update exChoose {1, 2} [], .query [1]]).st.map
      (fun st => (transform st true false).map (fun r => (r.1, sortSet r.2))) = some [([1, 2], [0, 2]), ([2], [1]), ([1], [])] :=
  ⟨by simp [OnData], by decide +kernel⟩

/-- C111 fails: item 2 is the most frequent of the second data and should come first, as with a new object; after a fit on data where item
1 is the most frequent, the order is that of these first data. -/
theorem refit_stale_order :
    let D1 := [[1], [1], [2]]
    let D2 := [[2], [2], [1]]
    let again := srun exS SObj.new [.fit exO 5 D1 [], .fit exO 5 D2 []]
    let new := srun exS SObj.new [.fit exO 5 D2 []]
    again.st.map (fun st => (transform st true true).map Prod.fst) = some [[1], [2]] ∧
    new.st.map (fun st => (transform st true true).map Prod.fst) = some [[2], [1]] ∧
    ¬ Before D2 sortSet {1} {2} := by
  refine ⟨by decide +kernel, by decide +kernel, ?_⟩
  unfold Before
  decide

/-- C111 fails: after the same calls on the second data, a reused object covers the transaction `1 2 3` with other itemsets than a new
object. -/
theorem refit_stale_cover :
    let D1 := [[1, 2], [1, 2], [2, 3]]
    let D2 := [[2, 3], [2, 3], [1, 2]]
    let calls := fun D : List (List ℕ) => [SOp.prefit D [], .update exChoose {1, 2} [], .update exChoose {2, 3} []]
    let show' := fun o : SObj ℕ ℕ => o.st.bind (fun st => (slimCover st [[1, 2, 3]]).toOption.map (fun r =>
      (r.1.map sortSet, r.2)))
    show' (srun exS SObj.new (calls D1 ++ calls D2)) = some ([[1, 2], [2, 3], [2], [1], [3]], [[true, false, false, false, true]]) ∧
    show' (srun exS SObj.new (calls D2)) = some ([[2, 3], [1, 2], [2], [3], [1]], [[true, false, false, false, true]]) := by
  decide +kernel

end Verif.Slim
