import Verif.Slim.OrderProps
import Verif.Util.SortSet
import Mathlib.Data.List.Forall2

/-!
# SLIM in another Python process (C123)

The order in which Python lists a set of strings changes from one process to the next. SLIM lists sets in two places: in the last component of
the standard cover order (`iter` of `Slim/SessModel.lean`) and when it picks the next itemset to prune (`Chooser`).
-/

set_option autoImplicit false
set_option linter.unusedSectionVars false

namespace Verif.Slim

variable {α κ κ' V : Type*} [LinearOrder α] [LinearOrder κ] [LinearOrder κ'] [LinearOrder V]

/-! ## Specification -/

/-- An order in which sets can be listed. -/
def ListsSets (iter : Finset α → List α) : Prop := ∀ X, (iter X).Nodup ∧ ∀ a, a ∈ iter X ↔ a ∈ X

/-- The same call in another process: same data, same candidate, same estimated gains and same clock; sets may be listed in another order when
an itemset to prune is picked, unless `pruning` is set. -/
def SameCall (pruning : Bool) : SOp α → SOp α → Prop
  | .prefit D _, .prefit D' _ => D' = D
  | .fit O n D _, .fit O' n' D' _ =>
    D' = D ∧ n' = n ∧ O'.enum = O.enum ∧ O'.gain = O.gain ∧ O'.timeUp = O.timeUp ∧ (pruning = true → O'.choose = O.choose)
  | .update ch c _, .update ch' c' _ => c' = c ∧ (pruning = true → ch' = ch)
  | .query q, .query q' => q' = q
  | _, _ => False

/-- No two itemsets of the same length, at least two, are contained in the same number of transactions, at least one. -/
def NoTies (D : List (List α)) : Prop :=
  ∀ X Y : Finset α, X ≠ Y → 2 ≤ X.card → X.card = Y.card → 0 < containing D X → containing D X ≠ containing D Y

/-- An itemset given by the user occurs in the data. -/
def Supported (D : List (List α)) : SOp α → Prop
  | .update _ c _ => 0 < containing D c
  | _ => True

/-! ## Lemmas: parameters that agree on some itemsets -/

/-- The sizes are the same and the sort keys compare alike on the itemsets of `F`. -/
structure Agree (F : Finset α → Prop) (P : Params α κ V) (P' : Params α κ' V) : Prop where
  key : ∀ X Y, F X → F Y → (P.key X ≤ P.key Y ↔ P'.key X ≤ P'.key Y)
  total : P.total = P'.total
  initTotal : P.initTotal = P'.initTotal
  pruning : P.pruning = P'.pruning

theorem insertionSort_agree {β : Type*} (r r' : β → β → Prop) [DecidableRel r] [DecidableRel r'] (l : List β) (h : ∀ a ∈ l, ∀ b ∈ l, (r a b ↔ r' a b)) :
    l.insertionSort r = l.insertionSort r' := by
  have := List.map_insertionSort (r := r) (s := r') (fun x : β => x) l (fun a ha b hb => h a ha b hb)
  simpa using this

section Agree

variable {F : Finset α → Prop} {P : Params α κ V} {P' : Params α κ' V} (hA : Agree F P P')
include hA

theorem computeSizes_agree (tab : Table α) : computeSizes P tab = computeSizes P' tab := by
  unfold computeSizes
  rw [hA.total]

theorem pruneLoop_agree (sct : Sct α) (choose : Chooser α) (n : ℕ) (ctc : Table α) (ps : Finset (Finset α)) (size : V) :
    pruneLoop P sct choose n ctc ps size = pruneLoop P' sct choose n ctc ps size := by
  induction n generalizing ctc ps size with
  | zero => rfl
  | succ n ih =>
    unfold pruneLoop
    simp only [computeSizes_agree hA, ih]

theorem sortTable_agree (tab : Table α) (h : ∀ X ∈ tab.map Prod.fst, F X) : sortTable P tab = sortTable P' tab :=
  insertionSort_agree _ _ tab (fun a ha b hb => hA.key a.1 b.1 (h _ (List.mem_map_of_mem ha)) (h _ (List.mem_map_of_mem hb)))

theorem bisect_agree (ct : Table α) (h : ∀ X ∈ ct.map Prod.fst, F X) (c : Finset α) (hc : F c) : bisect P ct c = bisect P' ct c := by
  unfold bisect
  congr 1
  exact List.filter_congr (fun e he => decide_eq_decide.2 (hA.key e.1 c (h _ (List.mem_map_of_mem he)) hc))

theorem evaluate_agree (choose choose' : Chooser α) (hch : P.pruning = true → choose' = choose) (st : State α V) (h : ∀ X ∈ st.ct.map Prod.fst, F X)
    (c : Finset α) (hc : F c) : evaluate P choose st c = evaluate P' choose' st c := by
  unfold evaluate
  rw [bisect_agree hA st.ct h c hc]
  by_cases hp : P.pruning = true
  · rw [hch hp]
    simp only [computeSizes_agree hA, hA.pruning, prune, pruneLoop_agree hA]
  · have hp' : ¬ P'.pruning = true := hA.pruning ▸ hp
    simp only [computeSizes_agree hA, if_neg hp, if_neg hp']

theorem updateUsages_agree (st : State α V) (h : ∀ X ∈ st.ct.map Prod.fst, F X) (usages : Table α) (hu : ∀ X ∈ usages.map Prod.fst, F X) (size : V) :
    updateUsages P st usages size = updateUsages P' st usages size := by
  unfold updateUsages
  simp only
  rw [sortTable_agree hA]
  intro X hX
  obtain ⟨e, he, rfl⟩ := List.mem_map.1 hX
  rcases keys_dictUpdate _ _ _ (List.mem_map_of_mem (List.mem_filter.1 he).1) with h1 | h1
  · exact hu _ h1
  · exact h _ h1

theorem update_agree (choose choose' : Chooser α) (hch : P.pruning = true → choose' = choose) (st : State α V) (h : ∀ X ∈ st.ct.map Prod.fst, F X)
    (c : Finset α) (hc : F c) : update P choose st c = update P' choose' st c := by
  unfold update
  rw [← evaluate_agree hA choose choose' hch st h c hc]
  cases he : evaluate P choose st c with
  | none => rfl
  | some r =>
    cases r with
    | error e => rfl
    | ok r =>
      simp only
      rw [updateUsages_agree hA st h r.2 (fun X hX => ?_) r.1]
      rcases keys_evaluate P choose st c r he X hX with rfl | h1
      · exact hc
      · exact h X h1

theorem tryCandidates_agree (choose choose' : Finset α → Chooser α) (hch : P.pruning = true → choose' = choose) (st : State α V)
    (h : ∀ X ∈ st.ct.map Prod.fst, F X) (cs : List (Finset α × ℚ)) (hcs : ∀ c ∈ cs, F c.1) :
    tryCandidates P choose st cs = tryCandidates P' choose' st cs := by
  induction cs with
  | nil => rfl
  | cons c cs ih =>
    have hc := hcs c List.mem_cons_self
    unfold tryCandidates
    rw [← evaluate_agree hA (choose c.1) (choose' c.1) (fun hp => by rw [hch hp]) st h c.1 hc, ← ih (fun c' hc' => hcs c' (List.mem_cons_of_mem _ hc'))]
    cases he : evaluate P (choose c.1) st c.1 with
    | none => rfl
    | some r =>
      cases r with
      | error e => rfl
      | ok r =>
        simp only
        rw [updateUsages_agree hA st h r.2 (fun X hX => ?_) r.1]
        rcases keys_evaluate P (choose c.1) st c.1 r he X hX with rfl | h1
        · exact hc
        · exact h X h1

end Agree

/-! ## Lemmas: sessions on one data set -/

/-- Single known items, and itemsets that occur in the data. -/
def Seen (items : List α) (D : List (List α)) (X : Finset α) : Prop :=
  X.Nonempty ∧ (∀ a ∈ X, Known items D a) ∧ (X.card = 1 ∨ 0 < containing D X)

theorem containing_pos (D : List (List α)) (X : Finset α) (hX : X.Nonempty) (t : ℕ) (h : ∀ a ∈ X, Occurs D a t) : 0 < containing D X := by
  obtain ⟨b, hb⟩ := hX
  obtain ⟨tr, h1, _⟩ := h b hb
  unfold containing
  rw [List.length_pos_iff_exists_mem]
  refine ⟨tr, List.mem_filter.2 ⟨List.mem_of_getElem? h1, decide_eq_true (fun a ha => ?_)⟩⟩
  obtain ⟨tr', h2, h3⟩ := h a ha
  rw [h1, Option.some.injEq] at h2
  rw [h2]; exact h3

theorem seen_of_containing (items : List α) (D : List (List α)) (X : Finset α) (hX : X.Nonempty) (h : 0 < containing D X) : Seen items D X := by
  refine ⟨hX, fun a ha => ?_, Or.inr h⟩
  unfold containing at h
  obtain ⟨tr, htr⟩ := List.length_pos_iff_exists_mem.1 h
  obtain ⟨h1, h2⟩ := List.mem_filter.1 htr
  obtain ⟨t, ht⟩ := List.mem_iff_getElem?.1 h1
  exact Or.inl ⟨t, tr, ht, of_decide_eq_true h2 a ha⟩

theorem seen_single (items : List α) (D : List (List α)) (a : α) (h : Known items D a) : Seen items D {a} :=
  ⟨Finset.singleton_nonempty a, fun b hb => by rw [Finset.mem_singleton.1 hb]; exact h, Or.inl (Finset.card_singleton a)⟩

theorem coverKey_eq (items : List α) (D : List (List α)) (iter : Finset α → List α) (hiter : ListsSets iter) (m : Memo α) (hm : MemoRight items D m)
    (X : Finset α) (hX : Seen items D X) :
    coverKey iter (sctOf items D) m X = toLex (-(X.card : ℤ), toLex (-(containing D X : ℤ), iter X)) := by
  have hs : supportSize (getSupport (sctOf items D) (iter X).reverse m).1 = containing D X := by
    rcases (getSupport_right items D (iter X).reverse m (fun k' _ _ r hr => (hm _ hr).2)).1 with
      ⟨h1, _⟩ | ⟨_, ⟨a, h2, h3⟩, _⟩ | ⟨_, _, s, h3, h4⟩
    · obtain ⟨a, ha⟩ := hX.1
      have := ((hiter X).2 a).2 ha
      rw [List.reverse_eq_nil_iff] at h1
      rw [h1] at this
      cases this
    · exact absurd (hX.2.1 a (((hiter X).2 a).1 (List.mem_reverse.1 h2))) h3
    · rw [h3]
      refine card_tids D X hX.1 s (fun t => ?_)
      rw [h4]
      simp only [List.mem_reverse, (hiter X).2]
  unfold coverKey
  rw [hs]

theorem iter_single (iter : Finset α → List α) (hiter : ListsSets iter) (a : α) : iter {a} = [a] := by
  obtain ⟨h1, h2⟩ := hiter {a}
  have : (iter {a}).Perm [a] := (List.perm_ext_iff_of_nodup h1 (List.nodup_singleton a)).2 (fun b => by rw [h2]; simp)
  exact List.perm_singleton.1 this

theorem keys_agree (items : List α) (D : List (List α)) (hD : NoTies D) (iter iter' : Finset α → List α) (hi : ListsSets iter) (hi' : ListsSets iter')
    (m m' : Memo α) (hm : MemoRight items D m) (hm' : MemoRight items D m') (X Y : Finset α) (hX : Seen items D X) (hY : Seen items D Y) :
    coverKey iter (sctOf items D) m X ≤ coverKey iter (sctOf items D) m Y ↔ coverKey iter' (sctOf items D) m' X ≤ coverKey iter' (sctOf items D) m' Y := by
  by_cases hXY : X = Y
  · rw [hXY]
    simp only [le_refl]
  rw [coverKey_eq items D iter hi m hm X hX, coverKey_eq items D iter hi m hm Y hY, coverKey_eq items D iter' hi' m' hm' X hX,
    coverKey_eq items D iter' hi' m' hm' Y hY]
  simp only [Prod.Lex.toLex_le_toLex]
  refine or_congr_right (and_congr_right (fun hc => ?_))
  have hcard : X.card = Y.card := by omega
  refine or_congr_right (and_congr_right (fun hs => ?_))
  have hs' : containing D X = containing D Y := by omega
  by_cases h1 : X.card = 1
  · obtain ⟨a, rfl⟩ := Finset.card_eq_one.1 h1
    obtain ⟨b, rfl⟩ := Finset.card_eq_one.1 (hcard ▸ h1)
    rw [iter_single iter hi, iter_single iter hi, iter_single iter' hi', iter_single iter' hi']
  · have hpos := Finset.card_pos.2 hX.1
    exact absurd hs' (hD X Y hXY (by omega) hcard (hX.2.2.resolve_left h1))

theorem candidates_seen (items : List α) (D : List (List α)) (O : Oracle α) (hO : OracleOk O) (i : ℕ) (st : State α V) (hg : Good st.sct st.ct)
    (ho : ∀ a t, t ∈ lookup st.sct a ↔ Occurs D a t) :
    ∀ c ∈ (generateCandidates (O.gain i (O.enum i st.ct)) (O.enum i st.ct) (st.ct.map Prod.fst).toFinset).1, Seen items D c.1 := by
  intro c hc
  obtain ⟨l1, p, l2, h1, h2, h3, h4, _, _⟩ := (mem_generateCandidates _ _ _ c).1 hc
  have hp := mem_orderedPairs (O.enum i st.ct) p (by rw [h1]; simp)
  have hp1 := (hO.1 i st.ct).mem_iff.1 hp.1
  have hp2 := (hO.1 i st.ct).mem_iff.1 hp.2
  have hne : c.1.Nonempty := by
    rw [h3]; exact (hg.keys.nonempty _ (mem_key_of_mem hp1)).mono Finset.subset_union_left
  obtain ⟨t, ht⟩ := h2
  rw [Finset.mem_inter] at ht
  refine seen_of_containing items D c.1 hne (containing_pos D c.1 hne t (fun a ha => ?_))
  rw [h3] at ha
  rcases Finset.mem_union.1 ha with ha | ha
  · exact (ho a t).1 (hg.lossless.sound p.1 hp1 a ha t ht.1)
  · exact (ho a t).1 (hg.lossless.sound p.2 hp2 a ha t ht.2)

theorem fitLoop_agree {P : Params α κ V} {P' : Params α κ' V} (items : List α) (D : List (List α)) (hA : Agree (Seen items D) P P') (O O' : Oracle α) (hO : OracleOk O)
    (he : O'.enum = O.enum) (hgn : O'.gain = O.gain) (ht : O'.timeUp = O.timeUp) (hch : P.pruning = true → O'.choose = O.choose) (n i : ℕ) (st : State α V)
    (hg : Good st.sct st.ct) (ho : ∀ a t, t ∈ lookup st.sct a ↔ Occurs D a t) (hk : ∀ X ∈ st.ct.map Prod.fst, Seen items D X) :
    fitLoop P O n i st = fitLoop P' O' n i st ∧ ∀ st', fitLoop P O n i st = some (.ok st') → ∀ X ∈ st'.ct.map Prod.fst, Seen items D X := by
  induction n generalizing i st with
  | zero => exact ⟨rfl, fun st' h => by cases h⟩
  | succ n ih =>
    have hcs := candidates_seen items D O hO i st hg ho
    have hok := candidates_ok O hO i st hg
    unfold fitLoop
    simp only
    rw [he, hgn, ht]
    generalize (generateCandidates (O.gain i (O.enum i st.ct)) (O.enum i st.ct) (st.ct.map Prod.fst).toFinset).1 = cs at hcs hok
    rw [← tryCandidates_agree hA (O.choose i) (O'.choose i) (fun hp => by rw [hch hp]) st hk cs hcs]
    cases cs with
    | nil =>
      refine ⟨rfl, fun st' h => ?_⟩
      unfold tryCandidates at h
      simp only [Option.some.injEq, Except.ok.injEq] at h
      rw [← h]; exact hk
    | cons c0 cs =>
      have hin := (hok c0 List.mem_cons_self).2.2.2
      rcases tryCandidates_spec P (O.choose i) (hO.2 i) st hg hin (c0 :: cs)
        (fun c h => ⟨(hok c h).1, (hok c h).2.1, (hok c h).2.2.1⟩) with h | ⟨c, hc, tab, g1, g2, _, g4⟩
      · rw [h]
        refine ⟨rfl, fun st' h => ?_⟩
        simp only [Option.some.injEq, Except.ok.injEq] at h
        rw [← h]; exact hk
      · rw [g4]
        simp only
        have hup := updateUsages_good P st hg tab g2 (sizeOf P tab)
        have hk2 : ∀ X ∈ (updateUsages P st tab (sizeOf P tab)).ct.map Prod.fst, Seen items D X := by
          intro X hX
          have hX' := ((updateUsages_perm P st hg tab g2 (sizeOf P tab)).map Prod.fst).mem_iff.2 hX
          rcases keys_evaluate P (O.choose i c.1) st c.1 _ g1 X hX' with rfl | h1
          · exact hcs c hc
          · exact hk X h1
        by_cases htu : O.timeUp i = true
        · rw [if_pos htu, if_pos htu]
          refine ⟨rfl, fun st' h => ?_⟩
          simp only [Option.some.injEq, Except.ok.injEq] at h
          rw [← h]; exact hk2
        · rw [if_neg htu, if_neg htu]
          exact ih (i + 1) _ hup.1 ho hk2

theorem prefit_agree {P : Params α κ V} {P' : Params α κ' V} (items : List α) (D : List (List α)) (hA : Agree (Seen items D) P P') :
    prefit P items D = prefit P' items D ∧ ∀ X ∈ (prefit P items D).ct.map Prod.fst, Seen items D X := by
  have hkn : ∀ a, a ∈ (prefit P items D).sct.map Prod.fst → Known items D a := by
    intro a ha
    rcases ((prefit_sct P items _ (toVertical_nodup ∅ D)).2.1 a).1 ha with h | h
    · rw [mem_toVertical_keys] at h
      exact Or.inl h.1
    · exact Or.inr h
  have hs : ∀ X ∈ ((prefit P items D).sct.map (fun e => (({e.1} : Finset α), e.2))).map Prod.fst, Seen items D X := by
    intro X hX
    obtain ⟨e, he, rfl⟩ := List.mem_map.1 hX
    obtain ⟨x, hx, rfl⟩ := List.mem_map.1 he
    exact seen_single items D x.1 (hkn _ (List.mem_map_of_mem hx))
  constructor
  · have e := sortTable_agree hA _ hs
    unfold prefit prefitVertical at e ⊢
    simp only at e ⊢
    rw [e, hA.initTotal]
  · intro X hX
    obtain ⟨e, he, rfl⟩ := List.mem_map.1 hX
    exact hs _ (List.mem_map_of_mem ((sortTable_perm P _).mem_iff.1 he))

/-- The objects of the two processes. -/
structure Twin (S S' : Settings α V) (D : List (List α)) (o o' : SObj α V) : Prop where
  inv : SInv S D o
  inv' : SInv S' D o'
  st : o'.st = o.st
  seen : ∀ st, o.st = some st → ∀ X ∈ st.ct.map Prod.fst, Seen S.items D X

theorem step_twin (S : Settings α V) (iter' : Finset α → List α) (hi : ListsSets S.iter) (hi' : ListsSets iter') (D : List (List α)) (hD : NoTies D) (o o' : SObj α V)
    (h : Twin S { S with iter := iter' } D o o') (op op' : SOp α) (hop : OnData D op) (hop' : OnData D op') (hs : Supported D op) (hc : SameCall S.pruning op op') :
    Twin S { S with iter := iter' } D (sstep S o op) (sstep { S with iter := iter' } o' op') := by
  have hA : Agree (Seen S.items D) (S.params (sctOf S.items D) o.memo) (({ S with iter := iter' } : Settings α V).params (sctOf S.items D) o'.memo) :=
    ⟨fun X Y hX hY => keys_agree S.items D hD S.iter iter' hi hi' o.memo o'.memo h.inv.memo h.inv'.memo X Y hX hY, rfl, rfl, rfl⟩
  suffices hh : (sstep { S with iter := iter' } o' op').st = (sstep S o op).st ∧
      ∀ st, (sstep S o op).st = some st → ∀ X ∈ st.ct.map Prod.fst, Seen S.items D X from
    ⟨sinv_step S D o op h.inv hop, sinv_step _ D o' op' h.inv' hop', hh.1, hh.2⟩
  cases op with
  | prefit E asked =>
    cases op' with
    | prefit E' asked' =>
      have e1 : E = D := hop
      have e2 : E' = D := hop'
      subst e1
      subst e2
      obtain ⟨h1, h2⟩ := prefit_agree S.items E' hA
      refine ⟨?_, ?_⟩
      · change some (prefit _ S.items E') = some (prefit _ S.items E')
        rw [← h1]
      · rintro st ⟨⟩
        exact h2
    | fit _ _ _ _ => exact hc.elim
    | update _ _ _ => exact hc.elim
    | query _ => exact hc.elim
  | fit O n E asked =>
    cases op' with
    | fit O' n' E' asked' =>
      obtain ⟨e1, hO⟩ : E = D ∧ OracleOk O := hop
      obtain ⟨e2, e3, e4, e5, e6, e7⟩ := hc
      subst e1
      subst e2
      subst e3
      obtain ⟨h1, h2⟩ := prefit_agree S.items E' hA
      obtain ⟨hg, _, ho⟩ := reach_inv S.items E' _ (.prefit (S.params (sctOf S.items E') o.memo))
      obtain ⟨f1, f2⟩ := fitLoop_agree S.items E' hA O O' hO e4 e5 e6 e7 n' 0 _ hg ho h2
      refine ⟨?_, ?_⟩
      · change (fitLoop _ O' n' 0 (prefit _ S.items E')).bind Except.toOption = (fitLoop _ O n' 0 (prefit _ S.items E')).bind Except.toOption
        rw [f1, h1]
      · intro st hst
        change (fitLoop _ O n' 0 (prefit _ S.items E')).bind Except.toOption = some st at hst
        refine f2 st ?_
        revert hst
        rcases fitLoop (S.params (sctOf S.items E') o.memo) O n' 0 (prefit (S.params (sctOf S.items E') o.memo) S.items E') with _ | e | st'
        · rintro ⟨⟩
        · rintro ⟨⟩
        · rintro ⟨⟩; rfl
    | prefit _ _ => exact hc.elim
    | update _ _ _ => exact hc.elim
    | query _ => exact hc.elim
  | update ch c asked =>
    cases op' with
    | update ch' c' asked' =>
      obtain ⟨e1, e2⟩ := hc
      subst e1
      have hst := h.st
      have hseen := h.seen
      unfold sstep
      cases hs1 : o.st with
      | none =>
        rw [hs1] at hst
        rw [hst]
        exact ⟨by simp only [hst, hs1], fun st hh => by rw [hs1] at hh; cases hh⟩
      | some st =>
        rw [hs1] at hst
        rw [hst]
        simp only
        have p1 : S.params st.sct o.memo = S.params (sctOf S.items D) o.memo := by
          unfold Settings.params
          rw [coverKey_congr _ _ _ (h.inv.known st hs1) (h.inv.tids st hs1)]
        have p2 : ({ S with iter := iter' } : Settings α V).params st.sct o'.memo = ({ S with iter := iter' } : Settings α V).params (sctOf S.items D) o'.memo := by
          unfold Settings.params
          rw [coverKey_congr _ _ _ (h.inv'.known st hst) (h.inv'.tids st hst)]
        rw [p1, p2]
        by_cases hne : c'.Nonempty
        · have hcs := seen_of_containing S.items D c' hne hs
          rw [← update_agree hA ch ch' e2 st (hseen st hs1) c' hcs]
          cases hu : update (S.params (sctOf S.items D) o.memo) ch st c' with
          | none => exact ⟨rfl, by rintro _ ⟨⟩; exact hseen st hs1⟩
          | some r =>
            cases r with
            | error e => exact ⟨rfl, by rintro _ ⟨⟩; exact hseen st hs1⟩
            | ok st2 =>
              refine ⟨rfl, ?_⟩
              rintro _ ⟨⟩ X hX
              obtain ⟨_, _, _, _, f5⟩ := update_facts _ ch st st2 c' hu
              rcases f5 X hX with rfl | h5
              · exact hcs
              · exact hseen st hs1 X h5
        · rw [Finset.not_nonempty_iff_eq_empty] at hne
          subst hne
          have hu : ∀ (ch : Chooser α) (P : Params α (CoverKey α) V), update P ch st ∅ = some (.error .indexError) := fun _ _ => rfl
          rw [hu, hu]
          exact ⟨rfl, by rintro _ ⟨⟩; exact hseen st hs1⟩
    | prefit _ _ => exact hc.elim
    | fit _ _ _ _ => exact hc.elim
    | query _ => exact hc.elim
  | query q =>
    cases op' with
    | query q' =>
      have hst := h.st
      have hseen := h.seen
      unfold sstep
      cases hs1 : o.st with
      | none =>
        rw [hs1] at hst
        rw [hst]
        exact ⟨by simp only [hst, hs1], fun st hh => by rw [hs1] at hh; cases hh⟩
      | some st =>
        rw [hs1] at hst
        rw [hst]
        exact ⟨rfl, by rintro _ ⟨⟩; exact hseen st hs1⟩
    | prefit _ _ => exact hc.elim
    | fit _ _ _ _ => exact hc.elim
    | update _ _ _ => exact hc.elim

/-! ## Theorems -/

/-- C123. The same calls on the same data give the same code table and sizes in two processes that list sets in different orders. Missing: data
where two itemsets of the same length, at least two, are contained in the same number of transactions (`process_matters`), and the order in
which `_prune` lists its set (`prune_matters`). -/
theorem same_in_all_processes_partial (S : Settings α V) (iter' : Finset α → List α) (hi : ListsSets S.iter) (hi' : ListsSets iter') (D : List (List α)) (hD : NoTies D)
    (ops ops' : List (SOp α)) (h : List.Forall₂ (SameCall S.pruning) ops ops') (hops : ∀ op ∈ ops, OnData D op ∧ Supported D op) (hops' : ∀ op ∈ ops', OnData D op) :
    (srun { S with iter := iter' } SObj.new ops').st = (srun S SObj.new ops).st := by
  have key : ∀ o o' : SObj α V, Twin S { S with iter := iter' } D o o' → Twin S { S with iter := iter' } D (srun S o ops) (srun { S with iter := iter' } o' ops') := by
    induction h with
    | nil => exact fun o o' ho => ho
    | @cons op op' ops ops' hc _ ih =>
      intro o o' ho
      refine ih (fun x hx => hops x (List.mem_cons_of_mem _ hx)) (fun x hx => hops' x (List.mem_cons_of_mem _ hx)) _ _ ?_
      exact step_twin S iter' hi hi' D hD o o' ho op op' (hops op List.mem_cons_self).1 (hops' op' List.mem_cons_self) (hops op List.mem_cons_self).2 hc
  exact (key SObj.new SObj.new ⟨sinv_new S D, sinv_new _ D, rfl, fun st hst => nomatch hst⟩).st

/-! ## Witnesses and example -/

/-- Sets listed by the rank of their elements (the position of an element in the hash table). -/
def byRank (rank : ℕ → ℕ) (X : Finset ℕ) : List ℕ := (sortSet X).insertionSort (fun a b => rank a ≤ rank b)

theorem byRank_lists (rank : ℕ → ℕ) : ListsSets (byRank rank) := by
  intro X
  have h := List.perm_insertionSort (fun a b : ℕ => rank a ≤ rank b) (sortSet X)
  exact ⟨h.nodup_iff.2 (nodup_sortSet X), fun a => h.mem_iff.trans (mem_sortSet X a)⟩

theorem sortSet_lists : ListsSets (sortSet : Finset ℕ → List ℕ) := fun X => ⟨nodup_sortSet X, mem_sortSet X⟩

/-- Two processes can give different code tables: with 1, 2, 3 listed in this order `{1, 3}` is used for the transaction 1, 2, 3, with 2, 3, 1
listed in this order `{2, 3}` is. -/
theorem process_matters :
    let D := [[1, 3], [2, 3], [1, 2, 3]]
    let ops := [SOp.prefit D [], .update exChoose {1, 3} [], .update exChoose {2, 3} []]
    ListsSets (byRank (fun a => a)) ∧ ListsSets (byRank (fun a => (a + 1) % 3)) ∧
    (∀ op ∈ ops, OnData D op ∧ Supported D op) ∧ List.Forall₂ (SameCall false) ops ops ∧
    (srun { exS2 false with iter := byRank (fun a => a) } SObj.new ops).st.map (fun st => showTable st.ct) =
      some [([1, 3], [0, 2]), ([2, 3], [1]), ([3], []), ([1], []), ([2], [2])] ∧
    (srun { exS2 false with iter := byRank (fun a => (a + 1) % 3) } SObj.new ops).st.map (fun st => showTable st.ct) =
      some [([2, 3], [1, 2]), ([1, 3], [0]), ([3], []), ([1], [2]), ([2], [])] := by
  refine ⟨byRank_lists _, byRank_lists _, ?_, ?_, by decide +kernel, by decide +kernel⟩
  · simp only [List.forall_mem_cons]
    refine ⟨⟨rfl, trivial⟩, ⟨trivial, ?_⟩, ⟨trivial, ?_⟩, by simp⟩
    · change 0 < containing [[1, 3], [2, 3], [1, 2, 3]] {1, 3}
      decide
    · change 0 < containing [[1, 3], [2, 3], [1, 2, 3]] {2, 3}
      decide
  · exact .cons rfl (.cons ⟨rfl, fun _ => rfl⟩ (.cons ⟨rfl, fun _ => rfl⟩ .nil))

/-- `min(prune_set, key=lambda e: len(CTc[e]))` with the set listed in one order or in its reverse. -/
def listPick (rev : Bool) : Chooser ℕ := fun _ ps tab =>
  let l := (sortSet (ps.image sortSet)).map List.toFinset
  ((if rev then l.reverse else l).insertionSort (fun a b => (lookup tab a).card ≤ (lookup tab b).card)).headD ∅

theorem listPick_ok (rev : Bool) : ChooserOk (listPick rev) := by
  intro n ps tab hps
  obtain ⟨l, hl⟩ : ∃ l : List (Finset ℕ), l =
      if rev then ((sortSet (ps.image sortSet)).map List.toFinset).reverse else (sortSet (ps.image sortSet)).map List.toFinset := ⟨_, rfl⟩
  have hmem : ∀ X, X ∈ l ↔ X ∈ ps := by
    intro X
    have h0 : X ∈ (sortSet (ps.image sortSet)).map List.toFinset ↔ X ∈ ps := by
      simp only [List.mem_map, mem_sortSet, Finset.mem_image]
      constructor
      · rintro ⟨_, ⟨Y, hY, rfl⟩, rfl⟩
        rw [toFinset_sortSet]; exact hY
      · exact fun h => ⟨_, ⟨X, h, rfl⟩, toFinset_sortSet X⟩
    rw [hl]
    cases rev with
    | false => exact h0
    | true => exact List.mem_reverse.trans h0
  have hpick : listPick rev n ps tab = (l.insertionSort (fun a b => (lookup tab a).card ≤ (lookup tab b).card)).headD ∅ := by
    rw [hl]; rfl
  rw [hpick]
  have hperm := List.perm_insertionSort (fun a b : Finset ℕ => (lookup tab a).card ≤ (lookup tab b).card) l
  have hsort : (l.insertionSort (fun a b => (lookup tab a).card ≤ (lookup tab b).card)).Pairwise
      (fun a b => (lookup tab a).card ≤ (lookup tab b).card) := by
    have : Std.Total (fun a b : Finset ℕ => (lookup tab a).card ≤ (lookup tab b).card) := ⟨fun a b => le_total _ _⟩
    have : IsTrans (Finset ℕ) (fun a b : Finset ℕ => (lookup tab a).card ≤ (lookup tab b).card) := ⟨fun a b c h1 h2 => le_trans h1 h2⟩
    exact List.pairwise_insertionSort _ _
  revert hperm hsort
  cases l.insertionSort (fun a b => (lookup tab a).card ≤ (lookup tab b).card) with
  | nil =>
    intro hperm _
    obtain ⟨X, hX⟩ := hps
    exact absurd (hperm.mem_iff.2 ((hmem X).2 hX)) (by simp)
  | cons m l' =>
    intro hperm hsort
    refine ⟨(hmem m).1 (hperm.mem_iff.1 List.mem_cons_self), fun c hc => ?_⟩
    rcases List.mem_cons.1 (hperm.mem_iff.2 ((hmem c).2 hc)) with rfl | h
    · exact le_refl _
    · exact (List.pairwise_cons.1 hsort).1 c h

/-- Settings with pruning, where the size counts the uses and the items of the itemsets in use. -/
def exS4 : Settings ℕ ℕ :=
  ⟨[], true, sortSet, fun tab => (tab.map (fun e => e.2.card + (if e.2.card = 0 then 0 else 2 * e.1.card))).sum,
    fun sct => (sct.map (fun e => e.2.card + 2)).sum⟩

/-- The order in which the itemsets to prune are listed can change the code table, although sets of items are listed in the same order. -/
theorem prune_matters :
    let D := [[1, 2, 3], [1, 4], [1, 3, 4], [1, 2, 4], [1, 2, 3, 4]]
    let ops := fun rev => [SOp.prefit D [], .update (listPick rev) {1, 3, 4} [], .update (listPick rev) {1, 4} [], .update (listPick rev) {1, 2, 4} []]
    ChooserOk (listPick false) ∧ ChooserOk (listPick true) ∧
    (srun exS4 SObj.new (ops false)).st.map (fun st => showTable st.ct) =
      some [([1, 2, 4], [3, 4]), ([1, 4], [1, 2]), ([1], [0]), ([4], []), ([2], [0]), ([3], [0, 2, 4])] ∧
    (srun exS4 SObj.new (ops true)).st.map (fun st => showTable st.ct) =
      some [([1, 2, 4], [3, 4]), ([1], [0, 1, 2]), ([4], [1, 2]), ([2], [0]), ([3], [0, 2, 4])] :=
  ⟨listPick_ok false, listPick_ok true, by decide +kernel, by decide +kernel⟩

/-- Data without ties for the example. -/
def exD5 : List (List ℕ) := [[1, 2], [1, 2], [1, 2], [1, 2, 3], [1, 3], [1, 3], [3, 2]]

theorem exD5_noTies : NoTies exD5 := by
  have hsub : ∀ X : Finset ℕ, 0 < containing exD5 X → X ∈ ({1, 2, 3} : Finset ℕ).powerset := by
    intro X h
    unfold containing at h
    obtain ⟨tr, htr⟩ := List.length_pos_iff_exists_mem.1 h
    obtain ⟨h1, h2⟩ := List.mem_filter.1 htr
    have h3 : ∀ tr ∈ exD5, ∀ a ∈ tr, a ∈ ({1, 2, 3} : Finset ℕ) := by decide
    exact Finset.mem_powerset.2 (fun a ha => h3 tr h1 a (of_decide_eq_true h2 a ha))
  have hall : ∀ X ∈ ({1, 2, 3} : Finset ℕ).powerset, ∀ Y ∈ ({1, 2, 3} : Finset ℕ).powerset,
      X ≠ Y → 2 ≤ X.card → X.card = Y.card → containing exD5 X ≠ containing exD5 Y := by decide +kernel
  intro X Y h1 h2 h3 h4 h5
  exact hall X (hsub X h4) Y (hsub Y (h5 ▸ h4)) h1 h2 h3 h5

/-- Calls that meet the hypotheses, in two processes that list sets in different orders: an update, and a fit with pruning. -/
example :
    let O : Oracle ℕ := ⟨fun _ tab => tab, fun _ _ _ _ => 1, fun _ _ => listPick true, fun _ => false⟩
    let ops := [SOp.prefit exD5 [], .update (listPick true) {1, 2, 3} [[3]], .fit O 9 exD5 [], .query [2]]
    let ops' := [SOp.prefit exD5 [], .update (listPick true) {1, 2, 3} [], .fit O 9 exD5 [[1, 2]], .query [2]]
    NoTies exD5 ∧ List.Forall₂ (SameCall true) ops ops' ∧ (∀ op ∈ ops, OnData exD5 op ∧ Supported exD5 op) ∧ (∀ op ∈ ops', OnData exD5 op) ∧
    (srun { exS2 true with iter := byRank (fun a => (a + 1) % 3) } SObj.new ops').st.map (fun st => showTable st.ct) =
      some [([1, 2, 3], [3]), ([1, 2], [0, 1, 2]), ([1, 3], [4, 5]), ([2, 3], [6]), ([1], []), ([2], []), ([3], [])] := by
  have hO : OracleOk (⟨fun _ tab => tab, fun _ _ _ _ => 1, fun _ _ => listPick true, fun _ => false⟩ : Oracle ℕ) :=
    ⟨fun _ _ => List.Perm.refl _, fun _ _ => listPick_ok true⟩
  refine ⟨exD5_noTies, ?_, ?_, ?_, by decide +kernel⟩
  · exact .cons rfl (.cons ⟨rfl, fun _ => rfl⟩ (.cons ⟨rfl, rfl, rfl, rfl, rfl, fun _ => rfl⟩ (.cons rfl .nil)))
  · simp only [List.forall_mem_cons]
    refine ⟨⟨rfl, trivial⟩, ⟨trivial, ?_⟩, ⟨⟨rfl, hO⟩, trivial⟩, ⟨trivial, trivial⟩, by simp⟩
    change 0 < containing exD5 {1, 2, 3}
    decide
  · simp only [List.forall_mem_cons]
    exact ⟨rfl, trivial, ⟨rfl, hO⟩, trivial, by simp⟩

end Verif.Slim
