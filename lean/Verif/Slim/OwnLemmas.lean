import Verif.Slim.SessProps
import Verif.Slim.CodeLength

set_option autoImplicit false
set_option linter.unusedSectionVars false

namespace Verif.Slim

variable {α κ V : Type*} [LinearOrder α] [LinearOrder κ] [LinearOrder V]

/-- The usages of a table are those of the cover of the data by its own itemsets, in its own order. -/
def Own (sct : Sct α) (tab : Table α) : Prop := coverMap (lookup sct) (tab.map Prod.fst) = tab

theorem residue_comm_empty (s : α → Finset ℕ) (X : Finset α) (L : List (Finset α)) (h : interTids s X = ∅) :
    coverMap (residue s X) L = coverMap s L := by rw [residue_of_empty s X h]

theorem own_dictDel_aux (s : α → Finset ℕ) (L : List (Finset α)) (hnd : L.Nodup) (X : Finset α)
    (h : ∀ u, (X, u) ∈ coverMap s L → u = ∅) : coverMap s (L.filter (fun Y => Y ≠ X)) = dictDel (coverMap s L) X := by
  induction L generalizing s with
  | nil => rfl
  | cons Y L ih =>
    rw [List.nodup_cons] at hnd
    by_cases hY : Y = X
    · subst hY
      have h1 : interTids s Y = ∅ := h _ (by rw [coverMap]; exact List.mem_cons_self)
      have h2 : L.filter (fun Z => Z ≠ Y) = L := by
        rw [List.filter_eq_self]
        intro Z hZ
        exact decide_eq_true (fun e => hnd.1 (e ▸ hZ))
      rw [List.filter_cons_of_neg (by simp), h2, coverMap, residue_comm_empty s Y L h1]
      unfold dictDel
      rw [List.filter_cons_of_neg (by simp)]
      symm
      rw [List.filter_eq_self]
      intro e he
      refine decide_eq_true (fun he2 => hnd.1 ?_)
      have := mem_key_of_mem he
      rwa [keys_coverMap, he2] at this
    · rw [List.filter_cons_of_pos (by simpa using hY), coverMap, coverMap]
      unfold dictDel
      rw [List.filter_cons_of_pos (by simpa using hY),
        ih (residue s Y) hnd.2 (fun u hu => h u (by rw [coverMap]; exact List.mem_cons_of_mem _ hu))]
      rfl

theorem keys_dictDel_eq {K W : Type*} [DecidableEq K] (d : List (K × W)) (k : K) :
    (dictDel d k).map Prod.fst = (d.map Prod.fst).filter (fun x => x ≠ k) := by
  unfold dictDel
  rw [List.filter_map]
  rfl

theorem Own.dictDel {sct : Sct α} {tab : Table α} (h : Own sct tab) (hnd : (tab.map Prod.fst).Nodup) (X : Finset α)
    (hX : lookup tab X = ∅) : Own sct (dictDel tab X) := by
  unfold Own at h ⊢
  rw [keys_dictDel_eq, own_dictDel_aux _ _ hnd X, h]
  intro u hu
  rw [h] at hu
  rw [← hX]
  exact (lookup_of_mem hnd hu).symm

theorem keys_dictDel_sublist {K W : Type*} [DecidableEq K] (d : List (K × W)) (k : K) :
    ((dictDel d k).map Prod.fst).Sublist (d.map Prod.fst) := by
  rw [keys_dictDel_eq]
  exact List.filter_sublist

theorem own_coverMap (sct : Sct α) (L : List (Finset α)) : Own sct (coverMap (lookup sct) L) := by
  unfold Own
  rw [keys_coverMap]

theorem pruneInit_own (sct : Sct α) (old ctc : Table α) (ps : Finset (Finset α)) (hnd : (ctc.map Prod.fst).Nodup)
    (h : Own sct ctc) : Own sct (pruneInit old ctc ps).1 ∧ ((pruneInit old ctc ps).1.map Prod.fst).Sublist (ctc.map Prod.fst) := by
  induction old generalizing ctc ps with
  | nil => exact ⟨h, List.Sublist.refl _⟩
  | cons x old ih =>
    obtain ⟨iset, usage⟩ := x
    unfold pruneInit
    by_cases h1 : 1 < iset.card
    · rw [if_pos h1]
      by_cases h2 : lookup ctc iset = ∅
      · rw [if_pos h2]
        obtain ⟨g1, g2⟩ := ih (dictDel ctc iset) ps (hnd.sublist (keys_dictDel_sublist ctc iset)) (h.dictDel hnd iset h2)
        exact ⟨g1, g2.trans (keys_dictDel_sublist ctc iset)⟩
      · rw [if_neg h2]
        by_cases h3 : (lookup ctc iset).card < usage.card
        · rw [if_pos h3]; exact ih ctc _ hnd h
        · rw [if_neg h3]; exact ih ctc _ hnd h
    · rw [if_neg h1]; exact ih ctc _ hnd h

theorem pruneLoop_own (P : Params α κ V) (sct : Sct α) (choose : Chooser α) (hch : ChooserOk choose)
    (n : ℕ) (ctc : Table α) (ps : Finset (Finset α)) (size : V) (hg : Good sct ctc) (hps : PsOk ctc ps) (ho : Own sct ctc)
    (r : Table α × V) (h : pruneLoop P sct choose n ctc ps size = some (.ok r)) :
    Own sct r.1 ∧ (r.1.map Prod.fst).Sublist (ctc.map Prod.fst) := by
  induction n generalizing ctc ps size with
  | zero =>
    unfold pruneLoop at h
    by_cases he : ps = ∅
    · rw [if_pos he, Option.some.injEq, Except.ok.injEq] at h
      subst h
      exact ⟨ho, List.Sublist.refl _⟩
    · rw [if_neg he] at h; cases h
  | succ n ih =>
    unfold pruneLoop at h
    by_cases he : ps = ∅
    · rw [if_pos he, Option.some.injEq, Except.ok.injEq] at h
      subst h
      exact ⟨ho, List.Sublist.refl _⟩
    · rw [if_neg he] at h
      simp only at h
      have hc := (hch n ps ctc (Finset.nonempty_iff_ne_empty.2 he)).1
      generalize choose n ps ctc = c at hc h
      obtain ⟨hc1, hc2⟩ := hps c hc
      have hko := keysOk_erase hg c hc1
      rw [cover_eq sct _ hko] at h
      simp only at h
      cases hs : computeSizes P (coverMap (lookup sct) ((ctc.map Prod.fst).erase c)) with
      | error e => rw [hs] at h; cases h
      | ok size2 =>
        rw [hs] at h
        simp only at h
        by_cases hlt : size2 < size
        · rw [if_pos hlt, accepted_eq hg c] at h
          obtain ⟨g1, g2⟩ := ih _ _ _ (coverMap_good sct _ hko) (fun d hd => by
            rw [keys_coverMap]
            rcases Finset.mem_union.1 hd with hd | hd
            · obtain ⟨h1, h2⟩ := Finset.mem_erase.1 hd
              exact ⟨(hps d h2).1, (List.mem_erase_of_ne h1).2 (hps d h2).2⟩
            · obtain ⟨e, he2, rfl⟩ := List.mem_map.1 (List.mem_toFinset.1 hd)
              obtain ⟨h1, h2⟩ := List.mem_filter.1 he2
              exact ⟨(of_decide_eq_true h2).1, by
                have := mem_key_of_mem h1
                rwa [keys_coverMap] at this⟩) (own_coverMap sct _) h
          rw [keys_coverMap] at g2
          exact ⟨g1, g2.trans List.erase_sublist⟩
        · rw [if_neg hlt] at h
          exact ih ctc _ size hg (fun d hd => hps d (Finset.mem_of_mem_erase hd)) ho h

theorem prefix_of_sorted (P : Params α κ V) (ct : Table α) (hs : ct.Pairwise (fun a b => P.key a.1 ≤ P.key b.1)) (c : Finset α) :
    (∀ e ∈ ct.take (bisect P ct c), P.key e.1 ≤ P.key c) ∧ ∀ e ∈ ct.drop (bisect P ct c), P.key c ≤ P.key e.1 := by
  induction ct with
  | nil => exact ⟨by simp, by simp⟩
  | cons x ct ih =>
    rw [List.pairwise_cons] at hs
    by_cases hx : P.key x.1 ≤ P.key c
    · have hb : bisect P (x :: ct) c = bisect P ct c + 1 := by
        unfold bisect
        rw [List.filter_cons_of_pos (by simpa using hx), List.length_cons]
      obtain ⟨h1, h2⟩ := ih hs.2
      rw [hb, List.take_succ_cons, List.drop_succ_cons]
      refine ⟨fun e he => ?_, h2⟩
      rcases List.mem_cons.1 he with rfl | he
      · exact hx
      · exact h1 e he
    · have hall : ∀ e ∈ x :: ct, ¬ P.key e.1 ≤ P.key c := by
        intro e he
        rcases List.mem_cons.1 he with rfl | he
        · exact hx
        · exact fun h => hx ((hs.1 e he).trans h)
      have hb : bisect P (x :: ct) c = 0 := by
        unfold bisect
        rw [List.filter_eq_nil_iff.2 (fun e he => by simpa using hall e he)]
        rfl
      rw [hb]
      exact ⟨by simp, fun e he => (not_le.1 (hall e he)).le⟩

theorem insert_sorted (P : Params α κ V) (ct : Table α) (hs : ct.Pairwise (fun a b => P.key a.1 ≤ P.key b.1)) (c : Finset α) :
    ((ct.map Prod.fst).insertIdx (bisect P ct c) c).Pairwise (fun a b => P.key a ≤ P.key b) := by
  rw [insertIdx_split _ _ _ (by rw [List.length_map]; exact bisect_le P ct c), ← List.map_take, ← List.map_drop]
  obtain ⟨h1, h2⟩ := prefix_of_sorted P ct hs c
  rw [← List.take_append_drop (bisect P ct c) ct, List.pairwise_append] at hs
  rw [List.pairwise_append, List.pairwise_map, List.pairwise_cons, List.pairwise_map]
  refine ⟨hs.1, ⟨fun X hX => ?_, hs.2.1⟩, fun X hX Y hY => ?_⟩
  · obtain ⟨e, he, rfl⟩ := List.mem_map.1 hX
    exact h2 e he
  · obtain ⟨e, he, rfl⟩ := List.mem_map.1 hX
    rcases List.mem_cons.1 hY with rfl | hY
    · exact h1 e he
    · obtain ⟨e', he', rfl⟩ := List.mem_map.1 hY
      exact hs.2.2 e he e' he'

/-- The state is sorted and has its own usages. -/
structure Settled (P : Params α κ V) (st : State α V) : Prop where
  own : Own st.sct st.ct
  sorted : st.ct.Pairwise (fun a b => P.key a.1 ≤ P.key b.1)

theorem evaluate_own (P : Params α κ V) (choose : Chooser α) (hch : ChooserOk choose) (st : State α V)
    (hg : Good st.sct st.ct) (hs : st.ct.Pairwise (fun a b => P.key a.1 ≤ P.key b.1)) (c : Finset α) (hne : c.Nonempty)
    (hkn : ∀ x ∈ c, x ∈ st.sct.map Prod.fst) (hnew : c ∉ st.ct.map Prod.fst) (size : V) (tab : Table α)
    (h : evaluate P choose st c = some (.ok (size, tab))) :
    Own st.sct tab ∧ tab.Pairwise (fun a b => P.key a.1 ≤ P.key b.1) := by
  have hp : ((st.ct.map Prod.fst).insertIdx (bisect P st.ct c) c).Perm (c :: st.ct.map Prod.fst) :=
    List.perm_insertIdx _ _ (by rw [List.length_map]; exact bisect_le P st.ct c)
  have hko : KeysOk st.sct (c :: st.ct.map Prod.fst) :=
    ⟨List.nodup_cons.2 ⟨hnew, hg.keys.nodup⟩, fun a ha => List.mem_cons_of_mem _ (hg.keys.single a ha),
      fun X hX => by
        rcases List.mem_cons.1 hX with rfl | hX
        · exact hne
        · exact hg.keys.nonempty X hX,
      fun X hX => by
        rcases List.mem_cons.1 hX with rfl | hX
        · exact hkn
        · exact hg.keys.known X hX⟩
  have hko2 := hko.perm hp
  have hgc := coverMap_good st.sct _ hko2
  have hso := insert_sorted P st.ct hs c
  unfold evaluate at h
  rw [if_neg (Finset.nonempty_iff_ne_empty.1 hne), cover_eq _ _ hko2] at h
  simp only at h
  generalize (st.ct.map Prod.fst).insertIdx (bisect P st.ct c) c = L at hp hko2 hgc hso h
  have key : ∀ tab : Table α, (tab.map Prod.fst).Sublist L → tab.Pairwise (fun a b => P.key a.1 ≤ P.key b.1) := by
    intro tab hsub
    have := hso.sublist hsub
    rwa [List.pairwise_map] at this
  cases hz : computeSizes P (coverMap (lookup st.sct) L) with
  | error e => rw [hz] at h; cases h
  | ok size' =>
    rw [hz] at h
    simp only at h
    by_cases hpr : P.pruning = true
    · rw [if_pos hpr] at h
      cases hr : prune P st.sct choose st.ct (coverMap (lookup st.sct) L) size' with
      | none => rw [hr] at h; cases h
      | some r =>
        cases r with
        | error e => rw [hr] at h; cases h
        | ok r =>
          rw [hr] at h
          simp only [Option.some.injEq, Except.ok.injEq, Prod.mk.injEq] at h
          unfold prune at hr
          simp only at hr
          obtain ⟨g1, g2, _, _⟩ := pruneInit_spec P st.sct st.ct (coverMap (lookup st.sct) L) ∅ hgc (by simp)
          obtain ⟨g3, g4⟩ := pruneInit_own st.sct st.ct (coverMap (lookup st.sct) L) ∅ hgc.keys.nodup (own_coverMap _ _)
          obtain ⟨g5, g6⟩ := pruneLoop_own P st.sct choose hch _ _ _ _ g1 g2 g3 r hr
          rw [keys_coverMap] at g4
          rw [← h.2]
          exact ⟨g5, key _ (g6.trans g4)⟩
    · rw [if_neg hpr] at h
      simp only [Option.some.injEq, Except.ok.injEq, Prod.mk.injEq] at h
      rw [← h.2]
      exact ⟨own_coverMap _ _, key _ (by rw [keys_coverMap])⟩

theorem eq_of_sorted_perm (key : Finset α → κ) (hinj : Function.Injective key) (l l' : Table α) (hp : l.Perm l')
    (hnd : (l.map Prod.fst).Nodup) (h : l.Pairwise (fun a b => key a.1 ≤ key b.1)) (h' : l'.Pairwise (fun a b => key a.1 ≤ key b.1)) :
    l = l' := by
  refine hp.eq_of_pairwise (fun a b ha hb h1 h2 => ?_) h h'
  exact eq_of_mem_of_key hnd ha (hp.mem_iff.2 hb) (hinj (le_antisymm h1 h2))

theorem updateUsages_settled (P : Params α κ V) (hinj : Function.Injective P.key) (st : State α V) (hg : Good st.sct st.ct) (tab : Table α)
    (hu : Good st.sct tab) (ho : Own st.sct tab) (hs : tab.Pairwise (fun a b => P.key a.1 ≤ P.key b.1)) (size : V) :
    Settled P (updateUsages P st tab size) ∧ (updateUsages P st tab size).ct = tab := by
  have h : (updateUsages P st tab size).ct = tab :=
    (eq_of_sorted_perm P.key hinj _ _ (updateUsages_perm P st hg tab hu size) hu.keys.nodup hs (sortTable_sorted P _)).symm
  refine ⟨⟨?_, sortTable_sorted P _⟩, h⟩
  rw [h]
  exact ho

theorem interTids_single (s : α → Finset ℕ) (a : α) : interTids s {a} = s a := by
  ext t
  rw [mem_interTids]
  simp

theorem coverMap_singles (s : α → Finset ℕ) (L : List α) (hnd : L.Nodup) :
    coverMap s (L.map (fun a => {a})) = L.map (fun a => ({a}, s a)) := by
  induction L generalizing s with
  | nil => rfl
  | cons a L ih =>
    rw [List.nodup_cons] at hnd
    rw [List.map_cons, List.map_cons, coverMap, interTids_single, ih _ hnd.2]
    congr 1
    refine List.map_congr_left (fun b hb => ?_)
    rw [Prod.mk.injEq]
    refine ⟨rfl, ?_⟩
    unfold residue
    rw [if_neg]
    rintro h
    rw [Finset.mem_singleton] at h
    exact hnd.1 (h ▸ hb)

theorem prefit_settled (P : Params α κ V) (items : List α) (D : List (List α)) : Settled P (prefit P items D) := by
  refine ⟨?_, sortTable_sorted P _⟩
  have hnd := (prefit_sct P items _ (toVertical_nodup ∅ D)).1
  have hct := fun e => prefit_ct_mem P items (toVertical ∅ D) e
  have hcn := prefit_ct_nodup P items _ (toVertical_nodup ∅ D)
  change ((prefit P items D).sct.map Prod.fst).Nodup at hnd
  change ∀ e, e ∈ (prefit P items D).ct ↔ ∃ x ∈ (prefit P items D).sct, e = ({x.1}, x.2) at hct
  change ((prefit P items D).ct.map Prod.fst).Nodup at hcn
  generalize prefit P items D = st at hnd hct hcn
  obtain ⟨L, hL⟩ : ∃ L : List α, st.ct = L.map (fun a => ({a}, lookup st.sct a)) := by
    have : ∀ l : Table α, (∀ e ∈ l, e ∈ st.ct) → ∃ L : List α, l = L.map (fun a => ({a}, lookup st.sct a)) := by
      intro l
      induction l with
      | nil => exact fun _ => ⟨[], rfl⟩
      | cons e l ih =>
        intro h
        obtain ⟨L, rfl⟩ := ih (fun e he => h e (List.mem_cons_of_mem _ he))
        obtain ⟨x, hx, rfl⟩ := (hct e).1 (h e List.mem_cons_self)
        exact ⟨x.1 :: L, by rw [List.map_cons, lookup_of_mem hnd hx]⟩
    exact this st.ct (fun _ h => h)
  unfold Own
  rw [hL, List.map_map]
  have hLn : L.Nodup := by
    rw [hL, List.map_map] at hcn
    exact List.Nodup.of_map _ hcn
  exact coverMap_singles _ L hLn

theorem fitLoop_settled (P : Params α κ V) (hinj : Function.Injective P.key) (O : Oracle α) (hO : OracleOk O) (n i : ℕ) (st st' : State α V)
    (hg : Good st.sct st.ct) (hs : Settled P st) (h : fitLoop P O n i st = some (.ok st')) : Settled P st' := by
  induction n generalizing st i with
  | zero => cases h
  | succ n ih =>
    have hc := candidates_ok O hO i st hg
    unfold fitLoop at h
    simp only at h
    generalize (generateCandidates (O.gain i (O.enum i st.ct)) (O.enum i st.ct) (st.ct.map Prod.fst).toFinset).1 = cs at hc h
    cases cs with
    | nil =>
      simp only [tryCandidates, Option.some.injEq, Except.ok.injEq] at h
      exact h ▸ hs
    | cons c0 cs =>
      have hin := (hc c0 List.mem_cons_self).2.2.2
      rcases tryCandidates_spec P (O.choose i) (hO.2 i) st hg hin (c0 :: cs)
        (fun c h => ⟨(hc c h).1, (hc c h).2.1, (hc c h).2.2.1⟩) with h1 | ⟨c, hcc, tab, g1, g2, g3, g4⟩
      · rw [h1] at h
        simp only [Option.some.injEq, Except.ok.injEq] at h
        exact h ▸ hs
      · rw [g4] at h
        simp only at h
        obtain ⟨k1, k2⟩ := evaluate_own P _ (hO.2 i c.1) st hg hs.sorted c.1 (hc c hcc).1 (hc c hcc).2.1 (hc c hcc).2.2.1 _ _ g1
        have k3 := (updateUsages_settled P hinj st hg tab g2 k1 k2 (sizeOf P tab)).1
        by_cases ht : O.timeUp i = true
        · rw [if_pos ht, Option.some.injEq, Except.ok.injEq] at h
          exact h ▸ k3
        · rw [if_neg ht] at h
          exact ih _ _ (updateUsages_good P st hg tab g2 _).1 k3 h

theorem update_settled (P : Params α κ V) (hinj : Function.Injective P.key) (choose : Chooser α) (hch : ChooserOk choose) (st st' : State α V)
    (hg : Good st.sct st.ct) (hs : Settled P st) (c : Finset α) (hnew : c ∉ st.ct.map Prod.fst) (h : update P choose st c = some (.ok st')) :
    Settled P st' := by
  unfold update at h
  cases he : evaluate P choose st c with
  | none => rw [he] at h; cases h
  | some r =>
    cases r with
    | error e => rw [he] at h; cases h
    | ok r =>
      obtain ⟨h1, h2⟩ := evaluate_known P choose st c r he
      obtain ⟨tab, g1, g2, _⟩ := evaluate_spec P choose hch st hg (inhabited_of_update P choose st c hg h1 h2 hnew r he) c h1 h2 hnew
      obtain ⟨k1, k2⟩ := evaluate_own P choose hch st hg hs.sorted c h1 h2 hnew _ _ g1
      rw [g1] at h
      simp only [Option.some.injEq, Except.ok.injEq] at h
      exact h ▸ (updateUsages_settled P hinj st hg tab g2 k1 k2 _).1

theorem coverKey_injective (iter : Finset α → List α) (hiter : ∀ (X : Finset α) (a : α), a ∈ iter X ↔ a ∈ X) (sct : Sct α) (m : Memo α) :
    Function.Injective (coverKey iter sct m) := by
  intro X Y h
  unfold coverKey at h
  have h1 := congrArg (fun z : CoverKey α => (ofLex (ofLex z).2).2) h
  ext a
  rw [← hiter X, ← hiter Y]
  exact iff_of_eq (congrArg (a ∈ ·) h1)

end Verif.Slim
