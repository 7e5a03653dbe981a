import Verif.Slim.DictLemmas

set_option autoImplicit false
set_option linter.unusedSectionVars false

namespace Verif.Slim

variable {α : Type*} [LinearOrder α]

theorem mem_foldl_inter (s : α → Finset ℕ) (l : List α) (u : Finset ℕ) (t : ℕ) :
    t ∈ l.foldl (fun u y => u ∩ s y) u ↔ t ∈ u ∧ ∀ y ∈ l, t ∈ s y := by
  induction l generalizing u with
  | nil => simp
  | cons x l ih =>
    rw [List.foldl_cons, ih, Finset.mem_inter]
    simp only [List.mem_cons, forall_eq_or_imp]
    tauto

theorem mem_interTids (s : α → Finset ℕ) (X : Finset α) (t : ℕ) :
    t ∈ interTids s X ↔ X.Nonempty ∧ ∀ x ∈ X, t ∈ s x := by
  unfold interTids
  have hmem := mem_sortSet X
  cases hX : sortSet X with
  | nil =>
    have : X = ∅ := by
      rw [Finset.eq_empty_iff_forall_notMem]
      intro x hx
      rw [← hmem, hX] at hx
      exact absurd hx (by simp)
    subst this
    simp
  | cons x xs =>
    simp only
    rw [mem_foldl_inter]
    have hx : x ∈ X := by rw [← hmem, hX]; simp
    constructor
    · rintro ⟨h1, h2⟩
      refine ⟨⟨x, hx⟩, fun y hy => ?_⟩
      rw [← hmem, hX] at hy
      rcases List.mem_cons.1 hy with rfl | hy
      · exact h1
      · exact h2 y hy
    · rintro ⟨_, h⟩
      refine ⟨h x hx, fun y hy => h y ?_⟩
      rw [← hmem, hX]
      exact List.mem_cons_of_mem _ hy

/-- What remains uncovered after using `X`. -/
def residue (s : α → Finset ℕ) (X : Finset α) : α → Finset ℕ := fun k => if k ∈ X then s k \ interTids s X else s k

theorem mem_residue (s : α → Finset ℕ) (X : Finset α) (a : α) (t : ℕ) :
    t ∈ residue s X a ↔ t ∈ s a ∧ (a ∈ X → t ∉ interTids s X) := by
  unfold residue
  split
  · next h => rw [Finset.mem_sdiff]; exact ⟨fun h2 => ⟨h2.1, fun _ => h2.2⟩, fun h2 => ⟨h2.1, h2.2 h⟩⟩
  · next h => exact ⟨fun h2 => ⟨h2, fun h3 => absurd h3 h⟩, fun h2 => h2.1⟩

/-- The loop of `cover` on distinct itemsets. -/
def coverMap (s : α → Finset ℕ) : List (Finset α) → Table α
  | [] => []
  | X :: L => (X, interTids s X) :: coverMap (residue s X) L

theorem coverLoop_eq (s : α → Finset ℕ) (acc : Table α) (L : List (Finset α)) (hnd : L.Nodup)
    (hdis : ∀ X ∈ L, X ∉ acc.map Prod.fst) : coverLoop s acc L = acc ++ coverMap s L := by
  induction L generalizing s acc with
  | nil => simp [coverLoop, coverMap]
  | cons X L ih =>
    rw [List.nodup_cons] at hnd
    have hX := hdis X (by simp)
    have hset : dictSet acc X (interTids s X) = acc ++ [(X, interTids s X)] := by unfold dictSet; rw [if_neg hX]
    unfold coverLoop
    simp only
    rw [hset]
    change coverLoop (residue s X) _ L = _
    rw [ih _ _ hnd.2]
    · simp [coverMap]
    · intro Y hY
      rw [List.map_append, List.mem_append]
      rintro (h | h)
      · exact hdis Y (List.mem_cons_of_mem _ hY) h
      · simp only [List.map_cons, List.map_nil, List.mem_singleton] at h
        subst h
        exact hnd.1 hY

theorem keys_coverMap (s : α → Finset ℕ) (L : List (Finset α)) : (coverMap s L).map Prod.fst = L := by
  induction L generalizing s with
  | nil => rfl
  | cons X L ih => rw [coverMap, List.map_cons, ih]

theorem coverMap_sound (s : α → Finset ℕ) (L : List (Finset α)) :
    ∀ e ∈ coverMap s L, ∀ a ∈ e.1, ∀ t ∈ e.2, t ∈ s a := by
  induction L generalizing s with
  | nil => simp [coverMap]
  | cons X L ih =>
    intro e he a ha t ht
    rcases List.mem_cons.1 he with rfl | he
    · exact ((mem_interTids s X t).1 ht).2 a ha
    · exact ((mem_residue s X a t).1 (ih _ e he a ha t ht)).1

theorem coverMap_unique (s : α → Finset ℕ) (L : List (Finset α)) :
    ∀ e ∈ coverMap s L, ∀ e' ∈ coverMap s L, ∀ a ∈ e.1, ∀ t ∈ e.2, a ∈ e'.1 → t ∈ e'.2 → e = e' := by
  induction L generalizing s with
  | nil => simp [coverMap]
  | cons X L ih =>
    have key : ∀ e ∈ coverMap (residue s X) L, ∀ a ∈ e.1, ∀ t ∈ e.2, a ∈ X → t ∈ interTids s X → False :=
      fun e he a ha t ht haX htX =>
        ((mem_residue s X a t).1 (coverMap_sound _ L e he a ha t ht)).2 haX htX
    intro e he e' he' a ha t ht ha' ht'
    rcases List.mem_cons.1 he with rfl | he
    · rcases List.mem_cons.1 he' with rfl | he'
      · rfl
      · exact (key e' he' a ha' t ht' ha ht).elim
    · rcases List.mem_cons.1 he' with rfl | he'
      · exact (key e he a ha t ht ha' ht').elim
      · exact ih _ e he e' he' a ha t ht ha' ht'

theorem coverMap_complete (s : α → Finset ℕ) (L : List (Finset α)) (a : α) (ha : {a} ∈ L) (t : ℕ) (ht : t ∈ s a) :
    ∃ e ∈ coverMap s L, a ∈ e.1 ∧ t ∈ e.2 := by
  induction L generalizing s with
  | nil => cases ha
  | cons X L ih =>
    by_cases hc : a ∈ X ∧ t ∈ interTids s X
    · exact ⟨_, List.mem_cons_self, hc⟩
    · rcases List.mem_cons.1 ha with hX | ha
      · refine absurd ?_ hc
        rw [← hX, mem_interTids]
        refine ⟨Finset.mem_singleton_self _, Finset.singleton_nonempty _, fun x hx => ?_⟩
        rw [Finset.mem_singleton] at hx
        subst hx
        exact ht
      · obtain ⟨e, he, h⟩ := ih (residue s X) ha ((mem_residue s X a t).2 ⟨ht, fun h h2 => hc ⟨h, h2⟩⟩)
        exact ⟨e, List.mem_cons_of_mem _ he, h⟩

/-- The list of keys of a code table over `sct`. -/
structure KeysOk (sct : Sct α) (L : List (Finset α)) : Prop where
  nodup : L.Nodup
  single : ∀ a ∈ sct.map Prod.fst, {a} ∈ L
  nonempty : ∀ X ∈ L, X.Nonempty
  known : ∀ X ∈ L, ∀ x ∈ X, x ∈ sct.map Prod.fst

/-- A well-formed lossless code table over `sct`. -/
structure Good (sct : Sct α) (tab : Table α) : Prop where
  keys : KeysOk sct (tab.map Prod.fst)
  lossless : Lossless (fun a t => t ∈ lookup sct a) tab

theorem cover_eq (sct : Sct α) (L : List (Finset α)) (h : KeysOk sct L) :
    cover sct L = .ok (coverMap (lookup sct) L) := by
  unfold cover
  rw [if_pos, coverLoop_eq _ _ _ h.nodup (by simp), List.nil_append]
  rw [List.all_eq_true]
  intro X hX
  exact decide_eq_true (h.known X hX)

theorem mem_keys_of_lookup {sct : Sct α} {a : α} {t : ℕ} (h : t ∈ lookup sct a) : a ∈ sct.map Prod.fst := by
  by_contra hc
  rw [lookup_of_not_mem hc] at h
  exact absurd h (by simp)

theorem coverMap_good (sct : Sct α) (L : List (Finset α)) (h : KeysOk sct L) : Good sct (coverMap (lookup sct) L) := by
  refine ⟨by rw [keys_coverMap]; exact h, ?_⟩
  refine ⟨by rw [keys_coverMap]; exact h.nodup, fun a t hat => ?_, coverMap_sound _ _, coverMap_unique _ _⟩
  exact coverMap_complete _ _ a (h.single a (mem_keys_of_lookup hat)) t hat

theorem Lossless.congr {T : α → ℕ → Prop} {tab tab' : Table α} (h : Lossless T tab)
    (hnd : (tab'.map Prod.fst).Nodup) (hsub : ∀ e ∈ tab', e ∈ tab) (hsup : ∀ e ∈ tab, e ∈ tab' ∨ e.2 = ∅) :
    Lossless T tab' where
  nodup := hnd
  complete := fun a t hat => by
    obtain ⟨e, he, ha, ht⟩ := h.complete a t hat
    rcases hsup e he with h1 | h1
    · exact ⟨e, h1, ha, ht⟩
    · rw [h1] at ht; exact absurd ht (by simp)
  sound := fun e he => h.sound e (hsub e he)
  unique := fun e he e' he' => h.unique e (hsub e he) e' (hsub e' he')

theorem KeysOk.perm {sct : Sct α} {L L' : List (Finset α)} (h : KeysOk sct L) (hp : L'.Perm L) : KeysOk sct L' where
  nodup := hp.nodup_iff.2 h.nodup
  single := fun a ha => hp.mem_iff.2 (h.single a ha)
  nonempty := fun X hX => h.nonempty X (hp.mem_iff.1 hX)
  known := fun X hX => h.known X (hp.mem_iff.1 hX)

theorem Good.perm {sct : Sct α} {tab tab' : Table α} (h : Good sct tab) (hp : tab'.Perm tab) : Good sct tab' :=
  have hk := h.keys.perm (hp.map Prod.fst)
  ⟨hk, h.lossless.congr hk.nodup (fun _ he => hp.mem_iff.1 he) (fun _ he => Or.inl (hp.mem_iff.2 he))⟩

/-- Removing unused itemsets of two items or more. -/
theorem Good.dictDel {sct : Sct α} {tab : Table α} (h : Good sct tab) (X : Finset α) (hc : 1 < X.card)
    (hX : lookup tab X = ∅) : Good sct (dictDel tab X) := by
  have hnd : ((Slim.dictDel tab X).map Prod.fst).Nodup := nodup_filter_keys _ _ h.keys.nodup
  have hsub : ∀ e ∈ Slim.dictDel tab X, e ∈ tab := fun e he => ((mem_dictDel tab X e).1 he).1
  refine ⟨⟨hnd, fun a ha => ?_, fun Y hY => ?_, fun Y hY => ?_⟩, h.lossless.congr hnd hsub (fun e he => ?_)⟩
  · obtain ⟨e, he, hea⟩ := List.mem_map.1 (h.keys.single a ha)
    refine List.mem_map.2 ⟨e, (mem_dictDel tab X e).2 ⟨he, ?_⟩, hea⟩
    rintro rfl
    rw [hea, Finset.card_singleton] at hc
    omega
  · obtain ⟨e, he, rfl⟩ := List.mem_map.1 hY
    exact h.keys.nonempty _ (mem_key_of_mem (hsub e he))
  · obtain ⟨e, he, rfl⟩ := List.mem_map.1 hY
    exact h.keys.known _ (mem_key_of_mem (hsub e he))
  · by_cases hk : e.1 = X
    · right
      rw [← lookup_of_mem h.keys.nodup he, hk, hX]
    · exact Or.inl ((mem_dictDel tab X e).2 ⟨he, hk⟩)

/-- The table has at least one occurrence to cover. -/
def Inhabited (sct : Sct α) : Prop := ∃ a t, t ∈ lookup sct a

section Prune
variable {κ V : Type*} [LinearOrder κ] [LinearOrder V]

/-- The size computed on the used itemsets. -/
def sizeOf (P : Params α κ V) (tab : Table α) : V := P.total (tab.filter (fun e => e.2 ≠ ∅))

theorem computeSizes_eq (P : Params α κ V) (sct : Sct α) (tab : Table α) (h : Good sct tab) (hin : Inhabited sct) :
    computeSizes P tab = .ok (sizeOf P tab) := by
  unfold computeSizes
  rw [if_neg]
  · rfl
  · obtain ⟨a, t, hat⟩ := hin
    obtain ⟨e, he, _, ht⟩ := h.lossless.complete a t hat
    intro hall
    have := of_decide_eq_true (List.all_eq_true.1 hall e he)
    rw [this] at ht
    exact absurd ht (by simp)

theorem sizeOf_dictDel (P : Params α κ V) (tab : Table α) (hnd : (tab.map Prod.fst).Nodup) (X : Finset α)
    (hX : lookup tab X = ∅) : sizeOf P (dictDel tab X) = sizeOf P tab := by
  unfold sizeOf dictDel
  rw [List.filter_filter]
  congr 1
  apply List.filter_congr
  intro e he
  by_cases hk : e.1 = X
  · have : e.2 = ∅ := by rw [← lookup_of_mem hnd he, hk, hX]
    simp [this]
  · simp [hk]

/-- The set of itemsets examined for pruning. -/
def PsOk (ctc : Table α) (ps : Finset (Finset α)) : Prop :=
  ∀ c ∈ ps, 1 < c.card ∧ c ∈ ctc.map Prod.fst

theorem pruneInit_spec (P : Params α κ V) (sct : Sct α) (old ctc : Table α) (ps : Finset (Finset α)) (hg : Good sct ctc)
    (hps : ∀ c ∈ ps, 1 < c.card ∧ c ∈ ctc.map Prod.fst ∧ lookup ctc c ≠ ∅)  :
    Good sct (pruneInit old ctc ps).1 ∧ PsOk (pruneInit old ctc ps).1 (pruneInit old ctc ps).2 ∧
      sizeOf P (pruneInit old ctc ps).1 = sizeOf P ctc ∧
      (∀ e ∈ (pruneInit old ctc ps).1, e ∈ ctc) := by
  induction old generalizing ctc ps with
  | nil => exact ⟨hg, fun c hc => ⟨(hps c hc).1, (hps c hc).2.1⟩, rfl, fun _ h => h⟩
  | cons x old ih =>
    obtain ⟨iset, usage⟩ := x
    unfold pruneInit
    by_cases h1 : 1 < iset.card
    · rw [if_pos h1]
      by_cases h2 : lookup ctc iset = ∅
      · rw [if_pos h2]
        obtain ⟨g1, g2, g3, g4⟩ := ih (dictDel ctc iset) ps (hg.dictDel iset h1 h2) (fun c hc => by
          obtain ⟨k1, k2, k3⟩ := hps c hc
          have hne : c ≠ iset := fun h => k3 (h ▸ h2)
          refine ⟨k1, ?_, ?_⟩
          · obtain ⟨e, he, hec⟩ := List.mem_map.1 k2
            exact List.mem_map.2 ⟨e, (mem_dictDel _ _ _).2 ⟨he, hec ▸ hne⟩, hec⟩
          · rw [lookup_dictDel _ hg.keys.nodup _ _ hne]; exact k3)
        exact ⟨g1, g2, g3.trans (sizeOf_dictDel P ctc hg.keys.nodup iset h2),
          fun e he => ((mem_dictDel _ _ _).1 (g4 e he)).1⟩
      · rw [if_neg h2]
        by_cases h3 : (lookup ctc iset).card < usage.card
        · rw [if_pos h3]
          refine ih ctc (insert iset ps) hg (fun c hc => ?_)
          rcases Finset.mem_insert.1 hc with rfl | hc
          · refine ⟨h1, ?_, h2⟩
            by_contra hk
            exact h2 (lookup_of_not_mem hk)
          · exact hps c hc
        · rw [if_neg h3]
          exact ih ctc ps hg hps
    · rw [if_neg h1]
      exact ih ctc ps hg hps

theorem keysOk_erase {sct : Sct α} {tab : Table α} (hg : Good sct tab) (c : Finset α) (hc : 1 < c.card) :
    KeysOk sct ((tab.map Prod.fst).erase c) where
  nodup := hg.keys.nodup.erase c
  single := fun a ha => (List.mem_erase_of_ne (fun h => by
    rw [← h, Finset.card_singleton] at hc; omega)).2 (hg.keys.single a ha)
  nonempty := fun X hX => hg.keys.nonempty X (List.mem_of_mem_erase hX)
  known := fun X hX => hg.keys.known X (List.mem_of_mem_erase hX)

/-- After an accepted removal the table is exactly the new cover. -/
theorem accepted_eq {sct : Sct α} {tab : Table α} (hg : Good sct tab) (c : Finset α) (s : α → Finset ℕ) :
    dictDel (dictUpdate tab (coverMap s ((tab.map Prod.fst).erase c))) c = coverMap s ((tab.map Prod.fst).erase c) := by
  have hnd := hg.keys.nodup
  have hLnd := hnd.erase c
  have hLe : (tab.map Prod.fst).erase c = (tab.map Prod.fst).filter (fun k => k ≠ c) := by
    rw [hnd.erase_eq_filter c]
    apply List.filter_congr
    intro e _
    rw [Bool.eq_iff_iff]
    simp [bne_iff_ne]
  have hLm : ∀ k ≠ c, k ∈ tab.map Prod.fst → k ∈ (tab.map Prod.fst).erase c := fun k hk h => (List.mem_erase_of_ne hk).2 h
  have hLs : ∀ k ∈ (tab.map Prod.fst).erase c, k ∈ tab.map Prod.fst := fun k hk => List.mem_of_mem_erase hk
  generalize (tab.map Prod.fst).erase c = L at hLnd hLe hLm hLs ⊢
  have hkeys := keys_coverMap s L
  have hnd2 : ((coverMap s L).map Prod.fst).Nodup := by rw [hkeys]; exact hLnd
  have hku : (dictUpdate tab (coverMap s L)).map Prod.fst = tab.map Prod.fst := by
    apply keys_dictUpdate_subset
    intro k hk
    rw [hkeys] at hk
    exact hLs k hk
  apply eq_of_keys_eq
  · rw [hkeys]
    refine Eq.trans ?_ hLe.symm
    rw [← hku, List.filter_map]
    rfl
  · exact nodup_filter_keys _ _ (by rw [hku]; exact hnd)
  · intro e he
    rw [mem_dictDel, mem_dictUpdate _ _ hnd2, hkeys] at he
    rcases he.1 with h | ⟨h1, h2⟩
    · exact h
    · exact absurd (hLm _ he.2 (mem_key_of_mem h1)) h2

theorem pruneLoop_spec (P : Params α κ V) (sct : Sct α) (hin : Inhabited sct) (choose : Chooser α) (hch : ChooserOk choose)
    (N n : ℕ) (ctc : Table α) (ps : Finset (Finset α)) (size : V) (hg : Good sct ctc) (hps : PsOk ctc ps)
    (hsz : size = sizeOf P ctc) (hN : ctc.length ≤ N) (hn : ctc.length * (N + 1) + ps.card ≤ n) :
    ∃ tab, pruneLoop P sct choose n ctc ps size = some (.ok (tab, sizeOf P tab)) ∧ Good sct tab ∧
      sizeOf P tab ≤ size ∧ ∀ X ∈ tab.map Prod.fst, X ∈ ctc.map Prod.fst := by
  induction n generalizing ctc ps size with
  | zero =>
    have : ps = ∅ := by rw [← Finset.card_eq_zero]; omega
    subst this
    exact ⟨ctc, by unfold pruneLoop; rw [if_pos rfl, ← hsz], hg, hsz.ge, fun X h => h⟩
  | succ n ih =>
    by_cases he : ps = ∅
    · subst he
      exact ⟨ctc, by unfold pruneLoop; rw [if_pos rfl, ← hsz], hg, hsz.ge, fun X h => h⟩
    · have hne := Finset.nonempty_iff_ne_empty.2 he
      have hc := (hch n ps ctc hne).1
      unfold pruneLoop
      rw [if_neg he]
      simp only
      generalize choose n ps ctc = c at hc
      obtain ⟨hc1, hc2⟩ := hps c hc
      have hko := keysOk_erase hg c hc1
      have hgp := coverMap_good sct _ hko
      rw [cover_eq sct _ hko]
      simp only
      rw [computeSizes_eq P sct _ hgp hin]
      simp only
      have hcard := Finset.card_erase_of_mem hc
      have hpos := Finset.card_pos.2 hne
      by_cases hlt : sizeOf P (coverMap (lookup sct) ((ctc.map Prod.fst).erase c)) < size
      · rw [if_pos hlt, accepted_eq hg c]
        have hlen : (coverMap (lookup sct) ((ctc.map Prod.fst).erase c)).length + 1 = ctc.length := by
          have h1 := congrArg List.length (keys_coverMap (lookup sct) ((ctc.map Prod.fst).erase c))
          rw [List.length_map, List.length_erase_of_mem hc2, List.length_map] at h1
          have : 0 < ctc.length := by
            rw [← List.length_map (f := Prod.fst)]; exact List.length_pos_of_mem hc2
          omega
        have hps2 : PsOk (coverMap (lookup sct) ((ctc.map Prod.fst).erase c))
            (ps.erase c ∪ ((List.filter (fun e => decide (1 < e.1.card ∧ e.2.card < (lookup ctc e.1).card))
              (coverMap (lookup sct) ((ctc.map Prod.fst).erase c))).map Prod.fst).toFinset) := by
          intro d hd
          rw [keys_coverMap]
          rcases Finset.mem_union.1 hd with hd | hd
          · obtain ⟨h1, h2⟩ := Finset.mem_erase.1 hd
            exact ⟨(hps d h2).1, (List.mem_erase_of_ne h1).2 (hps d h2).2⟩
          · obtain ⟨e, he2, rfl⟩ := List.mem_map.1 (List.mem_toFinset.1 hd)
            obtain ⟨h1, h2⟩ := List.mem_filter.1 he2
            exact ⟨(of_decide_eq_true h2).1, by
              have := mem_key_of_mem h1
              rwa [keys_coverMap] at this⟩
        generalize hpsdef : (ps.erase c ∪ ((List.filter (fun e => decide (1 < e.1.card ∧ e.2.card < (lookup ctc e.1).card))
              (coverMap (lookup sct) ((ctc.map Prod.fst).erase c))).map Prod.fst).toFinset) = ps2 at hps2
        have hpscard : ps2.card ≤ (coverMap (lookup sct) ((ctc.map Prod.fst).erase c)).length := by
          calc ps2.card ≤ ((coverMap (lookup sct) ((ctc.map Prod.fst).erase c)).map Prod.fst).toFinset.card :=
                Finset.card_le_card (fun d hd => List.mem_toFinset.2 (hps2 d hd).2)
            _ ≤ _ := (List.toFinset_card_le _).trans (List.length_map _).le
        obtain ⟨tab, h1, h2, h3, h4⟩ := ih (coverMap (lookup sct) ((ctc.map Prod.fst).erase c)) ps2 _ hgp hps2 rfl
          (by omega) (by
            have : ctc.length * (N + 1) = (coverMap (lookup sct) ((ctc.map Prod.fst).erase c)).length * (N + 1) + (N + 1) := by
              rw [← hlen, Nat.add_mul, Nat.one_mul]
            omega)
        exact ⟨tab, h1, h2, h3.trans hlt.le, fun X hX => by
          have := h4 X hX
          rw [keys_coverMap] at this
          exact List.mem_of_mem_erase this⟩
      · rw [if_neg hlt]
        exact ih ctc (ps.erase c) size hg (fun d hd => hps d (Finset.mem_of_mem_erase hd)) hsz hN (by omega)

theorem psOk_card {ctc : Table α} {ps : Finset (Finset α)} (h : PsOk ctc ps) : ps.card ≤ ctc.length :=
  calc ps.card ≤ (ctc.map Prod.fst).toFinset.card := Finset.card_le_card (fun d hd => List.mem_toFinset.2 (h d hd).2)
    _ ≤ _ := (List.toFinset_card_le _).trans (List.length_map _).le

theorem prune_spec (P : Params α κ V) (sct : Sct α) (hin : Inhabited sct) (choose : Chooser α) (hch : ChooserOk choose)
    (old ctc : Table α) (hg : Good sct ctc) :
    ∃ tab, prune P sct choose old ctc (sizeOf P ctc) = some (.ok (tab, sizeOf P tab)) ∧ Good sct tab ∧
      sizeOf P tab ≤ sizeOf P ctc ∧ ∀ X ∈ tab.map Prod.fst, X ∈ ctc.map Prod.fst := by
  obtain ⟨h1, h2, h3, h4⟩ := pruneInit_spec P sct old ctc ∅ hg (by simp)
  obtain ⟨tab, g1, g2, g3, g4⟩ := pruneLoop_spec P sct hin choose hch (pruneInit old ctc ∅).1.length
    (((pruneInit old ctc ∅).1.length + 1) * ((pruneInit old ctc ∅).1.length + 1)) _ _ (sizeOf P ctc) h1 h2 h3.symm le_rfl (by
      have := psOk_card h2
      rw [Nat.add_mul, Nat.one_mul]
      omega)
  refine ⟨tab, g1, g2, g3, fun X hX => ?_⟩
  obtain ⟨e, he, rfl⟩ := List.mem_map.1 (g4 X hX)
  exact mem_key_of_mem (h4 e he)

theorem bisect_le (P : Params α κ V) (ct : Table α) (c : Finset α) : bisect P ct c ≤ ct.length :=
  List.length_filter_le _ _

theorem evaluate_spec (P : Params α κ V) (choose : Chooser α) (hch : ChooserOk choose) (st : State α V)
    (hg : Good st.sct st.ct) (hin : Inhabited st.sct) (c : Finset α) (hne : c.Nonempty)
    (hkn : ∀ x ∈ c, x ∈ st.sct.map Prod.fst) (hnew : c ∉ st.ct.map Prod.fst) :
    ∃ tab, evaluate P choose st c = some (.ok (sizeOf P tab, tab)) ∧ Good st.sct tab ∧
      ∀ X ∈ tab.map Prod.fst, X = c ∨ X ∈ st.ct.map Prod.fst := by
  have hp : ((st.ct.map Prod.fst).insertIdx (bisect P st.ct c) c).Perm (c :: st.ct.map Prod.fst) :=
    List.perm_insertIdx _ _ (by rw [List.length_map]; exact bisect_le P st.ct c)
  have hko : KeysOk st.sct (c :: st.ct.map Prod.fst) :=
    ⟨List.nodup_cons.2 ⟨hnew, hg.keys.nodup⟩, fun a ha => List.mem_cons_of_mem _ (hg.keys.single a ha),
      fun X hX => by
        rcases List.mem_cons.1 hX with rfl | hX
        · exact hne
        · exact hg.keys.nonempty X hX,
      fun X hX => by
        rcases List.mem_cons.1 hX with rfl | hX
        · exact hkn
        · exact hg.keys.known X hX⟩
  have hko2 := hko.perm hp
  have hgc := coverMap_good st.sct _ hko2
  unfold evaluate
  rw [if_neg (Finset.nonempty_iff_ne_empty.1 hne), cover_eq _ _ hko2]
  simp only
  rw [computeSizes_eq P st.sct _ hgc hin]
  simp only
  have hkeys : ∀ X ∈ (coverMap (lookup st.sct) ((st.ct.map Prod.fst).insertIdx (bisect P st.ct c) c)).map Prod.fst,
      X = c ∨ X ∈ st.ct.map Prod.fst := by
    intro X hX
    rw [keys_coverMap] at hX
    exact List.mem_cons.1 (hp.mem_iff.1 hX)
  by_cases hpr : P.pruning = true
  · rw [if_pos hpr]
    obtain ⟨tab, h1, h2, h3, h4⟩ := prune_spec P st.sct hin choose hch st.ct _ hgc
    rw [h1]
    exact ⟨tab, rfl, h2, fun X hX => hkeys X (h4 X hX)⟩
  · rw [if_neg hpr]
    exact ⟨_, rfl, hgc, hkeys⟩

theorem sortTable_perm (P : Params α κ V) (tab : Table α) : (sortTable P tab).Perm tab := List.perm_insertionSort _ _

theorem updateUsages_mem (P : Params α κ V) (st : State α V) (hg : Good st.sct st.ct) (usages : Table α)
    (hu : Good st.sct usages) (size : V) (e : Finset α × Finset ℕ) :
    e ∈ (updateUsages P st usages size).ct ↔ e ∈ usages := by
  unfold updateUsages
  rw [(sortTable_perm P _).mem_iff, List.mem_filter, mem_dictUpdate _ _ hu.keys.nodup]
  simp only [decide_eq_true_eq, List.mem_filter, not_and, not_lt]
  constructor
  · rintro ⟨h | ⟨h1, h2⟩, h3⟩
    · exact h
    · exfalso
      have hcard := h3 (mem_key_of_mem h1) h2
      have hne := hg.keys.nonempty _ (mem_key_of_mem h1)
      have : e.1.card = 1 := le_antisymm hcard hne.card_pos
      obtain ⟨a, ha⟩ := Finset.card_eq_one.1 this
      apply h2
      rw [ha]
      exact hu.keys.single a (hg.keys.known _ (mem_key_of_mem h1) a (by rw [ha]; simp))
  · intro h
    exact ⟨Or.inl h, fun _ h2 => absurd (mem_key_of_mem h) h2⟩

theorem updateUsages_good (P : Params α κ V) (st : State α V) (hg : Good st.sct st.ct) (usages : Table α)
    (hu : Good st.sct usages) (size : V) :
    Good st.sct (updateUsages P st usages size).ct ∧ (updateUsages P st usages size).sct = st.sct := by
  have hmem := updateUsages_mem P st hg usages hu size
  have hnd : ((updateUsages P st usages size).ct.map Prod.fst).Nodup := by
    unfold updateUsages
    rw [((sortTable_perm P _).map Prod.fst).nodup_iff]
    exact nodup_filter_keys _ _ (nodup_dictUpdate _ _ hg.keys.nodup)
  refine ⟨⟨⟨hnd, fun a ha => ?_, fun X hX => ?_, fun X hX => ?_⟩,
    hu.lossless.congr hnd (fun e he => (hmem e).1 he) (fun e he => Or.inl ((hmem e).2 he))⟩, rfl⟩
  · obtain ⟨e, he, hea⟩ := List.mem_map.1 (hu.keys.single a ha)
    exact List.mem_map.2 ⟨e, (hmem e).2 he, hea⟩
  · obtain ⟨e, he, rfl⟩ := List.mem_map.1 hX
    exact hu.keys.nonempty _ (mem_key_of_mem ((hmem e).1 he))
  · obtain ⟨e, he, rfl⟩ := List.mem_map.1 hX
    exact hu.keys.known _ (mem_key_of_mem ((hmem e).1 he))

end Prune

end Verif.Slim
