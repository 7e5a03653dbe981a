import Verif.Slim.SessModel
import Verif.Slim.CodeLength
import Mathlib.Order.Hom.Basic

/-!
# SLIM on renamed items: lemmas (C133)
-/

set_option autoImplicit false
set_option linter.unusedSectionVars false

namespace Verif.Slim

variable {α β κ κ' V : Type*} [LinearOrder α] [LinearOrder β] [LinearOrder κ] [LinearOrder κ'] [LinearOrder V]

/-- A table with renamed keys. -/
def renKeys {K K' W : Type*} (g : K → K') (tab : List (K × W)) : List (K' × W) := tab.map (fun e => (g e.1, e.2))

section Dict

variable {K K' : Type*} [DecidableEq K] [DecidableEq K'] {g : K → K'} (hg : Function.Injective g)

theorem keys_ren {W : Type*} (g : K → K') (tab : List (K × W)) : (renKeys g tab).map Prod.fst = (tab.map Prod.fst).map g := by
  unfold renKeys
  rw [List.map_map, List.map_map]
  rfl

theorem length_ren {W : Type*} (g : K → K') (tab : List (K × W)) : (renKeys g tab).length = tab.length := List.length_map _

theorem filter_ren {W : Type*} (g : K → K') (tab : List (K × W)) (p : K' × W → Bool) (q : K × W → Bool) (h : ∀ e ∈ tab, p (g e.1, e.2) = q e) : (renKeys g tab).filter p = renKeys g (tab.filter q) := by
  unfold renKeys
  rw [List.filter_map]
  congr 1
  exact List.filter_congr (fun e he => h e he)

include hg

theorem lookup_ren (tab : List (K × Finset ℕ)) (k : K) : lookup (renKeys g tab) (g k) = lookup tab k := by
  induction tab with
  | nil => rfl
  | cons e tab ih =>
    unfold lookup renKeys at ih ⊢
    rw [List.map_cons, List.find?_cons, List.find?_cons]
    by_cases h : e.1 = k
    · simp [h]
    · simpa [h, hg.eq_iff] using ih

theorem dictSet_ren {W : Type*} (tab : List (K × W)) (k : K) (v : W) : dictSet (renKeys g tab) (g k) v = renKeys g (dictSet tab k v) := by
  unfold dictSet
  rw [keys_ren]
  simp only [List.mem_map_of_injective hg]
  split
  · unfold renKeys
    rw [List.map_map, List.map_map]
    apply List.map_congr_left
    intro e _
    simp only [Function.comp_apply, hg.eq_iff]
    split <;> rfl
  · simp [renKeys]

theorem dictUpdate_ren {W : Type*} (tab tab2 : List (K × W)) : dictUpdate (renKeys g tab) (renKeys g tab2) = renKeys g (dictUpdate tab tab2) := by
  induction tab2 generalizing tab with
  | nil => rfl
  | cons e tab2 ih =>
    have h : renKeys g (e :: tab2) = (g e.1, e.2) :: renKeys g tab2 := rfl
    rw [h]
    unfold dictUpdate at *
    rw [List.foldl_cons, List.foldl_cons, dictSet_ren hg, ih]

theorem dictDel_ren {W : Type*} (tab : List (K × W)) (k : K) : dictDel (renKeys g tab) (g k) = renKeys g (dictDel tab k) :=
  filter_ren g tab _ _ (fun e _ => by simp [hg.eq_iff])

end Dict

variable (f : α ↪o β)

/-- The renamed itemset. -/
def renSet (X : Finset α) : Finset β := X.map f.toEmbedding

theorem renSet_inj : Function.Injective (renSet f) := Finset.map_injective _

theorem card_renSet (X : Finset α) : (renSet f X).card = X.card := Finset.card_map _

theorem renSet_eq_empty (X : Finset α) : renSet f X = ∅ ↔ X = ∅ := Finset.map_eq_empty

theorem mem_renSet (X : Finset α) (a : α) : f a ∈ renSet f X ↔ a ∈ X := Finset.mem_map' _

theorem sortSet_ren (X : Finset α) : sortSet (renSet f X) = (sortSet X).map f := by
  apply List.Perm.eq_of_pairwise' (strict_sortSet _)
  · rw [List.pairwise_map]
    exact (strict_sortSet X).imp (fun h => f.strictMono h)
  · rw [List.perm_ext_iff_of_nodup (nodup_sortSet _) ((nodup_sortSet X).map f.injective)]
    intro b
    rw [mem_sortSet, List.mem_map]
    unfold renSet
    rw [Finset.mem_map]
    simp [mem_sortSet]

/-- The renamed code table, standard code table, and state. -/
abbrev renTable (tab : Table α) : Table β := renKeys (renSet f) tab

/-- The renamed state. -/
def renSt (st : State α V) : State β V := ⟨renKeys f st.sct, renTable f st.ct, st.size⟩

theorem toFinset_ren (l : List (Finset α)) : (l.map (renSet f)).toFinset = l.toFinset.map ⟨renSet f, renSet_inj f⟩ := by
  ext X
  simp

theorem addTid_ren (res : Sct α) (e : α) (idx : ℕ) : addTid (renKeys f res) (f e) idx = renKeys f (addTid res e idx) := by
  unfold addTid
  rw [lookup_ren f.injective, dictSet_ren f.injective]

theorem addTransaction_ren (res : Sct α) (tr : List α) (idx : ℕ) : addTransaction ∅ (renKeys f res) (tr.map f) idx = renKeys f (addTransaction ∅ res tr idx) := by
  unfold addTransaction
  induction tr generalizing res with
  | nil => rfl
  | cons e tr ih =>
    simp only [List.map_cons, List.foldl_cons, Finset.notMem_empty, if_false] at ih ⊢
    rw [addTid_ren, ih]

theorem toVertical_ren (D : List (List α)) : toVertical ∅ (D.map (List.map f)) = renKeys f (toVertical ∅ D) := by
  unfold toVertical
  rw [List.zipIdx_map, List.foldl_map]
  have h : ∀ (L : List (List α × ℕ)) (res : Sct α), List.foldl (fun res p => addTransaction ∅ res (Prod.map (List.map f) id p).1 (Prod.map (List.map f) id p).2) (renKeys f res) L =
      renKeys f (L.foldl (fun res p => addTransaction ∅ res p.1 p.2) res) := by
    intro L
    induction L with
    | nil => intro res; rfl
    | cons p L ih =>
      intro res
      rw [List.foldl_cons, List.foldl_cons, ← ih]
      congr 1
      exact addTransaction_ren f res p.1 p.2
  exact h _ []

theorem interTids_ren (s : α → Finset ℕ) (s' : β → Finset ℕ) (h : ∀ a, s' (f a) = s a) (X : Finset α) : interTids s' (renSet f X) = interTids s X := by
  unfold interTids
  rw [sortSet_ren]
  cases sortSet X with
  | nil => rfl
  | cons x xs => simp [List.foldl_map, h]

theorem coverLoop_ren (L : List (Finset α)) (s : α → Finset ℕ) (s' : β → Finset ℕ) (h : ∀ a, s' (f a) = s a) (covers : Table α) :
    coverLoop s' (renTable f covers) (L.map (renSet f)) = renTable f (coverLoop s covers L) := by
  induction L generalizing s s' covers with
  | nil => rfl
  | cons X L ih =>
    rw [List.map_cons]
    unfold coverLoop
    dsimp only
    rw [interTids_ren f s s' h, dictSet_ren (renSet_inj f)]
    refine ih _ _ (fun a => ?_) _
    simp only [mem_renSet, h]

theorem cover_ren (sct : Sct α) (L : List (Finset α)) : cover (renKeys f sct) (L.map (renSet f)) = (cover sct L).map (renTable f) := by
  unfold cover
  have h1 : (L.map (renSet f)).all (fun X => decide (∀ x ∈ X, x ∈ (renKeys f sct).map Prod.fst)) = L.all (fun X => decide (∀ x ∈ X, x ∈ sct.map Prod.fst)) := by
    rw [List.all_map]
    congr 1
    funext X
    simp only [Function.comp_apply, keys_ren, decide_eq_decide]
    constructor
    · intro h x hx
      exact (List.mem_map_of_injective f.injective).1 (h (f x) ((mem_renSet f X x).2 hx))
    · intro h x hx
      obtain ⟨a, ha, rfl⟩ := Finset.mem_map.1 hx
      exact List.mem_map_of_mem (h a ha)
  rw [h1]
  split
  · exact congrArg Except.ok (coverLoop_ren f L (lookup sct) (lookup (renKeys f sct)) (lookup_ren f.injective sct) [])
  · rfl

/-- Two sets of parameters that correspond under the renaming. -/
structure ParamsRen (P : Params α κ V) (P' : Params β κ' V) : Prop where
  key : ∀ X Y, P'.key (renSet f X) ≤ P'.key (renSet f Y) ↔ P.key X ≤ P.key Y
  total : ∀ tab, P'.total (renTable f tab) = P.total tab
  initTotal : ∀ sct, P'.initTotal (renKeys f sct) = P.initTotal sct
  pruning : P'.pruning = P.pruning

/-- Two environments that correspond under the renaming. -/
def ChooserRen (ch : Chooser α) (ch' : Chooser β) : Prop :=
  ∀ n ps tab, ch' n (ps.map ⟨renSet f, renSet_inj f⟩) (renTable f tab) = renSet f (ch n ps tab)

/-- Two environments that correspond under the renaming. -/
structure OracleRen (O : Oracle α) (O' : Oracle β) : Prop where
  enum : ∀ i tab, O'.enum i (renTable f tab) = renTable f (O.enum i tab)
  gain : ∀ i tab (x y : Finset α × Finset ℕ), O'.gain i (renTable f tab) (renSet f x.1, x.2) (renSet f y.1, y.2) = O.gain i tab x y
  choose : ∀ i c, ChooserRen f (O.choose i c) (O'.choose i (renSet f c))
  timeUp : O'.timeUp = O.timeUp

variable {f}

section Params

variable {P : Params α κ V} {P' : Params β κ' V} (hP : ParamsRen f P P')
include hP

theorem computeSizes_ren (tab : Table α) : computeSizes P' (renTable f tab) = computeSizes P tab := by
  unfold computeSizes
  have h1 : (renTable f tab).all (fun e => decide (e.2 = ∅)) = tab.all (fun e => decide (e.2 = ∅)) := by
    unfold renTable renKeys
    rw [List.all_map]
    rfl
  rw [h1, filter_ren (renSet f) tab _ (fun e => decide (e.2 ≠ ∅)) (fun e _ => rfl), hP.total]

omit hP in
theorem pruneInit_ren (old ctc : Table α) (ps : Finset (Finset α)) : pruneInit (renTable f old) (renTable f ctc) (ps.map ⟨renSet f, renSet_inj f⟩) =
    (renTable f (pruneInit old ctc ps).1, (pruneInit old ctc ps).2.map ⟨renSet f, renSet_inj f⟩) := by
  induction old generalizing ctc ps with
  | nil => rfl
  | cons e old ih =>
    have h : renTable f (e :: old) = (renSet f e.1, e.2) :: renTable f old := rfl
    rw [h]
    unfold pruneInit
    have hi : insert (renSet f e.1) (ps.map ⟨renSet f, renSet_inj f⟩) = (insert e.1 ps).map ⟨renSet f, renSet_inj f⟩ := by
      rw [Finset.map_insert]; rfl
    simp only [lookup_ren (renSet_inj f), card_renSet, dictDel_ren (renSet_inj f), hi]
    split_ifs <;> exact ih _ _

theorem pruneLoop_ren (sct : Sct α) {choose : Chooser α} {choose' : Chooser β} (hc : ChooserRen f choose choose') (n : ℕ) (ctc : Table α) (ps : Finset (Finset α)) (size : V) :
    pruneLoop P' (renKeys f sct) choose' n (renTable f ctc) (ps.map ⟨renSet f, renSet_inj f⟩) size = (pruneLoop P sct choose n ctc ps size).map (Except.map (fun r => (renTable f r.1, r.2))) := by
  induction n generalizing ctc ps size with
  | zero =>
    unfold pruneLoop
    simp only [Finset.map_eq_empty]
    split_ifs <;> rfl
  | succ n ih =>
    unfold pruneLoop
    dsimp only
    have he : ∀ c, (ps.map ⟨renSet f, renSet_inj f⟩).erase (renSet f c) = (ps.erase c).map ⟨renSet f, renSet_inj f⟩ := fun c => by
      rw [Finset.map_erase]; rfl
    have hl : ∀ c, ((renTable f ctc).map Prod.fst).erase (renSet f c) = ((ctc.map Prod.fst).erase c).map (renSet f) := fun c => by
      rw [keys_ren, List.map_erase (renSet_inj f)]
    rw [hc, he, hl, cover_ren]
    by_cases hps : ps = ∅
    · rw [if_pos hps, if_pos (by rw [hps]; rfl)]; rfl
    · rw [if_neg hps, if_neg (by simpa [Finset.map_eq_empty] using hps)]
      cases cover sct ((ctc.map Prod.fst).erase (choose n ps ctc)) with
      | error e => rfl
      | ok ctp =>
        dsimp only [Except.map]
        rw [computeSizes_ren hP]
        cases computeSizes P ctp with
        | error e => rfl
        | ok size2 =>
          dsimp only
          by_cases hs : size2 < size
          · rw [if_pos hs, if_pos hs, dictUpdate_ren (renSet_inj f), dictDel_ren (renSet_inj f)]
            rw [filter_ren (renSet f) ctp _ (fun e => decide (1 < e.1.card ∧ e.2.card < (lookup ctc e.1).card)) (fun e _ => by rw [lookup_ren (renSet_inj f), card_renSet]), keys_ren, toFinset_ren,
              ← Finset.map_union]
            exact ih _ _ _
          · rw [if_neg hs, if_neg hs, ih]

theorem prune_ren (sct : Sct α) {choose : Chooser α} {choose' : Chooser β} (hc : ChooserRen f choose choose') (old ctc : Table α) (size : V) :
    prune P' (renKeys f sct) choose' (renTable f old) (renTable f ctc) size = (prune P sct choose old ctc size).map (Except.map (fun r => (renTable f r.1, r.2))) := by
  unfold prune
  have h := pruneInit_ren (f := f) old ctc ∅
  rw [Finset.map_empty] at h
  rw [h]
  dsimp only
  rw [length_ren, pruneLoop_ren hP sct hc]

theorem bisect_ren (ct : Table α) (c : Finset α) : bisect P' (renTable f ct) (renSet f c) = bisect P ct c := by
  unfold bisect
  rw [filter_ren (renSet f) ct _ (fun e => decide (P.key e.1 ≤ P.key c)) (fun e _ => by simp only [hP.key]), length_ren]

theorem evaluate_ren {choose : Chooser α} {choose' : Chooser β} (hc : ChooserRen f choose choose') (st : State α V) (c : Finset α) :
    evaluate P' choose' (renSt f st) (renSet f c) = (evaluate P choose st c).map (Except.map (fun r => (r.1, renTable f r.2))) := by
  unfold evaluate renSt
  simp only [renSet_eq_empty]
  by_cases h0 : c = ∅
  · rw [if_pos h0, if_pos h0]; rfl
  · rw [if_neg h0, if_neg h0, bisect_ren hP, keys_ren, ← List.map_insertIdx, cover_ren]
    cases cover st.sct ((st.ct.map Prod.fst).insertIdx (bisect P st.ct c) c) with
    | error e => rfl
    | ok ctc =>
      dsimp only [Except.map]
      rw [computeSizes_ren hP, hP.pruning]
      cases computeSizes P ctc with
      | error e => rfl
      | ok size =>
        dsimp only
        by_cases hp : P.pruning = true
        · rw [if_pos hp, if_pos hp, prune_ren hP st.sct hc]
          rcases prune P st.sct choose st.ct ctc size with _ | _ | _ <;> rfl
        · rw [if_neg hp, if_neg hp]; rfl

theorem sortTable_ren (tab : Table α) : sortTable P' (renTable f tab) = renTable f (sortTable P tab) := by
  unfold sortTable renTable renKeys
  exact (List.map_insertionSort (r := fun a b : Finset α × Finset ℕ => P.key a.1 ≤ P.key b.1) (s := fun a b : Finset β × Finset ℕ => P'.key a.1 ≤ P'.key b.1) (fun e => (renSet f e.1, e.2)) tab
    (fun a _ b _ => (hP.key a.1 b.1).symm)).symm

theorem updateUsages_ren (st : State α V) (usages : Table α) (size : V) : updateUsages P' (renSt f st) (renTable f usages) size = renSt f (updateUsages P st usages size) := by
  unfold updateUsages renSt
  dsimp only
  rw [keys_ren, keys_ren, dictUpdate_ren (renSet_inj f), ← sortTable_ren hP]
  congr 2
  refine filter_ren (renSet f) _ _ _ (fun e _ => ?_)
  rw [decide_eq_decide]
  have : ((st.ct.map Prod.fst).map (renSet f)).filter (fun c => decide (c ∉ (usages.map Prod.fst).map (renSet f) ∧ 1 < c.card)) =
      ((st.ct.map Prod.fst).filter (fun c => decide (c ∉ usages.map Prod.fst ∧ 1 < c.card))).map (renSet f) := by
    rw [List.filter_map]
    congr 1
    apply List.filter_congr
    intro c _
    simp only [Function.comp_apply, List.mem_map_of_injective (renSet_inj f), card_renSet]
  rw [this, List.mem_map_of_injective (renSet_inj f)]

theorem update_ren {choose : Chooser α} {choose' : Chooser β} (hc : ChooserRen f choose choose') (st : State α V) (c : Finset α) :
    update P' choose' (renSt f st) (renSet f c) = (update P choose st c).map (Except.map (renSt f)) := by
  unfold update
  rw [evaluate_ren hP hc]
  rcases evaluate P choose st c with _ | e | ⟨size, usages⟩
  · rfl
  · rfl
  · exact congrArg (fun s => some (Except.ok s)) (updateUsages_ren hP st usages size)

omit hP in
theorem genInner_ren (gain : (Finset α × Finset ℕ) → (Finset α × Finset ℕ) → ℚ) (gain' : (Finset β × Finset ℕ) → (Finset β × Finset ℕ) → ℚ) (hg : ∀ x y, gain' (renSet f x.1, x.2) (renSet f y.1, y.2) = gain x y)
    (x : Finset α × Finset ℕ) (Y : Table α) (stack : Finset (Finset α)) :
    genInner gain' (renSet f x.1, x.2) (renTable f Y) (stack.map ⟨renSet f, renSet_inj f⟩) =
      (renKeys (renSet f) (genInner gain x Y stack).1, (genInner gain x Y stack).2.map ⟨renSet f, renSet_inj f⟩) := by
  induction Y generalizing stack with
  | nil => rfl
  | cons y Y ih =>
    have h : renTable f (y :: Y) = (renSet f y.1, y.2) :: renTable f Y := rfl
    have hu : renSet f x.1 ∪ renSet f y.1 = renSet f (x.1 ∪ y.1) := by unfold renSet; rw [Finset.map_union]
    have hm : renSet f (x.1 ∪ y.1) ∈ stack.map ⟨renSet f, renSet_inj f⟩ ↔ x.1 ∪ y.1 ∈ stack := Finset.mem_map' _
    have hi : insert (renSet f (x.1 ∪ y.1)) (stack.map ⟨renSet f, renSet_inj f⟩) = (insert (x.1 ∪ y.1) stack).map ⟨renSet f, renSet_inj f⟩ := by
      rw [Finset.map_insert]; rfl
    rw [h]
    unfold genInner
    dsimp only
    simp only [hu, hm, hi, hg, ih]
    split_ifs <;> rfl

omit hP in
theorem genOuter_ren (gain : (Finset α × Finset ℕ) → (Finset α × Finset ℕ) → ℚ) (gain' : (Finset β × Finset ℕ) → (Finset β × Finset ℕ) → ℚ) (hg : ∀ x y, gain' (renSet f x.1, x.2) (renSet f y.1, y.2) = gain x y)
    (tab : Table α) (stack : Finset (Finset α)) :
    genOuter gain' (renTable f tab) (stack.map ⟨renSet f, renSet_inj f⟩) = (renKeys (renSet f) (genOuter gain tab stack).1, (genOuter gain tab stack).2.map ⟨renSet f, renSet_inj f⟩) := by
  induction tab generalizing stack with
  | nil => rfl
  | cons x Y ih =>
    have h : renTable f (x :: Y) = (renSet f x.1, x.2) :: renTable f Y := rfl
    rw [h]
    unfold genOuter
    dsimp only
    simp only [genInner_ren gain gain' hg, ih]
    split_ifs
    · rfl
    · simp [renKeys]

omit hP in
theorem generateCandidates_ren (gain : (Finset α × Finset ℕ) → (Finset α × Finset ℕ) → ℚ) (gain' : (Finset β × Finset ℕ) → (Finset β × Finset ℕ) → ℚ) (hg : ∀ x y, gain' (renSet f x.1, x.2) (renSet f y.1, y.2) = gain x y)
    (tab : Table α) (stack : Finset (Finset α)) :
    (generateCandidates gain' (renTable f tab) (stack.map ⟨renSet f, renSet_inj f⟩)).1 = renKeys (renSet f) (generateCandidates gain tab stack).1 := by
  unfold generateCandidates
  rw [genOuter_ren gain gain' hg]
  unfold renKeys
  exact (List.map_insertionSort (r := fun a b : Finset α × ℚ => b.2 ≤ a.2) (s := fun a b : Finset β × ℚ => b.2 ≤ a.2) (fun e => (renSet f e.1, e.2)) _ (fun _ _ _ _ => Iff.rfl)).symm

theorem tryCandidates_ren {choose : Finset α → Chooser α} {choose' : Finset β → Chooser β} (hc : ∀ c, ChooserRen f (choose c) (choose' (renSet f c))) (st : State α V) (cs : List (Finset α × ℚ)) :
    tryCandidates P' choose' (renSt f st) (renKeys (renSet f) cs) = (tryCandidates P choose st cs).map (Except.map (Option.map (renSt f))) := by
  induction cs with
  | nil => rfl
  | cons c cs ih =>
    have h : renKeys (renSet f) (c :: cs) = (renSet f c.1, c.2) :: renKeys (renSet f) cs := rfl
    rw [h]
    unfold tryCandidates
    rw [evaluate_ren hP (hc c.1)]
    rcases evaluate P (choose c.1) st c.1 with _ | e | ⟨size, usages⟩
    · rfl
    · rfl
    · dsimp only [Option.map, Except.map]
      have hsz : (renSt f st).size = st.size := rfl
      rw [hsz]
      by_cases hs : size < st.size
      · rw [if_pos hs, if_pos hs, updateUsages_ren hP]
      · rw [if_neg hs, if_neg hs]
        exact ih

theorem fitLoop_ren {O : Oracle α} {O' : Oracle β} (hO : OracleRen f O O') (n i : ℕ) (st : State α V) : fitLoop P' O' n i (renSt f st) = (fitLoop P O n i st).map (Except.map (renSt f)) := by
  induction n generalizing i st with
  | zero => rfl
  | succ n ih =>
    unfold fitLoop
    dsimp only
    have hct : (renSt f st).ct = renTable f st.ct := rfl
    rw [hct, hO.enum, keys_ren, toFinset_ren, generateCandidates_ren (O.gain i (O.enum i st.ct)) _ (hO.gain i _), tryCandidates_ren hP (hO.choose i), hO.timeUp]
    rcases tryCandidates P (O.choose i) st (generateCandidates (O.gain i (O.enum i st.ct)) (O.enum i st.ct) (st.ct.map Prod.fst).toFinset).1 with _ | e | _ | s
    · rfl
    · rfl
    · rfl
    · dsimp only [Option.map, Except.map]
      split_ifs
      · rfl
      · exact ih (i + 1) s

omit hP in
theorem sctTail_ren (items : List α) (sct : Sct α) :
    (((items.map f).dedup.filter (fun i => decide (i ∉ (renKeys f sct).map Prod.fst))).map (fun i => (i, (∅ : Finset ℕ)))) =
      renKeys f ((items.dedup.filter (fun i => decide (i ∉ sct.map Prod.fst))).map (fun i => (i, (∅ : Finset ℕ)))) := by
  rw [List.dedup_map_of_injective f.injective, List.filter_map, keys_ren]
  have : items.dedup.filter ((fun i => decide (i ∉ (sct.map Prod.fst).map f)) ∘ f) = items.dedup.filter (fun i => decide (i ∉ sct.map Prod.fst)) := by
    apply List.filter_congr
    intro i _
    simp only [Function.comp_apply, List.mem_map_of_injective f.injective]
  rw [this]
  unfold renKeys
  rw [List.map_map, List.map_map]
  rfl

theorem prefit_ren (items : List α) (D : List (List α)) : prefit P' (items.map f) (D.map (List.map f)) = renSt f (prefit P items D) := by
  unfold prefit
  rw [toVertical_ren]
  unfold prefitVertical renSt
  dsimp only
  have hs : (renKeys f (toVertical ∅ D)).insertionSort (fun a b => b.2.card ≤ a.2.card) = renKeys f ((toVertical ∅ D).insertionSort (fun a b => b.2.card ≤ a.2.card)) := by
    unfold renKeys
    exact (List.map_insertionSort (r := fun a b : α × Finset ℕ => b.2.card ≤ a.2.card) (s := fun a b : β × Finset ℕ => b.2.card ≤ a.2.card) (fun e => (f e.1, e.2)) _ (fun _ _ _ _ => Iff.rfl)).symm
  have ha : ∀ l l' : Sct α, renKeys f l ++ renKeys f l' = renKeys f (l ++ l') := fun l l' => by simp [renKeys]
  rw [hs, sctTail_ren, ha, hP.initTotal, ← sortTable_ren hP]
  congr 2
  unfold renTable renKeys
  rw [List.map_map, List.map_map]
  apply List.map_congr_left
  intro e _
  simp [renSet]

theorem fit_ren {O : Oracle α} {O' : Oracle β} (hO : OracleRen f O O') (items : List α) (fuel : ℕ) (D : List (List α)) :
    fit P' O' (items.map f) fuel (D.map (List.map f)) = (fit P O items fuel D).map (Except.map (renSt f)) := by
  unfold fit
  rw [prefit_ren hP, fitLoop_ren hP hO]

end Params

end Verif.Slim
