import Verif.Slim.OwnLemmas
import Mathlib.Data.Finset.Image

/-! # Renaming the transactions of a SLIM object: lemmas (C114) -/

set_option autoImplicit false
set_option linter.unusedSectionVars false

namespace Verif.Slim

variable {α κ V : Type*} [LinearOrder α] [LinearOrder κ] [LinearOrder V]

/-- A table with its transactions renamed by `f`. -/
def moved {K : Type*} (f : ℕ ↪ ℕ) (tab : List (K × Finset ℕ)) : List (K × Finset ℕ) := tab.map (fun e => (e.1, e.2.map f))

/-- The sizes depend on the itemsets and on the numbers of their transactions only. -/
structure CountsOnly (P : Params α κ V) : Prop where
  total : ∀ t t' : Table α, t.map (fun e => (e.1, e.2.card)) = t'.map (fun e => (e.1, e.2.card)) → P.total t = P.total t'
  initTotal : ∀ s s' : Sct α, s.map (fun e => e.2.card) = s'.map (fun e => e.2.card) → P.initTotal s = P.initTotal s'

/-- A choice that depends on the itemsets and the numbers of their transactions only. -/
def ChooserCounts (choose : Chooser α) : Prop :=
  ∀ n ps (t t' : Table α), t.map (fun e => (e.1, e.2.card)) = t'.map (fun e => (e.1, e.2.card)) → choose n ps t = choose n ps t'

/-- What the environment decides does not depend on which numbers the transactions have. -/
structure OracleCounts (O : Oracle α) : Prop where
  enum : ∀ i (f : ℕ ↪ ℕ) tab, O.enum i (moved f tab) = moved f (O.enum i tab)
  gain : ∀ i (f : ℕ ↪ ℕ) tab x y, O.gain i (moved f tab) (x.1, x.2.map f) (y.1, y.2.map f) = O.gain i tab x y
  choose : ∀ i c, ChooserCounts (O.choose i c)

section Moved

variable {K : Type*} (f : ℕ ↪ ℕ)

theorem keys_moved (tab : List (K × Finset ℕ)) : (moved f tab).map Prod.fst = tab.map Prod.fst := by
  unfold moved
  rw [List.map_map]
  rfl

theorem counts_moved (tab : List (K × Finset ℕ)) : (moved f tab).map (fun e => (e.1, e.2.card)) = tab.map (fun e => (e.1, e.2.card)) := by
  unfold moved
  rw [List.map_map]
  simp [Function.comp_def]

theorem length_moved (tab : List (K × Finset ℕ)) : (moved f tab).length = tab.length := List.length_map _

theorem filter_moved (tab : List (K × Finset ℕ)) (p q : K × Finset ℕ → Bool) (h : ∀ e, p (e.1, e.2.map f) = q e) : (moved f tab).filter p = moved f (tab.filter q) := by
  unfold moved
  rw [List.filter_map]
  congr 1
  exact List.filter_congr (fun e _ => h e)

variable [DecidableEq K]

theorem lookup_moved (tab : List (K × Finset ℕ)) (k : K) : lookup (moved f tab) k = (lookup tab k).map f := by
  induction tab with
  | nil => simp [moved, lookup]
  | cons e tab ih =>
    unfold lookup moved at ih ⊢
    rw [List.map_cons, List.find?_cons, List.find?_cons]
    by_cases h : e.1 = k
    · simp [h]
    · simpa [h] using ih

theorem dictSet_moved (tab : List (K × Finset ℕ)) (k : K) (v : Finset ℕ) : dictSet (moved f tab) k (v.map f) = moved f (dictSet tab k v) := by
  unfold dictSet
  rw [keys_moved]
  split
  · unfold moved
    rw [List.map_map, List.map_map]
    apply List.map_congr_left
    intro e _
    simp only [Function.comp_apply]
    split <;> rfl
  · simp [moved]

theorem dictUpdate_moved (tab tab2 : List (K × Finset ℕ)) : dictUpdate (moved f tab) (moved f tab2) = moved f (dictUpdate tab tab2) := by
  induction tab2 generalizing tab with
  | nil => rfl
  | cons e tab2 ih =>
    have h : moved f (e :: tab2) = (e.1, e.2.map f) :: moved f tab2 := rfl
    rw [h, dictUpdate_cons, dictUpdate_cons, dictSet_moved, ih]

theorem dictDel_moved (tab : List (K × Finset ℕ)) (k : K) : dictDel (moved f tab) k = moved f (dictDel tab k) := filter_moved f tab _ _ (fun _ => rfl)

end Moved

variable (f : ℕ ↪ ℕ)

theorem interTids_moved (s : α → Finset ℕ) (X : Finset α) : interTids (fun a => (s a).map f) X = (interTids s X).map f := by
  unfold interTids
  cases sortSet X with
  | nil => rfl
  | cons x xs =>
    dsimp only
    generalize s x = u
    induction xs generalizing u with
    | nil => rfl
    | cons y ys ih => rw [List.foldl_cons, List.foldl_cons, ← Finset.map_inter, ih]

theorem coverLoop_moved (L : List (Finset α)) (s : α → Finset ℕ) (covers : Table α) :
    coverLoop (fun a => (s a).map f) (moved f covers) L = moved f (coverLoop s covers L) := by
  induction L generalizing s covers with
  | nil => rfl
  | cons X L ih =>
    unfold coverLoop
    dsimp only
    rw [interTids_moved, dictSet_moved, ← ih]
    congr 1
    funext k
    split
    · rw [Finset.map_sdiff]
    · rfl

/-- The standard code tables of two objects: the same items, with renamed transactions. -/
def SctMoved (sct sct' : Sct α) : Prop := (∀ a, a ∈ sct'.map Prod.fst ↔ a ∈ sct.map Prod.fst) ∧ ∀ a, lookup sct' a = (lookup sct a).map f

variable {f}

theorem cover_moved {sct sct' : Sct α} (h : SctMoved f sct sct') (L : List (Finset α)) : cover sct' L = (cover sct L).map (moved f) := by
  unfold cover
  have h1 : L.all (fun X => decide (∀ x ∈ X, x ∈ sct'.map Prod.fst)) = L.all (fun X => decide (∀ x ∈ X, x ∈ sct.map Prod.fst)) := by
    congr 1
    funext X
    simp only [h.1]
  rw [h1]
  split
  · have h2 : lookup sct' = fun a => (lookup sct a).map f := funext h.2
    rw [h2]
    have := coverLoop_moved f L (lookup sct) []
    exact congrArg Except.ok this
  · rfl

theorem computeSizes_moved {P : Params α κ V} (hP : CountsOnly P) (tab : Table α) : computeSizes P (moved f tab) = computeSizes P tab := by
  unfold computeSizes
  have h1 : (moved f tab).all (fun e => decide (e.2 = ∅)) = tab.all (fun e => decide (e.2 = ∅)) := by
    unfold moved
    rw [List.all_map]
    simp [Function.comp_def, Finset.map_eq_empty]
  rw [h1, filter_moved f tab _ (fun e => decide (e.2 ≠ ∅)) (fun e => by simp [Finset.map_eq_empty]), hP.total _ _ (counts_moved f _)]

theorem pruneInit_moved (old ctc : Table α) (ps : Finset (Finset α)) : pruneInit (moved f old) (moved f ctc) ps = (moved f (pruneInit old ctc ps).1, (pruneInit old ctc ps).2) := by
  induction old generalizing ctc ps with
  | nil => rfl
  | cons e old ih =>
    have h : moved f (e :: old) = (e.1, e.2.map f) :: moved f old := rfl
    rw [h]
    unfold pruneInit
    simp only [lookup_moved, Finset.map_eq_empty, Finset.card_map, dictDel_moved]
    split_ifs <;> exact ih _ _

theorem pruneLoop_moved {P : Params α κ V} (hP : CountsOnly P) {sct sct' : Sct α} (h : SctMoved f sct sct') {choose : Chooser α} (hc : ChooserCounts choose) (n : ℕ) (ctc : Table α) (ps : Finset (Finset α)) (size : V) :
    pruneLoop P sct' choose n (moved f ctc) ps size = (pruneLoop P sct choose n ctc ps size).map (Except.map (fun r => (moved f r.1, r.2))) := by
  induction n generalizing ctc ps size with
  | zero =>
    unfold pruneLoop
    split_ifs <;> rfl
  | succ n ih =>
    unfold pruneLoop
    dsimp only
    rw [hc n ps (moved f ctc) ctc (counts_moved f ctc), keys_moved, cover_moved h]
    by_cases hps : ps = ∅
    · rw [if_pos hps, if_pos hps]; rfl
    · rw [if_neg hps, if_neg hps]
      cases cover sct ((ctc.map Prod.fst).erase (choose n ps ctc)) with
      | error e => rfl
      | ok ctp =>
        dsimp only [Except.map]
        rw [computeSizes_moved hP]
        cases computeSizes P ctp with
        | error e => rfl
        | ok size2 =>
          dsimp only
          by_cases hs : size2 < size
          · rw [if_pos hs, if_pos hs, dictUpdate_moved, dictDel_moved, ih]
            rw [filter_moved f ctp _ (fun e => decide (1 < e.1.card ∧ e.2.card < (lookup ctc e.1).card)) (fun e => by rw [lookup_moved, Finset.card_map, Finset.card_map]), keys_moved]
          · rw [if_neg hs, if_neg hs, ih]

theorem prune_moved {P : Params α κ V} (hP : CountsOnly P) {sct sct' : Sct α} (h : SctMoved f sct sct') {choose : Chooser α} (hc : ChooserCounts choose) (old ctc : Table α) (size : V) :
    prune P sct' choose (moved f old) (moved f ctc) size = (prune P sct choose old ctc size).map (Except.map (fun r => (moved f r.1, r.2))) := by
  unfold prune
  rw [pruneInit_moved]
  dsimp only
  rw [length_moved, pruneLoop_moved hP h hc]

/-- Two states of which the second is the first with renamed transactions. -/
structure StMoved (f : ℕ ↪ ℕ) (st st' : State α V) : Prop where
  sct : SctMoved f st.sct st'.sct
  ct : st'.ct = moved f st.ct
  size : st'.size = st.size

theorem bisect_moved (P : Params α κ V) (ct : Table α) (c : Finset α) : bisect P (moved f ct) c = bisect P ct c := by
  unfold bisect
  rw [filter_moved f ct _ (fun e => decide (P.key e.1 ≤ P.key c)) (fun _ => rfl), length_moved]

theorem evaluate_moved {P : Params α κ V} (hP : CountsOnly P) {choose : Chooser α} (hc : ChooserCounts choose) {st st' : State α V} (h : StMoved f st st') (c : Finset α) :
    evaluate P choose st' c = (evaluate P choose st c).map (Except.map (fun r => (r.1, moved f r.2))) := by
  unfold evaluate
  by_cases h0 : c = ∅
  · rw [if_pos h0, if_pos h0]; rfl
  · rw [if_neg h0, if_neg h0, h.ct, bisect_moved, keys_moved, cover_moved h.sct]
    cases cover st.sct ((st.ct.map Prod.fst).insertIdx (bisect P st.ct c) c) with
    | error e => rfl
    | ok ctc =>
      dsimp only [Except.map]
      rw [computeSizes_moved hP]
      cases computeSizes P ctc with
      | error e => rfl
      | ok size =>
        dsimp only
        by_cases hp : P.pruning = true
        · rw [if_pos hp, if_pos hp, prune_moved hP h.sct hc]
          rcases prune P st.sct choose st.ct ctc size with _ | _ | _ <;> rfl
        · rw [if_neg hp, if_neg hp]; rfl

theorem sortTable_moved (P : Params α κ V) (tab : Table α) : sortTable P (moved f tab) = moved f (sortTable P tab) := by
  unfold sortTable moved
  exact (List.map_insertionSort (r := fun a b : Finset α × Finset ℕ => P.key a.1 ≤ P.key b.1) (s := fun a b : Finset α × Finset ℕ => P.key a.1 ≤ P.key b.1) (fun e => (e.1, e.2.map f)) tab (fun _ _ _ _ => Iff.rfl)).symm

theorem updateUsages_moved (P : Params α κ V) {st st' : State α V} (h : StMoved f st st') (usages : Table α) (size : V) :
    StMoved f (updateUsages P st usages size) (updateUsages P st' (moved f usages) size) := by
  refine ⟨h.sct, ?_, rfl⟩
  unfold updateUsages
  dsimp only
  rw [h.ct, keys_moved, keys_moved, dictUpdate_moved, ← sortTable_moved]
  congr 1
  exact filter_moved f _ _ _ (fun e => rfl)

/-- The result of a step, for the renamed object. -/
def OutMoved {ε : Type*} (f : ℕ ↪ ℕ) : Option (Except ε (State α V)) → Option (Except ε (State α V)) → Prop
  | none, none => True
  | some (.error e), some (.error e') => e = e'
  | some (.ok st), some (.ok st') => StMoved f st st'
  | _, _ => False

theorem update_moved {P : Params α κ V} (hP : CountsOnly P) {choose : Chooser α} (hc : ChooserCounts choose) {st st' : State α V} (h : StMoved f st st') (c : Finset α) :
    OutMoved f (update P choose st c) (update P choose st' c) := by
  unfold update
  rw [evaluate_moved hP hc h]
  rcases evaluate P choose st c with _ | e | ⟨size, usages⟩
  · exact trivial
  · exact rfl
  · exact updateUsages_moved P h usages size

theorem genInner_moved (gain gain' : (Finset α × Finset ℕ) → (Finset α × Finset ℕ) → ℚ) (hg : ∀ x y, gain' (x.1, x.2.map f) (y.1, y.2.map f) = gain x y) (x : Finset α × Finset ℕ) (Y : Table α) (stack : Finset (Finset α)) :
    genInner gain' (x.1, x.2.map f) (moved f Y) stack = genInner gain x Y stack := by
  induction Y generalizing stack with
  | nil => rfl
  | cons y Y ih =>
    have h : moved f (y :: Y) = (y.1, y.2.map f) :: moved f Y := rfl
    rw [h]
    unfold genInner
    dsimp only
    simp only [← Finset.map_inter, Finset.map_eq_empty, hg, ih]

theorem genOuter_moved (gain gain' : (Finset α × Finset ℕ) → (Finset α × Finset ℕ) → ℚ) (hg : ∀ x y, gain' (x.1, x.2.map f) (y.1, y.2.map f) = gain x y) (tab : Table α) (stack : Finset (Finset α)) :
    genOuter gain' (moved f tab) stack = genOuter gain tab stack := by
  induction tab generalizing stack with
  | nil => rfl
  | cons x Y ih =>
    have h : moved f (x :: Y) = (x.1, x.2.map f) :: moved f Y := rfl
    rw [h]
    unfold genOuter
    dsimp only
    simp only [Finset.map_eq_empty, genInner_moved gain gain' hg, ih]

theorem generateCandidates_moved (gain gain' : (Finset α × Finset ℕ) → (Finset α × Finset ℕ) → ℚ) (hg : ∀ x y, gain' (x.1, x.2.map f) (y.1, y.2.map f) = gain x y) (tab : Table α) (stack : Finset (Finset α)) :
    generateCandidates gain' (moved f tab) stack = generateCandidates gain tab stack := by
  unfold generateCandidates
  rw [genOuter_moved gain gain' hg]

/-- The result of trying the candidates, for the renamed object. -/
def TryMoved {ε : Type*} (f : ℕ ↪ ℕ) : Option (Except ε (Option (State α V))) → Option (Except ε (Option (State α V))) → Prop
  | none, none => True
  | some (.error e), some (.error e') => e = e'
  | some (.ok none), some (.ok none) => True
  | some (.ok (some st)), some (.ok (some st')) => StMoved f st st'
  | _, _ => False

theorem tryCandidates_moved {P : Params α κ V} (hP : CountsOnly P) {choose : Finset α → Chooser α} (hc : ∀ c, ChooserCounts (choose c)) {st st' : State α V} (h : StMoved f st st') (cs : List (Finset α × ℚ)) :
    TryMoved f (tryCandidates P choose st cs) (tryCandidates P choose st' cs) := by
  induction cs with
  | nil => exact trivial
  | cons c cs ih =>
    unfold tryCandidates
    rw [evaluate_moved hP (hc c.1) h, h.size]
    rcases evaluate P (choose c.1) st c.1 with _ | e | ⟨size, usages⟩
    · exact trivial
    · exact rfl
    · dsimp only [Option.map, Except.map]
      by_cases hs : size < st.size
      · rw [if_pos hs, if_pos hs]
        exact updateUsages_moved P h usages size
      · rw [if_neg hs, if_neg hs]
        exact ih

theorem fitLoop_moved {P : Params α κ V} (hP : CountsOnly P) {O : Oracle α} (hO : OracleCounts O) (n i : ℕ) {st st' : State α V} (h : StMoved f st st') : OutMoved f (fitLoop P O n i st) (fitLoop P O n i st') := by
  induction n generalizing i st st' with
  | zero => exact trivial
  | succ n ih =>
    unfold fitLoop
    dsimp only
    rw [h.ct, hO.enum, keys_moved, generateCandidates_moved (O.gain i (O.enum i st.ct)) (O.gain i (moved f (O.enum i st.ct))) (hO.gain i f _)]
    have ht := tryCandidates_moved hP (hO.choose i) h (generateCandidates (O.gain i (O.enum i st.ct)) (O.enum i st.ct) (st.ct.map Prod.fst).toFinset).1
    revert ht
    rcases tryCandidates P (O.choose i) st (generateCandidates (O.gain i (O.enum i st.ct)) (O.enum i st.ct) (st.ct.map Prod.fst).toFinset).1 with _ | e | _ | s <;>
      rcases tryCandidates P (O.choose i) st' (generateCandidates (O.gain i (O.enum i st.ct)) (O.enum i st.ct) (st.ct.map Prod.fst).toFinset).1 with _ | e' | _ | s' <;> intro ht <;>
      first | exact ht.elim | exact ht | exact h | skip
    dsimp only
    split_ifs
    · exact ht
    · exact ih (i + 1) ht

end Verif.Slim
