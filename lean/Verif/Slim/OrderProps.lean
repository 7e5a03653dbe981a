import Verif.Slim.OrderLemmas
import Verif.Slim.OwnProps
import Verif.Slim.SizeProps
import Verif.Slim.CodeLength
import Mathlib.Logic.Equiv.Basic

/-!
# SLIM does not depend on the order of the transactions (C114)
-/

set_option autoImplicit false
set_option linter.unusedSectionVars false

namespace Verif.Slim

variable {α κ V : Type*} [LinearOrder α] [LinearOrder κ] [LinearOrder V]

/-! ## Specification -/

/-- `D` and `D'` have the same non-empty transactions, in some order, when a transaction is seen as the set of its items. -/
def SameData (D D' : List (List α)) : Prop :=
  ((D.map List.toFinset).filter (fun X => decide (X ≠ ∅))).Perm ((D'.map List.toFinset).filter (fun X => decide (X ≠ ∅)))

/-- The call with the data `D'` in place of its own. -/
def SOp.withData (D' : List (List α)) : SOp α → SOp α
  | .prefit _ asked => .prefit D' asked
  | .fit O fuel _ asked => .fit O fuel D' asked
  | .update choose c asked => .update choose c asked
  | .query q => .query q

/-- The environment of the call does not look at the numbers of the transactions. -/
def EnvCounts : SOp α → Prop
  | .prefit _ _ => True
  | .fit O _ _ _ => OracleCounts O
  | .update choose _ _ => ChooserCounts choose
  | .query _ => True

/-! ## Lemmas: permutations of lists and renamings -/

theorem perm_renames {β : Type*} {L L' : List β} (h : L.Perm L') : ∃ σ : ℕ ≃ ℕ, ∀ t, L'[σ t]? = L[t]? := by
  induction h with
  | nil => exact ⟨Equiv.refl ℕ, fun _ => rfl⟩
  | @cons x l l' _ ih =>
    obtain ⟨σ, hσ⟩ := ih
    refine ⟨⟨fun t => match t with | 0 => 0 | n + 1 => σ n + 1, fun t => match t with | 0 => 0 | n + 1 => σ.symm n + 1, ?_, ?_⟩, ?_⟩
    · intro t
      cases t with
      | zero => rfl
      | succ n => simp
    · intro t
      cases t with
      | zero => rfl
      | succ n => simp
    · intro t
      cases t with
      | zero => rfl
      | succ n => simpa using hσ n
  | swap x y l =>
    refine ⟨Equiv.swap 0 1, fun t => ?_⟩
    rcases t with _ | _ | n
    · rw [Equiv.swap_apply_left]; rfl
    · rw [Equiv.swap_apply_right]; rfl
    · rw [Equiv.swap_apply_of_ne_of_ne (by omega) (by omega)]; rfl
  | trans _ _ ih1 ih2 =>
    obtain ⟨σ, hσ⟩ := ih1
    obtain ⟨τ, hτ⟩ := ih2
    exact ⟨σ.trans τ, fun t => by rw [Equiv.trans_apply, hτ, hσ]⟩

/-- Item `a` is in the set number `t`. -/
def OccursIn (L : List (Finset α)) (a : α) (t : ℕ) : Prop := ∃ X, L[t]? = some X ∧ a ∈ X

theorem occurs_iff (D : List (List α)) (a : α) (t : ℕ) : Occurs D a t ↔ OccursIn (D.map List.toFinset) a t := by
  unfold Occurs OccursIn
  rw [List.getElem?_map]
  cases D[t]? with
  | none => simp
  | some tr => simp

theorem perm_occursIn {L L' : List (Finset α)} (h : L.Perm L') : ∃ σ : ℕ ≃ ℕ, ∀ a t, OccursIn L' a (σ t) ↔ OccursIn L a t := by
  obtain ⟨σ, hσ⟩ := perm_renames h
  exact ⟨σ, fun a t => by unfold OccursIn; rw [hσ]⟩

theorem occursIn_append (L E : List (Finset α)) (hE : ∀ X ∈ E, X = ∅) (a : α) (t : ℕ) : OccursIn (L ++ E) a t ↔ OccursIn L a t := by
  unfold OccursIn
  by_cases ht : t < L.length
  · rw [List.getElem?_append_left ht]
  · rw [List.getElem?_append_right (by omega)]
    constructor
    · rintro ⟨X, hX, ha⟩
      rw [hE X (List.mem_of_getElem? hX)] at ha
      simp at ha
    · rintro ⟨X, hX, _⟩
      exact absurd (List.getElem?_eq_some_iff.1 hX).1 ht

theorem filter_occursIn (L : List (Finset α)) : ∃ σ : ℕ ≃ ℕ, ∀ a t, OccursIn (L.filter (fun X => decide (X ≠ ∅))) a (σ t) ↔ OccursIn L a t := by
  obtain ⟨σ, hσ⟩ := perm_occursIn (List.filter_append_perm (fun X : Finset α => decide (X ≠ ∅)) L).symm
  refine ⟨σ, fun a t => ?_⟩
  rw [← hσ, occursIn_append]
  intro X hX
  simpa using (List.mem_filter.1 hX).2

theorem same_renames {D D' : List (List α)} (h : SameData D D') : ∃ σ : ℕ ≃ ℕ, ∀ a t, Occurs D' a (σ t) ↔ Occurs D a t := by
  obtain ⟨σ1, h1⟩ := filter_occursIn (D.map List.toFinset)
  obtain ⟨σ2, h2⟩ := perm_occursIn h
  obtain ⟨σ3, h3⟩ := filter_occursIn (D'.map List.toFinset)
  refine ⟨(σ1.trans σ2).trans σ3.symm, fun a t => ?_⟩
  rw [occurs_iff, occurs_iff, ← h3, ← h1, ← h2, Equiv.trans_apply, Equiv.trans_apply, Equiv.apply_symm_apply]

/-! ## Lemmas: the standard code table and the first code table -/

theorem perm_of_lookup {K : Type*} [DecidableEq K] {l l' : List (K × Finset ℕ)} (h : (l.map Prod.fst).Nodup) (h' : (l'.map Prod.fst).Nodup)
    (hk : ∀ k, k ∈ l.map Prod.fst ↔ k ∈ l'.map Prod.fst) (hl : ∀ k, lookup l k = lookup l' k) : l.Perm l' := by
  have key : ∀ m m' : List (K × Finset ℕ), (m.map Prod.fst).Nodup → (m'.map Prod.fst).Nodup →
      (∀ k, k ∈ m.map Prod.fst → k ∈ m'.map Prod.fst) → (∀ k, lookup m k = lookup m' k) → ∀ e ∈ m, e ∈ m' := by
    intro m m' h h' hk hl e he
    obtain ⟨e', he', h1⟩ := List.mem_map.1 (hk e.1 (List.mem_map_of_mem he))
    have h2 := hl e.1
    rw [lookup_of_mem h he, ← h1, lookup_of_mem h' he'] at h2
    have : e = e' := Prod.ext h1.symm h2
    rw [this]; exact he'
  exact (List.perm_ext_iff_of_nodup h.of_map h'.of_map).2 (fun e =>
    ⟨key l l' h h' (fun k => (hk k).1) hl e, key l' l h' h (fun k => (hk k).2) (fun k => (hl k).symm) e⟩)

section Prefit

variable {σ : ℕ ≃ ℕ} {D D' : List (List α)} (hσ : ∀ a t, Occurs D' a (σ t) ↔ Occurs D a t)
include hσ

theorem occurs_exists (a : α) : (∃ t, Occurs D' a t) ↔ ∃ t, Occurs D a t :=
  ⟨fun ⟨t, h⟩ => ⟨σ.symm t, (hσ a _).1 (by rwa [Equiv.apply_symm_apply])⟩, fun ⟨t, h⟩ => ⟨σ t, (hσ a t).2 h⟩⟩

theorem known_same (items : List α) (a : α) : Known items D' a ↔ Known items D a := by
  unfold Known
  rw [occurs_exists hσ]

theorem mem_map_occurs (s : Finset ℕ) (s' : Finset ℕ) (X : α → Prop) (hs : ∀ t, t ∈ s ↔ ∀ a, X a → Occurs D a t)
    (hs' : ∀ t, t ∈ s' ↔ ∀ a, X a → Occurs D' a t) : s' = s.map σ.toEmbedding := by
  ext t
  rw [hs', Finset.mem_map_equiv, hs]
  constructor
  · exact fun h a ha => (hσ a _).1 (by rw [Equiv.apply_symm_apply]; exact h a ha)
  · intro h a ha
    have := (hσ a _).2 (h a ha)
    rwa [Equiv.apply_symm_apply] at this

theorem vertical_moved : SctMoved σ.toEmbedding (toVertical ∅ D) (toVertical ∅ D') := by
  refine ⟨fun a => ?_, fun a => ?_⟩
  · rw [mem_toVertical_keys, mem_toVertical_keys, occurs_exists hσ]
  · refine mem_map_occurs hσ _ _ (fun b => b = a) (fun t => ?_) (fun t => ?_) <;>
    · rw [mem_lookup_toVertical]
      simp

theorem vertical_perm : (toVertical ∅ D').Perm (moved σ.toEmbedding (toVertical ∅ D)) := by
  have h := vertical_moved hσ
  refine perm_of_lookup (toVertical_nodup _ _) ?_ (fun k => ?_) (fun k => ?_)
  · rw [keys_moved]; exact toVertical_nodup _ _
  · rw [keys_moved]; exact h.1 k
  · rw [lookup_moved]; exact h.2 k

theorem coverKey_same (iter : Finset α → List α) (items : List α) (m m' : Memo α) (hm : MemoRight items D m) (hm' : MemoRight items D' m') :
    coverKey iter (sctOf items D') m' = coverKey iter (sctOf items D) m := by
  funext X
  unfold coverKey
  have h := (getSupport_right items D (iter X).reverse m (fun k' _ _ r hr => (hm _ hr).2)).1
  have h' := (getSupport_right items D' (iter X).reverse m' (fun k' _ _ r hr => (hm' _ hr).2)).1
  have e : supportSize (getSupport (sctOf items D') (iter X).reverse m').1 = supportSize (getSupport (sctOf items D) (iter X).reverse m).1 := by
    rcases h with ⟨h1, h2⟩ | ⟨h1, ⟨a, h2, h3⟩, h4⟩ | ⟨h1, h2, s, h3, h4⟩
    · rcases h' with ⟨_, g2⟩ | ⟨g1, _⟩ | ⟨g1, _⟩
      · rw [h2, g2]
      · exact absurd h1 g1
      · exact absurd h1 g1
    · rcases h' with ⟨g1, _⟩ | ⟨_, _, g2⟩ | ⟨_, g2, _⟩
      · exact absurd g1 h1
      · rw [h4, g2]
      · exact absurd ((known_same hσ items a).1 (g2 a h2)) h3
    · rcases h' with ⟨g1, _⟩ | ⟨_, ⟨a, g2, g3⟩, _⟩ | ⟨_, _, s', g3, g4⟩
      · exact absurd g1 h1
      · exact absurd ((known_same hσ items a).2 (h2 a g2)) g3
      · rw [h3, g3]
        have := mem_map_occurs hσ s s' (fun a => a ∈ (iter X).reverse) h4 g4
        rw [this]
        exact Finset.card_map _
  rw [e]

omit hσ in
theorem cards_sorted (vert : Sct α) :
    ((vert.insertionSort (fun a b => b.2.card ≤ a.2.card)).map (fun e => e.2.card)).Pairwise (fun a b => b ≤ a) := by
  have : Std.Total (fun a b : α × Finset ℕ => b.2.card ≤ a.2.card) := ⟨fun a b => le_total _ _⟩
  have : IsTrans (α × Finset ℕ) (fun a b => b.2.card ≤ a.2.card) := ⟨fun a b c h1 h2 => le_trans h2 h1⟩
  rw [List.pairwise_map]
  exact List.pairwise_insertionSort _ _

theorem prefit_moved {P : Params α κ V} (hP : CountsOnly P) (hinj : Function.Injective P.key) (items : List α) :
    StMoved σ.toEmbedding (prefit P items D) (prefit P items D') := by
  have hv := vertical_perm hσ
  obtain ⟨hn, hk, hl⟩ := prefit_sct P items _ (toVertical_nodup ∅ D)
  obtain ⟨hn', hk', hl'⟩ := prefit_sct P items _ (toVertical_nodup ∅ D')
  have hm := vertical_moved hσ
  have hsct : SctMoved σ.toEmbedding (prefit P items D).sct (prefit P items D').sct := by
    refine ⟨fun a => ?_, fun a => ?_⟩
    · refine (hk' a).trans (Iff.trans ?_ (hk a).symm)
      rw [hm.1 a]
    · refine (hl' a).trans (Eq.trans ?_ (congrArg (Finset.map σ.toEmbedding) (hl a).symm))
      exact hm.2 a
  have hperm : (prefit P items D').sct.Perm (moved σ.toEmbedding (prefit P items D).sct) := by
    refine perm_of_lookup hn' ?_ (fun k => ?_) (fun k => ?_)
    · rw [keys_moved]; exact hn
    · rw [keys_moved]; exact hsct.1 k
    · rw [lookup_moved]; exact hsct.2 k
  refine ⟨hsct, ?_, ?_⟩
  · change sortTable P ((prefit P items D').sct.map (fun e => ({e.1}, e.2))) = moved _ (sortTable P ((prefit P items D).sct.map (fun e => ({e.1}, e.2))))
    rw [← sortTable_moved]
    refine eq_of_sorted_perm P.key hinj _ _ ?_ (prefit_ct_nodup P items _ (toVertical_nodup ∅ D')) (sortTable_sorted P _) (sortTable_sorted P _)
    refine (sortTable_perm P _).trans (List.Perm.trans ?_ (sortTable_perm P _).symm)
    have := hperm.map (fun e => (({e.1} : Finset α), e.2))
    refine this.trans (List.Perm.of_eq ?_)
    unfold moved
    rw [List.map_map, List.map_map]
    rfl
  · refine hP.initTotal _ _ ?_
    rw [List.map_append, List.map_append]
    have h2 : ∀ E : List (List α), ((toVertical ∅ E).insertionSort (fun a b => b.2.card ≤ a.2.card)).Perm (toVertical ∅ E) := fun _ => List.perm_insertionSort _ _
    congr 1
    · refine List.Perm.eq_of_pairwise (fun a b _ _ h3 h4 => le_antisymm h4 h3) (cards_sorted _) (cards_sorted _) ?_
      refine ((h2 D').map _).trans (List.Perm.trans ?_ ((h2 D).map _).symm)
      refine (hv.map _).trans (List.Perm.of_eq ?_)
      unfold moved
      rw [List.map_map]
      apply List.map_congr_left
      intro e _
      exact Finset.card_map _
    · congr 1
      congr 1
      apply List.filter_congr
      intro i _
      have h3 : ∀ E : List (List α), i ∈ ((toVertical ∅ E).insertionSort (fun a b => b.2.card ≤ a.2.card)).map Prod.fst ↔ i ∈ (toVertical ∅ E).map Prod.fst :=
        fun E => ((h2 E).map Prod.fst).mem_iff
      simp only [h3, hm.1 i]

end Prefit

/-! ## Lemmas: sessions -/

theorem countsOnly_params {S : Settings α V} (hS : CountsOnly (S.params [] [])) (sct : Sct α) (m : Memo α) : CountsOnly (S.params sct m) :=
  ⟨hS.total, hS.initTotal⟩

/-- The two objects answer alike: both have no code table, or the code tables are equal up to the numbers of the transactions. -/
def AlikeSt (f : ℕ ↪ ℕ) : Option (State α V) → Option (State α V) → Prop
  | none, none => True
  | some st, some st' => StMoved f st st'
  | _, _ => False

theorem withData_onData {D D' : List (List α)} {op : SOp α} (h : OnData D op) : OnData D' (op.withData D') := by
  cases op with
  | prefit D asked => exact rfl
  | fit O fuel D asked => exact ⟨rfl, h.2⟩
  | update choose c asked => exact trivial
  | query q => exact trivial

theorem step_alike {S : Settings α V} (hiter : ∀ (X : Finset α) (a : α), a ∈ S.iter X ↔ a ∈ X) (hS : CountsOnly (S.params [] []))
    {σ : ℕ ≃ ℕ} {D D' : List (List α)} (hσ : ∀ a t, Occurs D' a (σ t) ↔ Occurs D a t) {o o' : SObj α V} (ho : SInv S D o) (ho' : SInv S D' o')
    (h : AlikeSt σ.toEmbedding o.st o'.st) (op : SOp α) (hop : OnData D op) (henv : EnvCounts op) :
    AlikeSt σ.toEmbedding (sstep S o op).st (sstep S o' (op.withData D')).st := by
  have hkey := coverKey_same hσ S.iter S.items _ _ ho.memo ho'.memo
  have hpar : S.params (sctOf S.items D') o'.memo = S.params (sctOf S.items D) o.memo := by
    unfold Settings.params
    rw [hkey]
  have hinj : Function.Injective (S.params (sctOf S.items D) o.memo).key := coverKey_injective _ hiter _ _
  have hc := countsOnly_params hS (sctOf S.items D) o.memo
  cases op with
  | prefit E asked =>
    have hE : E = D := hop
    subst hE
    change StMoved _ (prefit _ S.items E) (prefit _ S.items D')
    rw [hpar]
    exact prefit_moved hσ hc hinj S.items
  | fit O fuel E asked =>
    obtain ⟨hE, _⟩ : E = D ∧ OracleOk O := hop
    subst hE
    have hf : OutMoved σ.toEmbedding (fit (S.params (sctOf S.items E) o.memo) O S.items fuel E) (fit (S.params (sctOf S.items E) o.memo) O S.items fuel D') :=
      fitLoop_moved hc henv fuel 0 (prefit_moved hσ hc hinj S.items)
    change AlikeSt _ ((fit (S.params (sctOf S.items E) o.memo) O S.items fuel E).bind Except.toOption)
      ((fit (S.params (sctOf S.items D') o'.memo) O S.items fuel D').bind Except.toOption)
    rw [hpar]
    revert hf
    rcases fit (S.params (sctOf S.items E) o.memo) O S.items fuel E with _ | e | st <;>
      rcases fit (S.params (sctOf S.items E) o.memo) O S.items fuel D' with _ | e' | st' <;>
      intro hf <;> first | exact hf.elim | exact trivial | exact hf
  | update choose c asked =>
    change AlikeSt _ (sstep S o (.update choose c asked)).st (sstep S o' (.update choose c asked)).st
    unfold sstep
    cases hs : o.st with
    | none =>
      cases hs' : o'.st with
      | none => simp only [hs, hs']; exact trivial
      | some st' => rw [hs, hs'] at h; exact h.elim
    | some st =>
      cases hs' : o'.st with
      | none => rw [hs, hs'] at h; exact h.elim
      | some st' =>
        rw [hs, hs'] at h
        have e1 : S.params st.sct o.memo = S.params (sctOf S.items D) o.memo := by
          unfold Settings.params
          rw [coverKey_congr _ _ _ (ho.known st hs) (ho.tids st hs)]
        have e2 : S.params st'.sct o'.memo = S.params (sctOf S.items D) o.memo := by
          rw [← hpar]
          unfold Settings.params
          rw [coverKey_congr _ _ _ (ho'.known st' hs') (ho'.tids st' hs')]
        have hu := update_moved (P := S.params (sctOf S.items D) o.memo) hc henv h c
        simp only [e1, e2]
        revert hu
        rcases update (S.params (sctOf S.items D) o.memo) choose st c with _ | e | st2 <;>
          rcases update (S.params (sctOf S.items D) o.memo) choose st' c with _ | e' | st2' <;>
          intro hu <;> first | exact hu.elim | exact h | exact hu
  | query q =>
    change AlikeSt _ (sstep S o (.query q)).st (sstep S o' (.query q)).st
    unfold sstep
    cases hs : o.st with
    | none =>
      cases hs' : o'.st with
      | none => simp only [hs, hs']; exact trivial
      | some st' => rw [hs, hs'] at h; exact h.elim
    | some st =>
      cases hs' : o'.st with
      | none => rw [hs, hs'] at h; exact h.elim
      | some st' => rw [hs, hs'] at h; exact h

theorem run_alike {S : Settings α V} (hiter : ∀ (X : Finset α) (a : α), a ∈ S.iter X ↔ a ∈ X) (hS : CountsOnly (S.params [] []))
    {σ : ℕ ≃ ℕ} {D D' : List (List α)} (hσ : ∀ a t, Occurs D' a (σ t) ↔ Occurs D a t) (ops : List (SOp α)) {o o' : SObj α V} (ho : SInv S D o)
    (ho' : SInv S D' o') (h : AlikeSt σ.toEmbedding o.st o'.st) (hops : ∀ op ∈ ops, OnData D op ∧ EnvCounts op) :
    AlikeSt σ.toEmbedding (srun S o ops).st (srun S o' (ops.map (SOp.withData D'))).st := by
  induction ops generalizing o o' with
  | nil => exact h
  | cons op ops ih =>
    obtain ⟨h1, h2⟩ := hops op List.mem_cons_self
    exact ih (sinv_step S D o op ho h1) (sinv_step S D' o' _ ho' (withData_onData h1)) (step_alike hiter hS hσ ho ho' h op h1 h2)
      (fun op' h' => hops op' (List.mem_cons_of_mem _ h'))

theorem transform_moved (f : ℕ ↪ ℕ) {st st' : State α V} (h : StMoved f st st') (singletons dropNull : Bool) :
    transform st' singletons dropNull = (transform st singletons dropNull).map (fun r => (r.1, r.2.map f)) := by
  unfold transform
  rw [h.ct, filter_moved f st.ct _ (fun e => decide ((if dropNull then 1 else 0) ≤ e.2.card ∧ (if singletons then 0 else 1) < e.1.card))
    (fun e => by simp only [Finset.card_map])]
  unfold moved
  rw [List.map_map, List.map_map]
  rfl

theorem knownItemsets_moved (f : ℕ ↪ ℕ) {st st' : State α V} (h : StMoved f st st') (vert : Sct α) : knownItemsets st' vert = knownItemsets st vert := by
  unfold knownItemsets
  rw [transform_moved f h, List.map_map]
  rfl

theorem slimCover_moved (f : ℕ ↪ ℕ) {st st' : State α V} (h : StMoved f st st') (E : List (List α)) : slimCover st' E = slimCover st E := by
  unfold slimCover coverMatrix
  rw [knownItemsets_moved f h]

theorem getCodeLength_moved {R : Type*} [LinearOrder R] [AddCommMonoid R] (code : ℕ → ℕ → R) (f : ℕ ↪ ℕ) {st st' : State α V} (h : StMoved f st st') (E : List (List α)) :
    getCodeLength code st' E = getCodeLength code st E := by
  unfold getCodeLength
  rw [slimCover_moved f h]
  have : codeOf code st' = codeOf code st := by
    funext X
    unfold codeOf
    rw [h.ct, lookup_moved, Finset.card_map]
    congr 2
    unfold moved
    rw [List.map_map]
    simp [Function.comp_def]
  rw [this]

/-! ## Theorems -/

/-- C114. Two new objects with the same settings get the same calls (`prefit`, `fit`, `update`, `get_support`), the data being `D` for the
one and `D'` for the other, where `D'` has the same non-empty transactions as `D`, in another order and with other repetitions of items. Then
either both have no code table, or: `transform` (with any options) lists the same itemsets in the same order, their transactions being
those of the first object, renamed by the bijection `σ` that maps the occurrences of items in `D` to those in `D'`; the total sizes
are equal; and on any data `E` the covers and the code lengths are the same. -/
theorem order_irrelevant {R : Type*} [LinearOrder R] [AddCommMonoid R] (code : ℕ → ℕ → R) (S : Settings α V)
    (hiter : ∀ (X : Finset α) (a : α), a ∈ S.iter X ↔ a ∈ X) (hS : CountsOnly (S.params [] [])) (D D' : List (List α)) (h : SameData D D')
    (ops : List (SOp α)) (hops : ∀ op ∈ ops, OnData D op ∧ EnvCounts op) :
    ∃ σ : ℕ ≃ ℕ, (∀ a t, Occurs D' a (σ t) ↔ Occurs D a t) ∧
      (((srun S SObj.new ops).st = none ∧ (srun S SObj.new (ops.map (SOp.withData D'))).st = none) ∨
        ∃ st st', (srun S SObj.new ops).st = some st ∧ (srun S SObj.new (ops.map (SOp.withData D'))).st = some st' ∧
          (∀ singletons dropNull, transform st' singletons dropNull =
            (transform st singletons dropNull).map (fun r => (r.1, r.2.map σ.toEmbedding))) ∧
          st'.size = st.size ∧
          ∀ E, slimCover st' E = slimCover st E ∧ getCodeLength code st' E = getCodeLength code st E) := by
  obtain ⟨σ, hσ⟩ := same_renames h
  refine ⟨σ, hσ, ?_⟩
  have hr := run_alike hiter hS hσ ops (sinv_new S D) (sinv_new S D') (trivial : AlikeSt (α := α) (V := V) σ.toEmbedding none none) hops
  cases h1 : (srun S SObj.new ops).st with
  | none =>
    cases h2 : (srun S SObj.new (ops.map (SOp.withData D'))).st with
    | none => exact Or.inl ⟨rfl, rfl⟩
    | some st' => rw [h1, h2] at hr; exact hr.elim
  | some st =>
    cases h2 : (srun S SObj.new (ops.map (SOp.withData D'))).st with
    | none => rw [h1, h2] at hr; exact hr.elim
    | some st' =>
      rw [h1, h2] at hr
      have hm : StMoved σ.toEmbedding st st' := hr
      exact Or.inr ⟨st, st', rfl, rfl, fun s d => transform_moved _ hm s d, hm.size,
        fun E => ⟨slimCover_moved _ hm E, getCodeLength_moved code _ hm E⟩⟩

/-- The settings with the exact sizes of `Slim/SizeModel.lean` (the codes of the items are those of the data `D`). -/
noncomputable def exactSettings (items : List α) (pruning : Bool) (iter : Finset α → List α) (D : List (List α)) : Settings α ℝ :=
  ⟨items, pruning, iter, (exactP (κ := ℕ) (fun _ => 0) pruning D).total, (exactP (κ := ℕ) (fun _ => 0) pruning D).initTotal⟩

/-- C114, exact sizes. The sizes computed from the data depend on the itemsets and the numbers of their transactions only, and are the same
functions for `D` and `D'`: `order_irrelevant` applies to them. -/
theorem exact_order_irrelevant (items : List α) (pruning : Bool) (iter : Finset α → List α) (D D' : List (List α)) (h : SameData D D') :
    CountsOnly ((exactSettings items pruning iter D).params [] []) ∧ exactSettings items pruning iter D' = exactSettings items pruning iter D := by
  obtain ⟨σ, hσ⟩ := same_renames h
  have hst : startCode (toVertical ∅ D') = startCode (toVertical ∅ D) := by
    funext a
    unfold startCode
    rw [(vertical_moved hσ).2 a, Finset.card_map]
    have : ((toVertical ∅ D').map (fun e => e.2.card)).sum = ((toVertical ∅ D).map (fun e => e.2.card)).sum := by
      rw [((vertical_perm hσ).map _).sum_eq]
      unfold moved
      rw [List.map_map]
      simp [Function.comp_def]
    rw [this]
  refine ⟨⟨fun t t' htt => ?_, fun s s' hss => ?_⟩, ?_⟩
  · have e1 : t.map (fun e => e.2.card) = t'.map (fun e => e.2.card) := by
      have := congrArg (List.map Prod.snd) htt
      simpa [List.map_map, Function.comp_def] using this
    have e2 : t.flatMap (fun e => sortSet e.1) = t'.flatMap (fun e => sortSet e.1) := by
      have := congrArg (List.flatMap (fun p : Finset α × ℕ => sortSet p.1)) htt
      simpa [List.flatMap_map] using this
    change (sizesOf (startCode (toVertical ∅ D)) t).1 + (sizesOf (startCode (toVertical ∅ D)) t).2 =
      (sizesOf (startCode (toVertical ∅ D)) t').1 + (sizesOf (startCode (toVertical ∅ D)) t').2
    unfold sizesOf
    simp only [e1, e2]
  · change (initSizes s).1 + (initSizes s).2 = (initSizes s').1 + (initSizes s').2
    unfold initSizes
    simp only [hss]
  · unfold exactSettings exactP
    simp only [hst]

/-! ## Examples -/

/-- An environment that looks at counts only. -/
def exO3 : Oracle ℕ := ⟨fun _ tab => tab, fun _ _ x y => if 4 < x.2.card + y.2.card then 2 else 1, fun _ _ => exChoose, fun _ => false⟩

theorem exChoose_counts : ChooserCounts exChoose := by
  have key : ∀ t : Table ℕ, ∀ ps : Finset (Finset ℕ), exChoose 0 ps t =
      (match ((t.map (fun e => (e.1, e.2.card))).filter (fun e => decide (e.1 ∈ ps))).insertionSort (fun a b => a.2 ≤ b.2) with
        | [] => ∅
        | e :: _ => e.1) := by
    intro t ps
    have h := List.map_insertionSort (r := fun a b : Finset ℕ × Finset ℕ => a.2.card ≤ b.2.card) (s := fun a b : Finset ℕ × ℕ => a.2 ≤ b.2)
      (fun e => (e.1, e.2.card)) (t.filter (fun e => decide (e.1 ∈ ps))) (fun _ _ _ _ => Iff.rfl)
    rw [List.filter_map]
    unfold exChoose
    change _ = (match ((t.filter (fun e => decide (e.1 ∈ ps))).map (fun e => (e.1, e.2.card))).insertionSort (fun a b => a.2 ≤ b.2) with
        | [] => ∅
        | e :: _ => e.1)
    rw [← h]
    cases (t.filter (fun e => decide (e.1 ∈ ps))).insertionSort (fun a b => a.2.card ≤ b.2.card) with
    | nil => rfl
    | cons e l => rfl
  intro n ps t t' h
  change exChoose 0 ps t = exChoose 0 ps t'
  rw [key, key, h]

theorem exO3_counts : OracleCounts exO3 :=
  ⟨fun _ _ _ => rfl, fun _ _ _ x y => by simp [exO3], fun _ _ => exChoose_counts⟩

/-- The hypotheses hold for a fit, followed by an update, on four transactions and on the same transactions in another order, with a
repeated item and an empty transaction. -/
example : let D := [[1, 2, 3], [1, 2], [4], [1, 2]]
    let D' := [[2, 1], [], [3, 2, 1, 2], [1, 2], [4]]
    SameData D D' ∧ D ≠ D' ∧ CountsOnly ((exS2 true).params [] []) ∧
    EnvCounts (.fit exO3 9 D []) ∧ EnvCounts (SOp.update exChoose {1, 4} []) ∧
    (srun (exS2 true) SObj.new [.fit exO3 9 D [], .update exChoose {1, 4} []]).st.map (fun st => showTable st.ct) =
      some [([1, 2, 3], [0]), ([1, 2], [1, 3]), ([1, 4], []), ([1], []), ([2], []), ([3], []), ([4], [2])] ∧
    (srun (exS2 true) SObj.new [.fit exO3 9 D' [], .update exChoose {1, 4} []]).st.map (fun st => showTable st.ct) =
      some [([1, 2, 3], [2]), ([1, 2], [0, 3]), ([1, 4], []), ([1], []), ([2], []), ([3], []), ([4], [4])] := by
  refine ⟨?_, by decide, ⟨fun t t' h => ?_, fun s s' h => ?_⟩, exO3_counts, exChoose_counts, by decide +kernel, by decide +kernel⟩
  · unfold SameData
    decide +kernel
  · have := congrArg (List.map Prod.snd) h
    have h2 : t.map (fun e => e.2.card) = t'.map (fun e => e.2.card) := by simpa [List.map_map, Function.comp_def] using this
    exact congrArg List.sum h2
  · exact congrArg List.sum h

end Verif.Slim
