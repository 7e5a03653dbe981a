import Verif.Slim.NameLemmas
import Verif.Slim.OrderProps
import Verif.Slim.HashProps

/-!
# SLIM on renamed items (C133)
-/

set_option autoImplicit false
set_option linter.unusedSectionVars false

namespace Verif.Slim

variable {α β V : Type*} [LinearOrder α] [LinearOrder β] [LinearOrder V] (f : α ↪o β)

/-! ## Specification -/

/-- The settings of two objects correspond: the items of the constructor are renamed, a renamed itemset is listed in the same order, and the sizes do not look at names. -/
structure SettingsRen (S : Settings α V) (S' : Settings β V) : Prop where
  items : S'.items = S.items.map f
  pruning : S'.pruning = S.pruning
  iter : ∀ X : Finset α, S'.iter (X.map f.toEmbedding) = (S.iter X).map f
  total : ∀ tab : Table α, S'.total (tab.map (fun e => (e.1.map f.toEmbedding, e.2))) = S.total tab
  initTotal : ∀ sct : Sct α, S'.initTotal (sct.map (fun e => (f e.1, e.2))) = S.initTotal sct

/-- The same call with renamed items, in an environment that decides alike. -/
def RenamedCall : SOp α → SOp β → Prop
  | .prefit D asked, .prefit D' asked' => D' = D.map (List.map f) ∧ asked' = asked.map (List.map f)
  | .fit O n D asked, .fit O' n' D' asked' => OracleRen f O O' ∧ n' = n ∧ D' = D.map (List.map f) ∧ asked' = asked.map (List.map f)
  | .update ch c asked, .update ch' c' asked' => ChooserRen f ch ch' ∧ c' = c.map f.toEmbedding ∧ asked' = asked.map (List.map f)
  | .query q, .query q' => q' = q.map f
  | _, _ => False

/-! ## Lemmas -/

theorem memoGet_ren (m : Memo α) (k : List α) : memoGet (renKeys (List.map f) m) (k.map f) = memoGet m k := by
  have hinj : Function.Injective (List.map f) := List.map_injective_iff.2 f.injective
  unfold memoGet renKeys
  rw [List.find?_map, Option.map_map]
  have h : ((fun e : List β × Finset ℕ => decide (e.1 = k.map f)) ∘ fun e : List α × Finset ℕ => (e.1.map f, e.2)) = fun e => decide (e.1 = k) := by
    funext e
    simp only [Function.comp_apply, hinj.eq_iff]
  rw [h]
  rfl

theorem getSupport_ren (sct : Sct α) (q : List α) (m : Memo α) :
    getSupport (renKeys f sct) (q.map f) (renKeys (List.map f) m) = ((getSupport sct q m).1, renKeys (List.map f) (getSupport sct q m).2) := by
  induction q generalizing m with
  | nil => rfl
  | cons a rest ih =>
    have hk : (f a ∈ (renKeys f sct).map Prod.fst) ↔ a ∈ sct.map Prod.fst := by
      rw [keys_ren]
      exact List.mem_map_of_injective f.injective
    have hm := memoGet_ren f m (a :: rest)
    rw [List.map_cons] at hm ⊢
    unfold getSupport
    rw [hm]
    cases memoGet m (a :: rest) with
    | some r => rfl
    | none =>
      dsimp only
      simp only [hk]
      split
      · rfl
      · cases rest with
        | nil => simp [renKeys, ← lookup_ren f.injective sct a]
        | cons b rest' =>
          have hr := ih m
          rw [List.map_cons] at hr ⊢
          dsimp only
          rw [hr]
          rcases getSupport sct (b :: rest') m with ⟨e | r, m2⟩
          · rfl
          · have hl := lookup_ren f.injective sct a
            simp only [hl]
            rfl

theorem ask_ren (sct : Sct α) (m : Memo α) (qs : List (List α)) : ask (renKeys f sct) (renKeys (List.map f) m) (qs.map (List.map f)) = renKeys (List.map f) (ask sct m qs) := by
  unfold ask
  induction qs generalizing m with
  | nil => rfl
  | cons q qs ih =>
    rw [List.map_cons, List.foldl_cons, List.foldl_cons, ← List.map_reverse, getSupport_ren, ih]

theorem map_lt_map (l l' : List α) : l.map f < l'.map f ↔ l < l' := by
  induction l generalizing l' with
  | nil => cases l' <;> simp
  | cons a l ih =>
    cases l' with
    | nil => simp
    | cons b l' =>
      rw [List.map_cons, List.map_cons, List.cons_lt_cons_iff, List.cons_lt_cons_iff, ih]
      simp

variable {f}

theorem coverKey_ren {iter : Finset α → List α} {iter' : Finset β → List β} (hi : ∀ X : Finset α, iter' (X.map f.toEmbedding) = (iter X).map f) (sct : Sct α) (m : Memo α) (X Y : Finset α) :
    coverKey iter' (renKeys f sct) (renKeys (List.map f) m) (renSet f X) ≤ coverKey iter' (renKeys f sct) (renKeys (List.map f) m) (renSet f Y) ↔ coverKey iter sct m X ≤ coverKey iter sct m Y := by
  have h : ∀ Z, coverKey iter' (renKeys f sct) (renKeys (List.map f) m) (renSet f Z) =
      toLex (-(Z.card : ℤ), toLex (-(supportSize (getSupport sct (iter Z).reverse m).1 : ℤ), (iter Z).map f)) := by
    intro Z
    unfold coverKey
    rw [card_renSet]
    have : iter' (renSet f Z) = (iter Z).map f := hi Z
    rw [this, ← List.map_reverse, getSupport_ren]
  rw [h, h]
  unfold coverKey
  have hl : (iter X).map f ≤ (iter Y).map f ↔ iter X ≤ iter Y := by
    rw [← not_lt, ← not_lt, map_lt_map]
  simp only [Prod.Lex.toLex_le_toLex, hl]

theorem params_ren {S : Settings α V} {S' : Settings β V} (h : SettingsRen f S S') (sct : Sct α) (m : Memo α) : ParamsRen f (S.params sct m) (S'.params (renKeys f sct) (renKeys (List.map f) m)) :=
  ⟨coverKey_ren h.iter sct m, h.total, h.initTotal, h.pruning⟩

theorem sctOf_ren (items : List α) (D : List (List α)) : sctOf (items.map f) (D.map (List.map f)) = renKeys f (sctOf items D) := by
  unfold sctOf
  rw [toVertical_ren, sctTail_ren]
  simp [renKeys]

theorem singles_ren (sct : Sct α) : singles (renKeys f sct) = (singles sct).map (List.map f) := by
  unfold singles renKeys
  rw [List.map_map, List.map_map]
  rfl

variable (f) in
/-- The renamed object. -/
def renObj (o : SObj α V) : SObj β V := ⟨renKeys (List.map f) o.memo, o.st.map (renSt f)⟩

theorem sstep_ren {S : Settings α V} {S' : Settings β V} (h : SettingsRen f S S') (o : SObj α V) (op : SOp α) (op' : SOp β) (hop : RenamedCall f op op') :
    sstep S' (renObj f o) op' = renObj f (sstep S o op) := by
  cases op with
  | prefit D asked =>
    cases op' with
    | prefit D' asked' =>
      obtain ⟨rfl, rfl⟩ := hop
      unfold sstep renObj
      dsimp only
      rw [h.items, sctOf_ren, singles_ren, ← List.map_append, ask_ren, prefit_ren (params_ren h _ _)]
      rfl
    | _ => exact hop.elim
  | fit O n D asked =>
    cases op' with
    | fit O' n' D' asked' =>
      obtain ⟨hO, rfl, rfl, rfl⟩ := hop
      unfold sstep renObj
      dsimp only
      rw [h.items, sctOf_ren, singles_ren, ← List.map_append, ask_ren, fit_ren (params_ren h _ _) hO]
      congr 1
      rcases fit (S.params (sctOf S.items D) o.memo) O S.items n' D with _ | _ | _ <;> rfl
    | _ => exact hop.elim
  | update ch c asked =>
    cases op' with
    | update ch' c' asked' =>
      obtain ⟨hch, rfl, rfl⟩ := hop
      obtain ⟨memo, st⟩ := o
      cases st with
      | none => rfl
      | some st =>
        unfold sstep renObj
        dsimp only [Option.map]
        have hq : S'.iter (c.map f.toEmbedding) :: asked.map (List.map f) = (S.iter c :: asked).map (List.map f) := by rw [h.iter]; rfl
        have hsct : (renSt f st).sct = renKeys f st.sct := rfl
        have hu := update_ren (params_ren h st.sct memo) hch st c
        unfold renSet at hu
        rw [hq, hsct, ask_ren, hu]
        rcases update (S.params st.sct memo) ch st c with _ | _ | _ <;> rfl
    | _ => exact hop.elim
  | query q =>
    cases op' with
    | query q' =>
      have hq : q' = q.map f := hop
      subst hq
      obtain ⟨memo, st⟩ := o
      cases st with
      | none => rfl
      | some st =>
        unfold sstep renObj
        dsimp only [Option.map]
        have hsct : (renSt f st).sct = renKeys f st.sct := rfl
        have := ask_ren f st.sct memo [q]
        rw [hsct]
        simpa using this
    | _ => exact hop.elim

theorem srun_ren {S : Settings α V} {S' : Settings β V} (h : SettingsRen f S S') (ops : List (SOp α)) (ops' : List (SOp β)) (hops : List.Forall₂ (RenamedCall f) ops ops') (o : SObj α V) :
    srun S' (renObj f o) ops' = renObj f (srun S o ops) := by
  unfold srun
  induction hops generalizing o with
  | nil => rfl
  | cons hop _ ih => rw [List.foldl_cons, List.foldl_cons, sstep_ren h o _ _ hop, ih]

theorem transform_ren (st : State α V) (singletons dropNull : Bool) : transform (renSt f st) singletons dropNull = (transform st singletons dropNull).map (fun r => (r.1.map f, r.2)) := by
  unfold transform renSt
  dsimp only
  rw [filter_ren (renSet f) st.ct _ (fun e => decide ((if dropNull then 1 else 0) ≤ e.2.card ∧ (if singletons then 0 else 1) < e.1.card)) (fun e _ => by simp only [card_renSet])]
  unfold renKeys
  rw [List.map_map, List.map_map]
  apply List.map_congr_left
  intro e _
  simp only [Function.comp_apply, sortSet_ren]

theorem slimCover_ren (st : State α V) (E : List (List α)) : slimCover (renSt f st) (E.map (List.map f)) = (slimCover st E).map (fun r => (r.1.map (fun X => X.map f.toEmbedding), r.2)) := by
  unfold slimCover coverMatrix
  rw [toVertical_ren, List.length_map]
  have hk : knownItemsets (renSt f st) (renKeys f (toVertical ∅ E)) = (knownItemsets st (toVertical ∅ E)).map (renSet f) := by
    unfold knownItemsets
    rw [transform_ren, List.map_map]
    have h1 : (transform st true false).map ((fun r : List β × Finset ℕ => r.1.toFinset) ∘ fun r => (r.1.map f, r.2)) = ((transform st true false).map (fun r => r.1.toFinset)).map (renSet f) := by
      rw [List.map_map]
      apply List.map_congr_left
      intro r _
      ext b
      simp [renSet]
    rw [h1, List.filter_map, keys_ren]
    congr 1
    apply List.filter_congr
    intro X _
    simp only [Function.comp_apply, decide_eq_decide]
    constructor
    · intro h x hx
      exact (List.mem_map_of_injective f.injective).1 (h (f x) ((mem_renSet f X x).2 hx))
    · intro h x hx
      obtain ⟨a, ha, rfl⟩ := Finset.mem_map.1 hx
      exact List.mem_map_of_mem (h a ha)
  rw [hk, cover_ren]
  cases cover (toVertical ∅ E) (knownItemsets st (toVertical ∅ E)) with
  | error e => rfl
  | ok covers =>
    dsimp only [Except.map]
    rw [keys_ren]
    congr 2
    apply List.map_congr_left
    intro t _
    unfold renTable renKeys
    rw [List.map_map]
    rfl

theorem getCodeLength_ren {R : Type*} [LinearOrder R] [AddCommMonoid R] (code : ℕ → ℕ → R) (st : State α V) (E : List (List α)) :
    getCodeLength code (renSt f st) (E.map (List.map f)) = getCodeLength code st E := by
  unfold getCodeLength
  rw [slimCover_ren]
  cases slimCover st E with
  | error e => rfl
  | ok r =>
    obtain ⟨cols, mat⟩ := r
    dsimp only [Except.map]
    congr 1
    apply List.map_congr_left
    intro row _
    have h : (marked (cols.map (fun X => X.map f.toEmbedding)) row).map (codeOf code (renSt f st)) = (marked cols row).map (codeOf code st) := by
      have hm : marked (cols.map (fun X => X.map f.toEmbedding)) row = (marked cols row).map (renSet f) := by
        unfold marked
        have hz : (cols.map (fun X => X.map f.toEmbedding)).zip row = (cols.zip row).map (Prod.map (renSet f) id) := by
          rw [← List.zip_map, List.map_id]
          rfl
        rw [hz, List.filter_map, List.map_map, List.map_map]
        rfl
      rw [hm, List.map_map]
      apply List.map_congr_left
      intro X _
      unfold codeOf renSt
      dsimp only [Function.comp_apply]
      rw [lookup_ren (renSet_inj f)]
      congr 2
      unfold renTable renKeys
      rw [List.map_map]
      rfl
    rw [h]

theorem reconstruct_ren (st : State α V) : reconstruct (renSt f st) = (reconstruct st).map (List.map (List.map f)) := by
  have h1 : reconstructLen (renTable f st.ct) = reconstructLen st.ct := by
    have : (renTable f st.ct).map Prod.snd = st.ct.map Prod.snd := by
      unfold renTable renKeys
      rw [List.map_map]
      rfl
    unfold reconstructLen
    rw [this]
  have h2 : ∀ (tab : Table α) (rows : List (Finset α)), reconstructLoop (renTable f tab) (rows.map (renSet f)) = (reconstructLoop tab rows).map (renSet f) := by
    intro tab
    induction tab with
    | nil => intro rows; rfl
    | cons e tab ih =>
      intro rows
      unfold reconstructLoop renTable renKeys at ih ⊢
      rw [List.map_cons, List.foldl_cons, List.foldl_cons, ← ih]
      congr 1
      rw [List.zipIdx_map, List.map_map, List.map_map]
      apply List.map_congr_left
      intro r _
      simp only [Function.comp_apply, Prod.map_fst, Prod.map_snd, id]
      split
      · unfold renSet
        rw [Finset.map_union]
      · rfl
  unfold reconstruct
  have hct : (renSt f st).ct = renTable f st.ct := rfl
  rw [hct, h1]
  cases reconstructLen st.ct with
  | none => rfl
  | some n =>
    dsimp only [Except.map]
    have h3 : List.replicate n (∅ : Finset β) = (List.replicate n (∅ : Finset α)).map (renSet f) := by
      rw [List.map_replicate]
      rfl
    rw [h3, h2, List.map_map, List.map_map]
    congr 1
    apply List.map_congr_left
    intro X _
    exact sortSet_ren f X

/-! ## Theorems -/

/-- C133. Two new objects get the same calls (`prefit`, `fit`, `update`, `get_support`), the items of the second being those of the first, renamed by a map that keeps their order; renamed itemsets are listed in the same order. Then either both have no code table, or:
`transform` lists the renamed itemsets, in the same order and with the same transactions; the total sizes are equal; covers of renamed data have the renamed columns and the same cells; code lengths of renamed data are equal; `reconstruct` gives the renamed
transactions. The full statement is for every one-to-one renaming; see `names_matter`. -/
theorem names_irrelevant_partial {R : Type*} [LinearOrder R] [AddCommMonoid R] (code : ℕ → ℕ → R) (f : α ↪o β) (S : Settings α V) (S' : Settings β V) (h : SettingsRen f S S') (ops : List (SOp α)) (ops' : List (SOp β))
    (hops : List.Forall₂ (RenamedCall f) ops ops') :
    ((srun S SObj.new ops).st = none ∧ (srun S' SObj.new ops').st = none) ∨
      ∃ st st', (srun S SObj.new ops).st = some st ∧ (srun S' SObj.new ops').st = some st' ∧
        (∀ singletons dropNull, transform st' singletons dropNull = (transform st singletons dropNull).map (fun r => (r.1.map f, r.2))) ∧
        st'.size = st.size ∧
        (∀ E, slimCover st' (E.map (List.map f)) = (slimCover st E).map (fun r => (r.1.map (fun X => X.map f.toEmbedding), r.2))) ∧
        (∀ E, getCodeLength code st' (E.map (List.map f)) = getCodeLength code st E) ∧
        reconstruct st' = (reconstruct st).map (List.map (List.map f)) := by
  have hr := congrArg SObj.st (srun_ren h ops ops' hops SObj.new)
  have hn : renObj f (SObj.new : SObj α V) = SObj.new := rfl
  rw [hn] at hr
  rw [hr]
  unfold renObj
  cases (srun S SObj.new ops).st with
  | none => exact Or.inl ⟨rfl, rfl⟩
  | some st => exact Or.inr ⟨st, renSt f st, rfl, rfl, transform_ren st, rfl, slimCover_ren st, getCodeLength_ren code st, reconstruct_ren st⟩

/-- C133, exact sizes. The sizes computed from the data do not look at names. -/
theorem exact_names (f : α ↪o β) (items : List α) (pruning : Bool) (iter : Finset α → List α) (iter' : Finset β → List β) (hi : ∀ X : Finset α, iter' (X.map f.toEmbedding) = (iter X).map f) (D : List (List α)) :
    SettingsRen f (exactSettings items pruning iter D) (exactSettings (items.map f) pruning iter' (D.map (List.map f))) := by
  have hst : ∀ a, startCode (toVertical ∅ (D.map (List.map f))) (f a) = startCode (toVertical ∅ D) a := by
    intro a
    unfold startCode
    rw [toVertical_ren, lookup_ren f.injective]
    unfold renKeys
    rw [List.map_map]
    rfl
  refine ⟨rfl, rfl, hi, fun tab => ?_, fun sct => ?_⟩
  · change (sizesOf (startCode (toVertical ∅ (D.map (List.map f)))) (renTable f tab)).1 + (sizesOf (startCode (toVertical ∅ (D.map (List.map f)))) (renTable f tab)).2 =
      (sizesOf (startCode (toVertical ∅ D)) tab).1 + (sizesOf (startCode (toVertical ∅ D)) tab).2
    have e1 : (renTable f tab).map (fun e => e.2.card) = tab.map (fun e => e.2.card) := by
      unfold renTable renKeys
      rw [List.map_map]
      rfl
    have e2 : (renTable f tab).flatMap (fun e => sortSet e.1) = (tab.flatMap (fun e => sortSet e.1)).map f := by
      unfold renTable renKeys
      rw [List.flatMap_map, List.map_flatMap]
      congr 1
      funext e
      exact sortSet_ren f e.1
    unfold sizesOf
    simp only [e1, e2]
    congr 3
    rw [List.dedup_map_of_injective f.injective, List.map_map]
    apply List.map_congr_left
    intro a _
    simp only [Function.comp_apply, hst, List.count_map_of_injective _ _ f.injective]
  · change (initSizes (renKeys f sct)).1 + (initSizes (renKeys f sct)).2 = (initSizes sct).1 + (initSizes sct).2
    have e1 : (renKeys f sct).map (fun e => e.2.card) = sct.map (fun e => e.2.card) := by
      unfold renKeys
      rw [List.map_map]
      rfl
    unfold initSizes
    simp only [e1]

/-- C133, where it fails. Swapping the names 1 and 2 does not only swap them in the result: `{1, 3}` gets two transactions and `{2, 3}` one before as well as after. -/
theorem names_matter :
    let f : ℕ → ℕ := fun a => if a = 1 then 2 else if a = 2 then 1 else a
    let D := [[1, 3], [2, 3], [1, 2, 3]]
    Function.Injective f ∧
    (srun (exS2 false) SObj.new [.prefit D [], .update exChoose {1, 3} [], .update exChoose {2, 3} []]).st.map (fun st => showTable st.ct) =
      some [([1, 3], [0, 2]), ([2, 3], [1]), ([3], []), ([1], []), ([2], [2])] ∧
    (srun (exS2 false) SObj.new [.prefit (D.map (List.map f)) [], .update exChoose (Finset.image f {1, 3}) [], .update exChoose (Finset.image f {2, 3}) []]).st.map (fun st => showTable st.ct) =
      some [([1, 3], [1, 2]), ([2, 3], [0]), ([3], []), ([1], []), ([2], [2])] := by
  refine ⟨?_, by decide +kernel, by decide +kernel⟩
  intro a b
  dsimp only
  split_ifs <;> omega

/-! ## Examples -/

/-- Items are raised by ten. -/
def exTen : ℕ ↪o ℕ := OrderEmbedding.ofStrictMono (fun a => a + 10) (fun _ _ h => Nat.add_lt_add_right h 10)

theorem exChoose_ren (f : ℕ ↪o ℕ) : ChooserRen f exChoose exChoose := by
  intro n ps tab
  unfold exChoose
  have h1 : (renTable f tab).filter (fun e => decide (e.1 ∈ ps.map ⟨renSet f, renSet_inj f⟩)) = renTable f (tab.filter (fun e => decide (e.1 ∈ ps))) :=
    filter_ren (renSet f) tab _ _ (fun e _ => by
      rw [decide_eq_decide]
      exact Finset.mem_map' (⟨renSet f, renSet_inj f⟩ : Finset ℕ ↪ Finset ℕ))
  rw [h1]
  unfold renTable renKeys
  rw [← List.map_insertionSort (r := fun a b : Finset ℕ × Finset ℕ => a.2.card ≤ b.2.card) (s := fun a b : Finset ℕ × Finset ℕ => a.2.card ≤ b.2.card) (fun e => (renSet f e.1, e.2)) _ (fun _ _ _ _ => Iff.rfl)]
  cases (tab.filter (fun e => decide (e.1 ∈ ps))).insertionSort (fun a b => a.2.card ≤ b.2.card) with
  | nil => rfl
  | cons e l => rfl

/-- The hypotheses hold for a fit, followed by an update, on four transactions and on the renamed ones. -/
example : let D := [[1, 2, 3], [1, 2], [4], [1, 2]]
    SettingsRen exTen (exS2 true) (exS2 true) ∧
    List.Forall₂ (RenamedCall exTen) [.fit exO3 9 D [], .update exChoose {1, 4} []] [.fit exO3 9 (D.map (List.map exTen)) [], .update exChoose ((({1, 4} : Finset ℕ)).map exTen.toEmbedding) []] ∧
    (srun (exS2 true) SObj.new [.fit exO3 9 D [], .update exChoose {1, 4} []]).st.map (fun st => showTable st.ct) =
      some [([1, 2, 3], [0]), ([1, 2], [1, 3]), ([1, 4], []), ([1], []), ([2], []), ([3], []), ([4], [2])] ∧
    (srun (exS2 true) SObj.new [.fit exO3 9 [[11, 12, 13], [11, 12], [14], [11, 12]] [], .update exChoose {11, 14} []]).st.map (fun st => showTable st.ct) =
      some [([11, 12, 13], [0]), ([11, 12], [1, 3]), ([11, 14], []), ([11], []), ([12], []), ([13], []), ([14], [2])] := by
  refine ⟨⟨rfl, rfl, fun X => sortSet_ren exTen X, fun tab => ?_, fun sct => ?_⟩, .cons ⟨⟨fun _ _ => rfl, fun _ _ x y => rfl, fun _ _ => exChoose_ren _, rfl⟩, rfl, rfl, rfl⟩ (.cons ⟨exChoose_ren _, rfl, rfl⟩ .nil), by decide +kernel, by decide +kernel⟩
  · change ((tab.map _).map _).sum = _
    rw [List.map_map]
    rfl
  · change ((sct.map _).map _).sum = _
    rw [List.map_map]
    rfl

end Verif.Slim
