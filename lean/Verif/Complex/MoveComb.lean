import Verif.Complex.MoveNest
import Verif.CandPool.MapLemmas

/-!
# Moving candidates in time (C126): the combination of candidates
-/

set_option autoImplicit false
set_option linter.unusedSectionVars false

namespace Verif.Complex

open Verif.PTree Verif.Concat Verif.PattKey Verif.DataSeq Verif.Mine

/-! ### Candidates -/

/-- A candidate moved in time. -/
def mvA (t : ℤ) : AnyCand → AnyCand
  | .cycle a p O E => .cycle a p (sh t O) E
  | .pattern c => .pattern (mvC t c)

/-- A row moved in time. -/
def mvR (t : ℤ) (x : Row) : Row := { x with t0 := x.t0 + t }

/-- A major key moved in time. -/
def mvM (t : ℤ) (k : Option (ℤ × List Char)) : Option (ℤ × List Char) := k.map (fun x => (x.1 + t, x.2))

/-- Occurrences moved in time. -/
def mvO (t : ℤ) : (ℤ × ℤ) ↪ (ℤ × ℤ) := ⟨fun x => (x.1 + t, x.2), move_inj t⟩

theorem mvM_inj (t : ℤ) : Function.Injective (mvM t) := Option.map_injective (move_inj t)

theorem toCand_mv (t : ℤ) (a : AnyCand) : (mvA t a).toCand = mvC t a.toCand := by
  cases a with
  | cycle a p O E => simp [mvA, AnyCand.toCand, mvC]
  | pattern c => rfl

theorem zip_sh {β : Type} (t : ℤ) : ∀ (l : List ℤ) (m : List β), (sh t l).zip m = (l.zip m).map (fun x => (x.1 + t, x.2)) := by
  intro l
  induction l with
  | nil => intro m; rfl
  | cons a l ih =>
    intro m
    cases m with
    | nil => rfl
    | cons b m => simpa [sh] using ih m

theorem evOccs_mv (t : ℤ) (a : AnyCand) : evOccs (mvA t a) = (evOccs a).map (mvO t) := by
  cases a with
  | cycle a p O E => simp [mvA, evOccs, sh, mvO]
  | pattern c => exact zip_sh t c.O _

theorem evOccs_fin_mv (t : ℤ) (a : AnyCand) : (evOccs (mvA t a)).toFinset = (evOccs a).toFinset.map (mvO t) := by
  rw [evOccs_mv]
  ext x
  simp

theorem nbOccsA_mv (t : ℤ) (a : AnyCand) : nbOccsA (mvA t a) = nbOccsA a := by
  cases a with
  | cycle a p O E => exact sh_length t O
  | pattern c => rfl

theorem nbUOccs_mv (t : ℤ) (a : AnyCand) : nbUOccs (mvA t a) = nbUOccs a := by
  cases a with
  | cycle a p O E => exact sh_length t O
  | pattern c =>
    have := evOccs_fin_mv t (.pattern c)
    change (evOccs (mvA t (.pattern c))).toFinset.card = (evOccs (.pattern c)).toFinset.card
    rw [this, Finset.card_map]

theorem sameEvent_mv (t : ℤ) (a b : AnyCand) : sameEvent (mvA t a) (mvA t b) = sameEvent a b := by
  cases a <;> cases b <;> rfl

theorem intTuple_mv (t : ℤ) (a : AnyCand) : intTuple (mvA t a) = intTuple a := by cases a <;> rfl

theorem minorKey_mv (t : ℤ) (a : AnyCand) : (mvA t a).minorKey = a.minorKey := by cases a <;> rfl

theorem majorKey_mv (t : ℤ) (a : AnyCand) : (mvA t a).majorKey = mvM t a.majorKey := by
  cases a with
  | cycle a p O E =>
    simp only [mvA, AnyCand.majorKey, head_sh, sh_length, mvM, Option.map_map]
    rfl
  | pattern c =>
    simp only [mvA, AnyCand.majorKey, mvC, head_sh, mvM, Option.map_map]
    rfl

theorem everyNth_map {β γ : Type} (f : β → γ) (n : ℕ) (l : List β) : Kinds.everyNth n (l.map f) = (Kinds.everyNth n l).map (List.map f) := by
  unfold Kinds.everyNth
  split_ifs
  · rfl
  · simp only [List.length_map, Option.map_some, List.map_filterMap, List.getElem?_map]

theorem majorOccs_map {α β γ : Type} (f : β → γ) (T : PTree.Tree α) (l : List β) : Kinds.majorOccs T (l.map f) = (Kinds.majorOccs T l).map (List.map f) := by
  unfold Kinds.majorOccs
  cases Kinds.depth T with
  | none => rfl
  | some d =>
    simp only [List.length_map, everyNth_map]
    split_ifs <;> rfl

theorem upTo_map {β γ : Type} (f : β → γ) (l : List β) (m : ℤ) : upTo (l.map f) m = (upTo l m).map f := by
  unfold upTo
  split_ifs
  · rw [List.map_take]
  · rw [List.length_map, List.map_take]

theorem getProps_mv (t : ℤ) (a : AnyCand) (m : ℤ) (new cid : ℕ) : getProps (mvA t a) m new cid = (getProps a m new cid).map (mvR t) := by
  unfold getProps
  rw [toCand_mv]
  have e1 : Kinds.majorOccs (mvC t a.toCand).tree (mvC t a.toCand).O = (Kinds.majorOccs a.toCand.tree a.toCand.O).map (sh t) := majorOccs_map (· + t) a.toCand.tree a.toCand.O
  have e2 : Kinds.majorOccs (mvC t a.toCand).tree (0 :: (mvC t a.toCand).E) = Kinds.majorOccs a.toCand.tree (0 :: a.toCand.E) := rfl
  rw [e1, e2, mvC_majorR]
  cases Kinds.majorOccs a.toCand.tree a.toCand.O with
  | none => rfl
  | some O =>
    cases Kinds.majorOccs a.toCand.tree (0 :: a.toCand.E) with
    | none => rfl
    | some E =>
      simp only [Option.map_some]
      unfold sh
      rw [upTo_map, List.zipIdx_map, List.map_map, List.map_map]
      rfl

theorem rowKey_mv (t : ℤ) (a b : Row) : rowKey (mvR t a) ≤ rowKey (mvR t b) ↔ rowKey a ≤ rowKey b := by
  unfold rowKey mvR
  simp only [Prod.Lex.toLex_le_toLex, add_lt_add_iff_right, add_left_inj]

section Costs

variable {K : Type} [Field K] [LinearOrder K]

/-- A candidate with its cost, moved in time. -/
def mvPC (t : ℤ) (c : PC K) : PC K := ⟨mvA t c.cand, c.cost⟩

theorem ratio_mv (t : ℤ) (c : PC K) : ratio (mvPC t c) = ratio c := by
  unfold ratio
  change c.cost / (nbUOccs (mvA t c.cand) : K) = _
  rw [nbUOccs_mv]

theorem meanCost_mv (t : ℤ) (a b : PC K) : meanCost (mvPC t a) (mvPC t b) = meanCost a b := by
  unfold meanCost
  change (a.cost + b.cost) / ((nbOccsA (mvA t a.cand) + nbOccsA (mvA t b.cand) : ℕ) : K) = _
  rw [nbOccsA_mv, nbOccsA_mv]

theorem mvPC_toCand (t : ℤ) (c : PC K) : (mvPC t c).cand.toCand = mvC t c.cand.toCand := toCand_mv t c.cand

/-- What is left open in the search of complex patterns does not see the origin of times. -/
structure WorldMove (t : ℤ) (W W' : World K) : Prop where
  patt : ∀ c, W'.patt (mvC t c) = W.patt c
  floor : ∀ c, W'.floor (mvPC t c) = W.floor c
  dcosts : W'.dcosts = W.dcosts
  env : ∀ l, EnvMove t (W.env l) (W'.env (l.map (mvPC t)))

theorem mk_mv {t : ℤ} {W W' : World K} (h : WorldMove t W W') (c : Cand ℤ) : W'.mk' (mvC t c) = mvPC t (W.mk' c) := by
  unfold World.mk' mvPC
  rw [h.patt]
  rfl

theorem ops_mv {t : ℤ} {W W' : World K} (h : WorldMove t W W') : CandPool.OpsMap (mvPC t) (mvM t) (mvR t) (ops W) (ops W') := by
  refine ⟨fun c => minorKey_mv t c.cand, fun c => majorKey_mv t c.cand, fun c i n b => ?_⟩
  change getProps (mvA t c.cand) (if b then min (W'.floor (mvPC t c)) ((nbOccsA (mvA t c.cand) : ℤ) - 2) else -2) n i = _
  rw [getProps_mv, h.floor, nbOccsA_mv]
  rfl

/-- The pool moved in time. -/
def mvPool (t : ℤ) (s : CPool K) : CPool K := CandPool.mapPool (mvPC t) (mvM t) (mvR t) s

theorem topK_mv (t : ℤ) (l : List (PC K)) : topK (l.map (mvPC t)) = (topK l).map (mvPC t) := by
  unfold topK
  have e1 : (fun i : ℕ => ((l.map (mvPC t))[i]?.map ratio).getD 0) = (fun i : ℕ => (l[i]?.map ratio).getD 0) := by
    funext i
    rw [List.getElem?_map, Option.map_map]
    congr 2
    funext c
    exact ratio_mv t c
  rw [e1, List.length_map, topKeach_sh (mvO t) (mvO t).injective _ (fun i => (l[i]?.map (fun c => evOccs c.cand)).getD []), List.map_filterMap]
  · congr 1
    funext i
    rw [List.getElem?_map]
  · intro i
    rw [List.getElem?_map]
    cases l[i]? with
    | none => rfl
    | some c => exact evOccs_mv t c.cand

theorem topKeys_mv (t : ℤ) (keep : List (List ℕ × PC K)) : topKeys (keep.map (fun e => (e.1, mvPC t e.2))) = topKeys keep := by
  unfold topKeys
  rw [List.length_map, List.map_map]
  split_ifs
  · rfl
  · simp only
    have e1 : ∀ i : ℕ, ((keep.map (fun e => (e.1, mvPC t e.2)))[i]?.map (fun e => ratio e.2)).getD 0 = (keep[i]?.map (fun e => ratio e.2)).getD 0 := by
      intro i
      rw [List.getElem?_map, Option.map_map]
      congr 2
      funext e
      exact ratio_mv t e.2
    have e2 : ∀ i : ℕ, (keep.map (fun e => (e.1, mvPC t e.2)))[i]?.map Prod.fst = keep[i]?.map Prod.fst := by
      intro i
      rw [List.getElem?_map, Option.map_map]
      rfl
    simp only [e1, e2]
    congr 1
    refine topLoop_sh (mvO t) (mvO t).injective _ _ (fun i => ?_) 5 _ _ _ (fun _ => rfl)
    rw [List.getElem?_map]
    cases keep[i]? with
    | none => rfl
    | some e => exact evOccs_mv t e.2.cand

theorem lookup_mv (t : ℤ) {β : Type} [BEq β] (cs : List (β × PC K)) (k : β) : (cs.map (fun e => (e.1, mvPC t e.2))).lookup k = (cs.lookup k).map (mvPC t) := lookup_snd (mvPC t) k cs

/-! ### Vertical combination -/

theorem verticalCands_mv {t : ℤ} {W W' : World K} (h : WorldMove t W W') (s : CPool K) (mk : ℤ ⊕ List Char) : verticalCands W' (mvPool t s) mk = (verticalCands W s mk).map (List.map (mvPC t)) := by
  unfold verticalCands mvPool
  rw [CandPool.cidsForMinorK_map]
  have e := mapM_map' (fun cid => s.candidates.lookup cid) (fun cid => (CandPool.mapPool (mvPC t) (mvM t) (mvR t) s).candidates.lookup cid) id (mvPC t) (fun cid => lookup_mv t s.candidates cid) (CandPool.cidsForMinorK s mk)
  rw [List.map_id] at e
  rw [e]
  cases (CandPool.cidsForMinorK s mk).mapM (fun cid => s.candidates.lookup cid) with
  | none => rfl
  | some cs =>
    simp only [Option.map_some, Option.bind_some, List.length_map, List.map_map]
    have e2 : cs.map ((fun c => c.cand.toCand) ∘ mvPC t) = (cs.map (fun c => c.cand.toCand)).map (mvC t) := by
      rw [List.map_map]
      refine List.map_congr_left (fun c _ => mvPC_toCand t c)
    rw [e2, nestCmplx_mv (h.env cs)]
    cases Nest.nestCmplx cs.length (W.env cs) (cs.map (fun c => c.cand.toCand)) with
    | error e => rfl
    | ok r =>
      simp only [Except.map, Option.map_some]
      rw [← topK_mv, List.map_map, List.map_map]
      congr 2
      refine List.map_congr_left (fun c _ => mk_mv h c)

theorem vertical_mv {t : ℤ} {W W' : World K} (h : WorldMove t W W') (Q : Orders) (s : CPool K) (nkey : NKey) : vertical W' Q (mvPool t s) nkey = (vertical W Q s nkey).map (List.map (mvPC t)) := by
  unfold vertical
  have e1 : ∀ mk, CandPool.cidsForMinorK (mvPool t s) mk = CandPool.cidsForMinorK s mk := fun mk => CandPool.cidsForMinorK_map s mk
  have e2 : (mvPool t s).newMinor = s.newMinor := rfl
  simp only [e1, e2]
  generalize (Q.keys ((s.newMinor.filter (fun e => e.1 = nkey)).map Prod.snd)).filter (fun mk => decide (3 ≤ (CandPool.cidsForMinorK s mk).length)) = ks
  have e := mapM_map' (verticalCands W s) (verticalCands W' (mvPool t s)) id (List.map (mvPC t)) (verticalCands_mv h s) ks
  rw [List.map_id] at e
  rw [e]
  cases ks.mapM (verticalCands W s) with
  | none => rfl
  | some ls =>
    simp only [Option.map_some]
    rw [← topK_mv, List.map_flatten]

/-! ### Horizontal combination: pairs -/

/-- A row with its position, moved in time. -/
def mvPR (t : ℤ) (q : PR) : PR := (q.1, mvR t q.2)

theorem mvPR_inj (t : ℤ) : Function.Injective (mvPR t) := by
  rintro ⟨i, a⟩ ⟨j, b⟩ h
  cases a
  cases b
  simp only [mvPR, mvR, Prod.mk.injEq, Row.mk.injEq, add_left_inj] at h
  simp [h]

theorem dropWhile_map {β γ : Type} (f : β → γ) (p : γ → Bool) : ∀ l : List β, (l.map f).dropWhile p = (l.dropWhile (fun x => p (f x))).map f
  | [] => rfl
  | a :: l => by
    rw [List.map_cons, List.dropWhile_cons, List.dropWhile_cons]
    split_ifs
    · exact dropWhile_map f p l
    · rfl

theorem advance_mv (t : ℤ) (pids : List PR) (news : Option (List PR)) :
    advance (pids.map (mvPR t)) (news.map (List.map (mvPR t))) = (advance pids news).map (fun r => (r.1.map (mvPR t), r.2.map (List.map (mvPR t)))) := by
  unfold advance
  cases news with
  | none => rfl
  | some l =>
    cases l with
    | nil => rfl
    | cons n0 ns =>
      simp only [Option.map_some, List.map_cons, dropWhile_map]
      have e : ∀ q : PR, (decide ((mvPR t q).1 ≠ (mvPR t n0).1) && decide ((mvPR t q).2.t0 + (mvPR t q).2.p < (mvPR t n0).2.t0)) = (decide (q.1 ≠ n0.1) && decide (q.2.t0 + q.2.p < n0.2.t0)) := by
        intro q
        simp only [mvPR, mvR]
        congr 2
        rw [show q.2.t0 + t + q.2.p = q.2.t0 + q.2.p + t by ring, add_lt_add_iff_right]
      simp only [e]
      cases pids.dropWhile (fun q => decide (q.1 ≠ n0.1) && decide (q.2.t0 + q.2.p < n0.2.t0)) with
      | nil => rfl
      | cons q rest =>
        simp only [List.map_cons, List.map_eq_nil_iff]
        change (if q.1 = n0.1 then _ else _) = _
        split_ifs <;> rfl

theorem every_sh (t : ℤ) (n : ℕ) (l : List ℤ) : CandPool.every n (sh t l) = sh t (CandPool.every n l) := by
  unfold CandPool.every sh
  simp only [List.length_map, List.map_filterMap, List.getElem?_map]

theorem firstAbove_sh (t : ℤ) (l : List ℤ) (m : ℤ) : CandPool.firstAbove (sh t l) (m + t) = CandPool.firstAbove l m := by
  unfold CandPool.firstAbove sh
  rw [List.findIdx?_map]
  congr 1
  funext v
  simp

theorem pidsSlice_sh (t : ℤ) (l : List ℤ) (n : ℕ) (m : ℤ) : CandPool.pidsSlice (sh t l) n (m + t) = CandPool.pidsSlice l n m := by
  unfold CandPool.pidsSlice
  have e1 : (sh t l).getLast? = l.getLast?.map (· + t) := by unfold sh; rw [List.getLast?_map]
  rw [e1, head_sh]
  cases l.getLast? with
  | none => rfl
  | some last =>
    cases l.head? with
    | none => rfl
    | some first =>
      simp only [Option.map_some, add_le_add_iff_right, add_lt_add_iff_right, sh_length, every_sh]
      have e2 : sh t (CandPool.every n l) ++ [last + t] = sh t (CandPool.every n l ++ [last]) := by simp [sh]
      have e3 : ∀ a b, ((sh t l).take a).drop b = sh t ((l.take a).drop b) := by
        intro a b
        unfold sh
        rw [List.map_drop, List.map_take]
      simp only [e2, e3, firstAbove_sh]

theorem slice_mv (t : ℤ) (pids : List PR) (next : ℤ) : slice (pids.map (mvPR t)) (next + t) = (slice pids next).map (List.map (mvPR t)) := by
  unfold slice
  have e : (pids.map (mvPR t)).map (fun q => q.2.t0) = sh t (pids.map (fun q => q.2.t0)) := by
    unfold sh
    rw [List.map_map, List.map_map]
    rfl
  rw [e, pidsSlice_sh, Option.map_map]
  congr 1
  funext k
  simp only [Function.comp, List.map_take]

theorem cmpIds_mv (t : ℤ) (num : ℕ) (i : PR) (pids : List PR) (news : Option (List PR)) :
    cmpIds num (mvPR t i) (pids.map (mvPR t)) (news.map (List.map (mvPR t))) = (cmpIds num i pids news).map (List.map (mvPR t)) := by
  have es : slice (pids.map (mvPR t)) ((mvPR t i).2.t0 + (mvPR t i).2.p) = (slice pids (i.2.t0 + i.2.p)).map (List.map (mvPR t)) := by
    rw [← slice_mv]
    congr 1
    simp only [mvPR, mvR]
    ring
  unfold cmpIds
  rw [es]
  change (if i.2.new = num then _ else _) = _
  split_ifs
  · rfl
  · cases news with
    | none =>
      simp only [Option.map_none, Option.map_map]
      congr 1
      funext l
      simp only [Function.comp]
      rw [List.filter_map]
      rfl
    | some l =>
      cases l with
      | nil => rfl
      | cons n ns =>
        simp only [Option.map_some, List.map_cons]
        rw [← List.map_cons, List.filter_map]
        congr 3
        funext q
        simp only [Function.comp, mvPR, mvR]
        have : (q.2.t0 + t ≤ i.2.t0 + t + i.2.p) ↔ q.2.t0 ≤ i.2.t0 + i.2.p := by omega
        simp only [this]

theorem closeP_mv (t : ℤ) (i j : Row) : closeP (mvR t i) (mvR t j) = closeP i j := rfl

theorem selIds_mv (t : ℤ) (num : ℕ) (i : PR) (pids : List PR) (news : Option (List PR)) :
    selIds num (mvPR t i) (pids.map (mvPR t)) (news.map (List.map (mvPR t))) = (selIds num i pids news).map (List.map (mvPR t)) := by
  unfold selIds
  rw [cmpIds_mv, Option.map_map, Option.map_map]
  congr 1
  funext l
  simp only [Function.comp]
  rw [List.filter_map]
  rfl

theorem eventStrs_mv (t : ℤ) (c : Cand ℤ) : eventStrs (mvC t c) = eventStrs c := rfl

theorem makePair_mv {t : ℤ} {W W' : World K} (h : WorldMove t W W') (ci cj : PC K) (i j : PR) :
    makePair W' (mvPC t ci) (mvPC t cj) (mvPR t i) (mvPR t j) = (makePair W ci cj i j).map (fun x => (x.1, mvPC t x.2)) := by
  unfold makePair
  have e1 := concat_mv t [(ci.cand.toCand, i.2.off), (cj.cand.toCand, j.2.off)] i.2.p (rmin i.2 j.2)
  have e2 := concat_mv t [(cj.cand.toCand, j.2.off), (ci.cand.toCand, i.2.off)] j.2.p (rmin i.2 j.2)
  simp only [List.map_cons, List.map_nil] at e1 e2
  simp only [mvPC_toCand]
  change (match concat [(mvC t ci.cand.toCand, i.2.off), (mvC t cj.cand.toCand, j.2.off)] i.2.p (rmin i.2 j.2) with
    | none => none
    | some c =>
      if i.2.t0 + t = j.2.t0 + t ∧ closeP i.2 j.2 = true then
        match concat [(mvC t cj.cand.toCand, j.2.off), (mvC t ci.cand.toCand, i.2.off)] j.2.p (rmin i.2 j.2) with
        | none => none
        | some x => _
      else _) = _
  rw [e1, e2]
  cases concat [(ci.cand.toCand, i.2.off), (cj.cand.toCand, j.2.off)] i.2.p (rmin i.2 j.2) with
  | none => rfl
  | some c =>
    simp only [Option.map_some, add_left_inj]
    split_ifs
    · cases concat [(cj.cand.toCand, j.2.off), (ci.cand.toCand, i.2.off)] j.2.p (rmin i.2 j.2) with
      | none => rfl
      | some x =>
        simp only [Option.map_some, h.patt, eventStrs_mv, mk_mv h]
        split_ifs <;> rfl
    · rw [mk_mv h]
      rfl

theorem sumCosts_mv (t : ℤ) (dcosts : List (ℤ × K)) (u : Finset (ℤ × ℤ)) : Select.sumCosts dcosts Prod.snd (u.map (mvO t)) = Select.sumCosts dcosts Prod.snd u := by
  unfold Select.sumCosts
  rw [Finset.sum_map]
  simp only [Finset.mem_map, forall_exists_index, and_imp, forall_apply_eq_imp_iff₂]
  rfl

theorem worth_mv {t : ℤ} {W W' : World K} (h : WorldMove t W W') (ci cj new : PC K) : worth W' (mvPC t ci) (mvPC t cj) (mvPC t new) = worth W ci cj new := by
  unfold worth
  rw [ratio_mv, meanCost_mv]
  split_ifs
  · have e : (evOccs (mvPC t ci).cand ++ evOccs (mvPC t cj).cand).toFinset \ (evOccs (mvPC t new).cand).toFinset = ((evOccs ci.cand ++ evOccs cj.cand).toFinset \ (evOccs new.cand).toFinset).map (mvO t) := by
      rw [Finset.map_sdiff, List.toFinset_append, List.toFinset_append, Finset.map_union]
      have e1 := evOccs_fin_mv t ci.cand
      have e2 := evOccs_fin_mv t cj.cand
      have e3 := evOccs_fin_mv t new.cand
      simp only [mvPC, e1, e2, e3]
    simp only [e, sumCosts_mv, h.dcosts, Finset.card_map]
    change Option.map (fun cr => decide ((new.cost + cr) / ((nbOccsA (mvA t new.cand) + _ : ℕ) : K) < _)) _ = _
    rw [nbOccsA_mv]
  · rfl

theorem tryPair_mv {t : ℤ} {W W' : World K} (h : WorldMove t W W') (cs : List (ℕ × PC K)) (i j : PR) :
    tryPair W' (cs.map (fun e => (e.1, mvPC t e.2))) (mvPR t i) (mvPR t j) = (tryPair W cs i j).map (fun r => ((mvPC t r.1.1, mvPC t r.1.2), r.2.map (fun x => (x.1, mvPC t x.2)))) := by
  unfold tryPair
  simp only [lookup_mv]
  change (match (cs.lookup i.2.cid).map (mvPC t), (cs.lookup j.2.cid).map (mvPC t) with
    | some ci, some cj => _
    | _, _ => none) = _
  cases cs.lookup i.2.cid with
  | none => rfl
  | some ci =>
    cases cs.lookup j.2.cid with
    | none => rfl
    | some cj =>
      simp only [Option.map_some]
      have e1 : sameEvent (mvPC t ci).cand (mvPC t cj).cand = sameEvent ci.cand cj.cand := sameEvent_mv t ci.cand cj.cand
      have e2 : (evOccs (mvPC t ci).cand).any (fun o => decide (o ∈ evOccs (mvPC t cj).cand)) = (evOccs ci.cand).any (fun o => decide (o ∈ evOccs cj.cand)) := by
        change (evOccs (mvA t ci.cand)).any (fun o => decide (o ∈ evOccs (mvA t cj.cand))) = _
        rw [evOccs_mv, evOccs_mv, List.any_map]
        congr 1
        funext o
        simp only [Function.comp, decide_eq_decide]
        exact List.mem_map_of_injective (mvO t).injective
      have e3 : ((mvPR t i).2.t0 = (mvPR t j).2.t0) ↔ i.2.t0 = j.2.t0 := by simp [mvPR, mvR]
      simp only [e1, e2, e3, makePair_mv h]
      split_ifs
      · rfl
      · rfl
      · cases makePair W ci cj i j with
        | none => rfl
        | some x =>
          simp only [Option.map_some, Option.bind_some, worth_mv h]
          cases worth W ci cj x.2 with
          | none => rfl
          | some b => cases b <;> rfl

/-- The variables of the horizontal combination, moved in time. -/
def mvH (t : ℤ) (s : HState K) : HState K :=
  ⟨s.pids.map (mvPR t), s.news.map (List.map (mvPR t)), s.keep.map (fun e => (e.1, mvPC t e.2)), s.last.map (fun l => (mvPC t l.1, mvPC t l.2))⟩

theorem filter_cid_mv (t : ℤ) (i : PR) (l : List PR) : (l.map (mvPR t)).filter (fun q => decide (q.2.cid ≠ (mvPR t i).2.cid)) = (l.filter (fun q => decide (q.2.cid ≠ i.2.cid))).map (mvPR t) := by
  rw [List.filter_map]
  rfl

theorem pairLoop_mv {t : ℤ} {W W' : World K} (h : WorldMove t W W') (cs : List (ℕ × PC K)) (i : PR) : ∀ (js : List PR) (s : HState K),
    pairLoop W' (cs.map (fun e => (e.1, mvPC t e.2))) (mvPR t i) (js.map (mvPR t)) (mvH t s) = (pairLoop W cs i js s).map (mvH t) := by
  intro js
  induction js with
  | nil => intro s; rfl
  | cons j js ih =>
    intro s
    rw [List.map_cons, pairLoop, pairLoop, tryPair_mv h]
    cases tryPair W cs i j with
    | none => rfl
    | some r =>
      obtain ⟨l, o⟩ := r
      cases o with
      | none => exact ih { s with last := some l }
      | some x =>
        obtain ⟨k, c⟩ := x
        simp only [Option.map_some]
        have e1 : (mvH t s).news.map (fun ns => ns.filter (fun q => decide (q.2.cid ≠ (mvPR t i).2.cid))) = (s.news.map (fun ns => ns.filter (fun q => decide (q.2.cid ≠ i.2.cid)))).map (List.map (mvPR t)) := by
          change (s.news.map (List.map (mvPR t))).map _ = _
          rw [Option.map_map, Option.map_map]
          congr 1
          funext ns
          exact filter_cid_mv t i ns
        have e2 : (mvH t s).pids.filter (fun q => decide (q.2.cid ≠ (mvPR t i).2.cid)) = (s.pids.filter (fun q => decide (q.2.cid ≠ i.2.cid))).map (mvPR t) := filter_cid_mv t i s.pids
        have e3 : CandPool.dset k (mvPC t c) (mvH t s).keep = (CandPool.dset k c s.keep).map (fun e => (e.1, mvPC t e.2)) := CandPool.dset_map (mvPC t) k c s.keep
        have e4 : ∀ o : Option (List PR), (o.map (List.map (mvPR t)) = some []) ↔ o = some [] := by
          intro o
          cases o with
          | none => simp
          | some l => simp
        rw [e1, e2, e3, ← ih]
        congr 1
        simp only [mvH, HState.mk.injEq, and_true, Option.map_some, e4]
        split_ifs <;> rfl

theorem hLoop_mv {t : ℤ} {W W' : World K} (h : WorldMove t W W') (cs : List (ℕ × PC K)) (num : ℕ) : ∀ (n : ℕ) (s : HState K),
    hLoop W' (cs.map (fun e => (e.1, mvPC t e.2))) num n (mvH t s) = (hLoop W cs num n s).map (mvH t) := by
  intro n
  induction n with
  | zero =>
    intro s
    rw [hLoop, hLoop]
    have : (mvH t s).pids.length = s.pids.length := List.length_map _
    rw [this]
    split_ifs <;> rfl
  | succ n ih =>
    intro s
    rw [hLoop, hLoop]
    have e0 : (mvH t s).pids.length = s.pids.length := List.length_map _
    have e1 : advance (mvH t s).pids (mvH t s).news = _ := advance_mv t s.pids s.news
    rw [e0, e1]
    split_ifs
    · rfl
    · cases advance s.pids s.news with
      | none => rfl
      | some r =>
        obtain ⟨ps, news⟩ := r
        cases ps with
        | nil => rfl
        | cons i pids =>
          simp only [Option.map_some, List.map_cons, List.map_eq_nil_iff]
          split_ifs
          · exact ih { s with pids := [], news := news }
          · rw [selIds_mv]
            cases selIds num i pids news with
            | none => rfl
            | some js =>
              simp only [Option.map_some]
              have e2 := pairLoop_mv h cs i js { s with pids := pids, news := news }
              change pairLoop W' _ _ _ { mvH t s with pids := pids.map (mvPR t), news := news.map (List.map (mvPR t)) } = _ at e2
              rw [e2]
              cases pairLoop W cs i js { s with pids := pids, news := news } with
              | none => rfl
              | some s' => exact ih s'

/-! ### Horizontal combination: cliques -/

/-- A row with its position and candidate, moved in time. -/
def mvI (t : ℤ) (x : Item K) : Item K := ⟨x.pid, mvR t x.row, mvPC t x.c⟩

theorem makeOn_mv {t : ℤ} {W W' : World K} (h : WorldMove t W W') (l : List (Item K)) : makeOn W' (l.map (mvI t)) = (makeOn W l).map (mvPC t) := by
  cases l with
  | nil => rfl
  | cons x l =>
    rw [List.map_cons]
    simp only [makeOn]
    have e1 : ((mvI t x :: l.map (mvI t)).map (fun y => (y.c.cand.toCand, y.row.off))) = (((x :: l).map (fun y => (y.c.cand.toCand, y.row.off))).map (fun y => (mvC t y.1, y.2))) := by
      rw [← List.map_cons, List.map_map, List.map_map]
      refine List.map_congr_left (fun y _ => ?_)
      simp only [Function.comp, mvI, mvPC_toCand, mvR]
    have e2 : (l.map (mvI t)).foldl (fun m y => min m (y.row.r - y.row.off)) ((mvI t x).row.r - (mvI t x).row.off) = l.foldl (fun m y => min m (y.row.r - y.row.off)) (x.row.r - x.row.off) := by
      rw [List.foldl_map]
      rfl
    have e3 : (mvI t x).row.p = x.row.p := rfl
    rw [e1, e2, e3, concat_mv, Option.map_map, Option.map_map]
    congr 1
    funext c
    exact mk_mv h c

theorem items_mv (t : ℤ) (cs : List (ℕ × PC K)) (props : List Row) (l : List ℕ) : items (cs.map (fun e => (e.1, mvPC t e.2))) (props.map (mvR t)) l = (items cs props l).map (List.map (mvI t)) := by
  unfold items
  have e := mapM_map' (fun i : ℕ => (props[i]?).bind (fun row => (cs.lookup row.cid).map (fun c => (⟨i, row, c⟩ : Item K))))
    (fun i : ℕ => ((props.map (mvR t))[i]?).bind (fun row => ((cs.map (fun e => (e.1, mvPC t e.2))).lookup row.cid).map (fun c => (⟨i, row, c⟩ : Item K)))) id (mvI t) (fun i => by
      simp only [id, List.getElem?_map, lookup_mv]
      cases props[i]? with
      | none => rfl
      | some row =>
        simp only [Option.map_some, Option.bind_some]
        change Option.map _ (Option.map (mvPC t) (cs.lookup row.cid)) = _
        cases cs.lookup row.cid <;> rfl) l
  rw [List.map_id] at e
  exact e

theorem orderBase_mv (t : ℤ) (l : List (Item K)) : orderBase (l.map (mvI t)) = (orderBase l).map (mvI t) := by
  unfold orderBase
  refine (List.map_insertionSort _ _ (mvI t) l ?_).symm
  intro a _ b _
  simp only [mvI, mvR, mvPC, intTuple_mv, add_lt_add_iff_right, add_left_inj]

theorem orderX_mv (t : ℤ) (sel : List (List ℕ)) (R : Finset ℕ) (l : List (Item K)) : orderX sel R (l.map (mvI t)) = (orderX sel R l).map (mvI t) := by
  unfold orderX
  simp only
  refine (List.map_insertionSort _ _ (mvI t) l ?_).symm
  intro a _ b _
  rfl

theorem orderY_mv (t : ℤ) (l : List (Item K)) : orderY (l.map (mvI t)) = (orderY l).map (mvI t) := by
  unfold orderY
  refine (List.map_insertionSort _ _ (mvI t) l ?_).symm
  intro a _ b _
  exact (rowKey_mv t a.row b.row).symm

theorem pids_mv (t : ℤ) (l : List (Item K)) : (l.map (mvI t)).map (fun x => x.pid) = l.map (fun x => x.pid) := by
  rw [List.map_map]
  rfl

theorem better_mv {t : ℤ} {W W' : World K} (h : WorldMove t W W') (l : List (Item K)) (cur : List ℕ × PC K) :
    better W' (l.map (mvI t)) (cur.1, mvPC t cur.2) = (better W l cur).map (fun x => (x.1, mvPC t x.2)) := by
  unfold better
  rw [pids_mv, makeOn_mv h]
  simp only
  split_ifs
  · rfl
  · cases makeOn W l with
    | none => rfl
    | some x =>
      simp only [Option.map_some]
      change some (if x.cost < cur.2.cost then _ else _) = _
      split_ifs <;> rfl

theorem cliqueCand_mv {t : ℤ} {W W' : World K} (h : WorldMove t W W') (Q : Orders) (cs : List (ℕ × PC K)) (props : List Row) (sel : List (List ℕ)) (R : Finset ℕ) :
    cliqueCand W' Q (cs.map (fun e => (e.1, mvPC t e.2))) (props.map (mvR t)) sel R = (cliqueCand W Q cs props sel R).map (fun x => (x.1, mvPC t x.2)) := by
  unfold cliqueCand
  rw [items_mv]
  cases items cs props (Q.clique R) with
  | none => rfl
  | some l =>
    simp only [Option.map_some, Option.bind_some, orderBase_mv, makeOn_mv h, orderX_mv, orderY_mv, pids_mv]
    cases makeOn W (orderBase l) with
    | none => rfl
    | some c =>
      simp only [Option.map_some, Option.bind_some]
      have e : (((orderBase l).map (mvI t)).map (fun x => x.row.t0)).Nodup ↔ ((orderBase l).map (fun x => x.row.t0)).Nodup := by
        have : ((orderBase l).map (mvI t)).map (fun x => x.row.t0) = ((orderBase l).map (fun x => x.row.t0)).map (· + t) := by
          rw [List.map_map, List.map_map]
          rfl
        rw [this]
        exact List.nodup_map_iff (sh_inj t)
      have hb := better_mv h (orderX sel R (orderBase l)) ((orderBase l).map (fun x => x.pid), c)
      simp only at hb
      have hy : ∀ o : Option (List ℕ × PC K), (o.map (fun x => (x.1, mvPC t x.2))).bind (better W' ((orderY l).map (mvI t))) = (o.bind (better W (orderY l))).map (fun x => (x.1, mvPC t x.2)) := by
        intro o
        cases o with
        | none => rfl
        | some x => exact better_mv h (orderY l) x
      by_cases hd : ((orderBase l).map (fun x => x.row.t0)).Nodup
      · rw [if_pos hd, if_pos (e.2 hd)]
        exact hy (some ((orderBase l).map (fun x => x.pid), c))
      · rw [if_neg hd, if_neg (fun h => hd (e.1 h)), hb]
        exact hy _

theorem cliqueLoop_mv {t : ℤ} {W W' : World K} (h : WorldMove t W W') (Q : Orders) (cs : List (ℕ × PC K)) (props : List Row) (sel : List (List ℕ)) (last : Option (PC K × PC K)) : ∀ (Rs : List (Finset ℕ)) (keep : List (List ℕ × PC K)),
    cliqueLoop W' Q (cs.map (fun e => (e.1, mvPC t e.2))) (props.map (mvR t)) sel (last.map (fun l => (mvPC t l.1, mvPC t l.2))) Rs (keep.map (fun e => (e.1, mvPC t e.2))) =
      (cliqueLoop W Q cs props sel last Rs keep).map (List.map (fun e => (e.1, mvPC t e.2))) := by
  intro Rs
  induction Rs with
  | nil => intro keep; rfl
  | cons R Rs ih =>
    intro keep
    have hc := cliqueCand_mv h Q cs props sel R
    cases hx : cliqueCand W Q cs props sel R with
    | none =>
      rw [hx] at hc
      simp only [cliqueLoop, hx, hc, Option.map_none]
    | some x =>
      rw [hx] at hc
      cases last with
      | none => simp only [cliqueLoop, hx, hc, Option.map_none, Option.map_some]
      | some l =>
        simp only [cliqueLoop, hx, hc, Option.map_some, ratio_mv, meanCost_mv]
        rw [← ih, Option.map_some]
        congr 1
        split_ifs
        · exact CandPool.dset_map (mvPC t) x.1 x.2 keep
        · rfl

theorem substitute_mv {t : ℤ} {W W' : World K} (h : WorldMove t W W') (c : PC K) : substitute W' (mvPC t c) = (substitute W c).map (mvPC t) := by
  obtain ⟨a, cost⟩ := c
  cases a with
  | cycle a p O E => rfl
  | pattern d =>
    unfold substitute
    simp only [mvPC, mvA]
    have e0 : substitute.inner' (mvC t d) = substitute.inner' d := rfl
    rw [e0, factorizePattern_mv]
    cases factorizePattern (substitute.inner' d) d with
    | none => rfl
    | some ext =>
      simp only [Option.map_some, List.map_map, Option.some.injEq]
      have main : ∀ (l : List (Cand ℤ)) (b : PC K), (l.map (W'.mk' ∘ mvC t)).foldl (fun best e => if e.cost < best.cost then e else best) (mvPC t b) = mvPC t ((l.map W.mk').foldl (fun best e => if e.cost < best.cost then e else best) b) := by
        intro l
        induction l with
        | nil => intro b; rfl
        | cons x l ih =>
          intro b
          rw [List.map_cons, List.map_cons, List.foldl_cons, List.foldl_cons, ← ih]
          congr 1
          simp only [Function.comp, mk_mv h]
          change (if (W.mk' x).cost < b.cost then _ else _) = _
          split_ifs <;> rfl
      exact main ext ⟨.pattern d, cost⟩

theorem hFinish_mv {t : ℤ} {W W' : World K} (h : WorldMove t W W') (Q : Orders) (cs : List (ℕ × PC K)) (props : List Row) (s : HState K) :
    hFinish W' Q (cs.map (fun e => (e.1, mvPC t e.2))) (props.map (mvR t)) (mvH t s) = (hFinish W Q cs props s).map (List.map (mvPC t)) := by
  unfold hFinish
  have e1 : topKeys (mvH t s).keep = topKeys s.keep := topKeys_mv t s.keep
  rw [e1]
  simp only
  cases Clique.bronKerbosch3Plus (neighbours (topKeys s.keep)) Q.enum ((topKeys s.keep).flatten.toFinset.card + 1) [] (topKeys s.keep).flatten.toFinset ∅ ∅ with
  | none => rfl
  | some collect =>
    simp only [Option.bind_some]
    have e2 : (topKeys s.keep).filterMap (fun k => ((mvH t s).keep.lookup k).map (fun c => (k, c))) = ((topKeys s.keep).filterMap (fun k => (s.keep.lookup k).map (fun c => (k, c)))).map (fun e => (e.1, mvPC t e.2)) := by
      rw [List.map_filterMap]
      congr 1
      funext k
      change Option.map _ ((s.keep.map (fun e => (e.1, mvPC t e.2))).lookup k) = _
      rw [lookup_mv]
      cases s.keep.lookup k <;> rfl
    rw [e2]
    have e3 := cliqueLoop_mv h Q cs props (topKeys s.keep) s.last collect ((topKeys s.keep).filterMap (fun k => (s.keep.lookup k).map (fun c => (k, c))))
    change cliqueLoop W' Q _ _ _ (mvH t s).last _ _ = _ at e3
    rw [e3]
    cases cliqueLoop W Q cs props (topKeys s.keep) s.last collect ((topKeys s.keep).filterMap (fun k => (s.keep.lookup k).map (fun c => (k, c)))) with
    | none => rfl
    | some k =>
      simp only [Option.map_some, Option.bind_some]
      have e4 : (k.map (fun e => (e.1, mvPC t e.2))).map Prod.snd = (k.map Prod.snd).map (mvPC t) := by
        rw [List.map_map, List.map_map]
        rfl
      rw [e4]
      exact mapM_map' (substitute W) (substitute W') (mvPC t) (mvPC t) (substitute_mv h) (k.map Prod.snd)

theorem horizontal_mv {t : ℤ} {W W' : World K} (h : WorldMove t W W') (Q : Orders) (s : CPool K) (nkey : NKey) : horizontal W' Q (mvPool t s) nkey = (horizontal W Q s nkey).map (List.map (mvPC t)) := by
  unfold horizontal
  have e0 : nbNew (mvPool t s) nkey = nbNew s nkey := by
    unfold nbNew
    cases nkey <;> rfl
  rw [e0]
  split_ifs
  · rfl
  · change (match s.props.map (List.map (mvR t)), s.pids with
      | some props, some pids => _
      | _, _ => none) = _
    cases s.props with
    | none => rfl
    | some props =>
      cases s.pids with
      | none => rfl
      | some pids =>
        simp only [Option.map_some]
        have e1 : ∀ l : List ℕ, l.mapM (fun i : ℕ => ((props.map (mvR t))[i]?).map (fun row : Row => (i, row))) = (l.mapM (fun i : ℕ => (props[i]?).map (fun row : Row => (i, row)))).map (List.map (mvPR t)) := by
          intro l
          have := mapM_map' (fun i : ℕ => (props[i]?).map (fun row : Row => (i, row))) (fun i : ℕ => ((props.map (mvR t))[i]?).map (fun row : Row => (i, row))) id (mvPR t) (fun i => by
            simp only [id, List.getElem?_map]
            cases props[i]? <;> rfl) l
          rwa [List.map_id] at this
        rw [e1]
        generalize (match pids with | .list l => l | .range n => List.range n).mapM (fun i : ℕ => (props[i]?).map (fun row : Row => (i, row))) = o
        cases o with
        | none => rfl
        | some prs =>
          simp only [Option.map_some, Option.bind_some]
          have e2 : (mvPool t s).nkeys = s.nkeys := rfl
          rw [e2]
          have e3 : (prs.map (mvPR t)).filter (fun q : PR => decide (q.2.new = s.nkeys.idxOf nkey)) = (prs.filter (fun q : PR => decide (q.2.new = s.nkeys.idxOf nkey))).map (mvPR t) := by
            rw [List.filter_map]
            rfl
          rw [e3, List.length_map, List.length_map]
          simp only [List.map_eq_nil_iff]
          split_ifs with h1 h2
          · rfl
          · have e4 := hLoop_mv h s.candidates (s.nkeys.idxOf nkey) prs.length ⟨prs, some (prs.filter (fun q : PR => decide (q.2.new = s.nkeys.idxOf nkey))), [], none⟩
            change hLoop W' (mvPool t s).candidates _ _ ⟨prs.map (mvPR t), some _, [], none⟩ = _ at e4
            rw [e4]
            cases hLoop W s.candidates (s.nkeys.idxOf nkey) prs.length ⟨prs, some (prs.filter (fun q : PR => decide (q.2.new = s.nkeys.idxOf nkey))), [], none⟩ with
            | none => rfl
            | some s' => exact hFinish_mv h Q s.candidates props s'
          · have e4 := hLoop_mv h s.candidates (s.nkeys.idxOf nkey) prs.length ⟨prs, none, [], none⟩
            change hLoop W' (mvPool t s).candidates _ _ ⟨prs.map (mvPR t), none, [], none⟩ = _ at e4
            rw [e4]
            cases hLoop W s.candidates (s.nkeys.idxOf nkey) prs.length ⟨prs, none, [], none⟩ with
            | none => rfl
            | some s' => exact hFinish_mv h Q s.candidates props s'

/-! ### Rounds -/

/-- The variables of the main loop, moved in time. -/
def mvS (t : ℤ) (s : RState K) : RState K := ⟨mvPool t s.pool, s.i, s.nkeyV, s.nkeyH⟩

theorem addCands_mv {t : ℤ} {W W' : World K} (h : WorldMove t W W') (s : CPool K) (cs : List (PC K)) (n : NKey) (b : Bool) :
    CandPool.addCands (ops W') rowKey (mvPool t s) (cs.map (mvPC t)) n b = (mvPool t (CandPool.addCands (ops W) rowKey s cs n b).1, (CandPool.addCands (ops W) rowKey s cs n b).2) :=
  CandPool.addCands_map (mvM_inj t) (ops_mv h) (rowKey_mv t) s cs n b

theorem round_mv {t : ℤ} {W W' : World K} (h : WorldMove t W W') (Q : Orders) (s : RState K) : round W' Q (mvS t s) = (round W Q s).map (mvS t) := by
  unfold round
  change (match vertical W' Q (mvPool t s.pool) s.nkeyH, horizontal W' Q (mvPool t s.pool) s.nkeyV with
    | some V, some H => _
    | _, _ => none) = _
  rw [vertical_mv h, horizontal_mv h]
  cases vertical W Q s.pool s.nkeyH with
  | none => rfl
  | some V =>
    cases horizontal W Q s.pool s.nkeyV with
    | none => rfl
    | some H =>
      simp only [Option.map_some]
      have e1 := addCands_mv h (CandPool.resetNew s.pool) V (some (true, s.i + 1)) false
      change CandPool.addCands (ops W') rowKey (CandPool.resetNew (mvS t s).pool) _ (some (true, (mvS t s).i + 1)) _ = _ at e1
      rw [e1]
      cases CandPool.addCands (ops W) rowKey (CandPool.resetNew s.pool) V (some (true, s.i + 1)) false with
      | mk p e =>
        cases e with
        | some e => rfl
        | none =>
          simp only
          have e2 := addCands_mv h p H (some (false, s.i + 1)) false
          change CandPool.addCands (ops W') rowKey _ _ (some (false, (mvS t s).i + 1)) _ = _ at e2
          rw [e2]
          cases CandPool.addCands (ops W) rowKey p H (some (false, s.i + 1)) false with
          | mk p' e => cases e <;> rfl

theorem rounds_mv {t : ℤ} {W W' : World K} (h : WorldMove t W W') (Q : ℕ → Orders) : ∀ (n : ℕ) (s : RState K), rounds W' Q n (mvS t s) = (rounds W Q n s).map (mvS t) := by
  intro n
  induction n with
  | zero => intro s; rfl
  | succ n ih =>
    intro s
    rw [rounds, rounds]
    change (if s.pool.newCids = [] then _ else (round W' (Q s.i) (mvS t s)).bind _) = _
    split_ifs
    · rfl
    · rw [round_mv h]
      cases round W (Q s.i) s with
      | none => rfl
      | some s' => exact ih s'

end Costs

end Verif.Complex
