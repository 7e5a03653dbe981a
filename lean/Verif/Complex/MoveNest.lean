import Verif.Complex.MoveCand
import Verif.Nest.FoldProps

/-!
# Moving candidates in time (C126): nesting
-/

set_option autoImplicit false
set_option linter.unusedSectionVars false

namespace Verif.Complex

open Verif.PTree Verif.Concat Verif.PattKey Verif.DataSeq Verif.Mine Verif.Nest

variable {α : Type}

/-- An element of a group moved in time. -/
def mvE (t : ℤ) (e : Elem) : Elem := (e.1 + t, e.2)

/-- An element of `keep` moved in time. -/
def mvK (t : ℤ) (x : ℤ × List Char × ℤ × List ℕ) : ℤ × List Char × ℤ × List ℕ := (x.1, x.2.1, x.2.2.1 + t, x.2.2.2)

/-- Groups moved in time. -/
def mvG (t : ℤ) (g : Groups) : Groups := g.map (fun x => (x.1, x.2.map (mvE t)))

/-- What is left open in the search of nested patterns does not see the origin of times. -/
structure EnvMove (t : ℤ) (env env' : Env) : Prop where
  cheaper : env'.cheaper = env.cheaper
  triples : ∀ lvl key ts, ts.Pairwise (· < ·) → env'.triples lvl key (sh t ts) = env.triples lvl key ts
  chains : ∀ lvl key ts, ts.Pairwise (· < ·) → env'.chains lvl key (sh t ts) = (env.chains lvl key ts).map (fun c => (sh t c.1, c.2))
  period : ∀ ts, env'.period (sh t ts) = env.period ts
  order : ∀ l, env'.order (l.map (mvK t)) = (env.order l).map (mvK t)

/-- The search of the code, with comparisons that do not see the origin of times. -/
theorem foldEnv_move (t : ℤ) (cheaper : List ℕ → List ℕ → Bool) (par par' : ℕ → List Char → Fold.Par) (period period' : List ℤ → ℤ) (order order' : List (ℤ × List Char × ℤ × List ℕ) → List (ℤ × List Char × ℤ × List ℕ))
    (hp : ∀ l k, ParShift t (par l k) (par' l k)) (hper : ∀ ts, period' (sh t ts) = period ts) (ho : ∀ l, order' (l.map (mvK t)) = (order l).map (mvK t)) :
    EnvMove t (foldEnv cheaper par period order) (foldEnv cheaper par' period' order') := by
  have h : ∀ lvl key ts, ts.Pairwise (· < ·) → Fold.extractFold (par' lvl key) ((sh t ts).length + 1502) (sh t ts) = (Fold.extractFold (par lvl key) (ts.length + 1502) ts).map (shFold t) := by
    intro lvl key ts hs
    rw [sh_length]
    exact extractFold_sh (hp lvl key) (ts.length + 1502) ts hs (by omega)
  refine ⟨rfl, ?_, ?_, hper, ho⟩
  · intro lvl key ts hs
    simp only [foldEnv]
    rw [h lvl key ts hs]
    cases Fold.extractFold (par lvl key) (ts.length + 1502) ts <;> rfl
  · intro lvl key ts hs
    simp only [foldEnv]
    rw [h lvl key ts hs]
    cases Fold.extractFold (par lvl key) (ts.length + 1502) ts <;> rfl

theorem t0At_mv (t : ℤ) (cands : List (Cand α)) (idxs : List ℕ) (k : ℕ) : t0At (cands.map (mvC t)) idxs k = (t0At cands idxs k).map (· + t) := by
  unfold t0At
  cases idxs[k]? with
  | none => rfl
  | some i =>
    simp only [Option.bind_some, List.getElem?_map]
    cases cands[i]? with
    | none => rfl
    | some c => exact head_sh t c.O

theorem nestTurn_mv (t : ℤ) (cands : List (Cand α)) (idxs : List ℕ) (prds : List ℤ) (L : List (List ℕ)) (pp : List ℕ) (pi : ℕ) :
    nestTurn (cands.map (mvC t)) idxs prds L pp pi = nestTurn cands idxs prds L pp pi := by
  unfold nestTurn
  simp only [t0At_mv]
  cases hpi : idxs[pi]? with
  | none => rfl
  | some i =>
    simp only [Option.bind_some, List.getElem?_map]
    cases cands[i]? with
    | none => rfl
    | some c =>
      simp only [Option.map_some]
      cases t0At cands idxs pi with
      | none => rfl
      | some t0 =>
        simp only [Option.map_some]
        split_ifs
        · rfl
        · cases lastNonzero pp with
          | none => rfl
          | some i =>
            simp only
            cases t0At cands idxs (L.idxOf (pp.modify i (fun x => x - 1))) with
            | none => rfl
            | some t1 =>
              cases prds[i]? with
              | none => rfl
              | some p =>
                simp only [Option.map_some, mvC]
                rw [show t0 + t - (t1 + t) - p = t0 - t1 - p by ring]

theorem prepareNested_mv (t : ℤ) (cands : List (Cand α)) (key : List Char) (idxs : List ℕ) : prepareNested (cands.map (mvC t)) key idxs = (prepareNested cands key idxs).map (mvC t) := by
  unfold prepareNested
  have e1 : idxs.mapM (fun i => (cands.map (mvC t))[i]?) = (idxs.mapM (fun i => cands[i]?)).map (List.map (mvC t)) := by
    have := mapM_map' (fun i => cands[i]?) (fun i => (cands.map (mvC t))[i]?) id (mvC t) (fun i => List.getElem?_map ..) idxs
    rwa [List.map_id] at this
  have e2 : idxs.head?.bind (fun i => (cands.map (mvC t))[i]?) = (idxs.head?.bind (fun i => cands[i]?)).map (mvC t) := by
    cases idxs.head? with
    | none => rfl
    | some i => exact List.getElem?_map ..
  have e3 : ∀ prds outer, nestE (cands.map (mvC t)) idxs prds outer = nestE cands idxs prds outer := by
    intro prds outer
    unfold nestE
    simp only [nestTurn_mv]
  rw [e1, e2]
  cases parseKey key with
  | none => rfl
  | some pk =>
    obtain ⟨prds, lens⟩ := pk
    cases idxs.mapM (fun i => cands[i]?) with
    | none => rfl
    | some cs =>
      cases idxs.head?.bind (fun i => cands[i]?) with
      | none => rfl
      | some c0 =>
        simp only [Option.map_some, e3]
        have e4 : nestTree (mvC t c0) prds lens = nestTree c0 prds lens := rfl
        have e5 : cyclePs (mvC t c0).tree = cyclePs c0.tree := rfl
        rw [e4, e5]
        cases nestE cands idxs prds (lens.take (lens.length - (cyclePs c0.tree).length)) with
        | none => rfl
        | some Es =>
          cases nestTree c0 prds lens with
          | none => rfl
          | some y =>
            simp only [Option.map_some, mvC, Option.some.injEq, Cand.mk.injEq, true_and, and_true]
            rw [List.flatMap_map]
            unfold sh
            rw [List.map_flatMap]
            rfl

theorem baseKey_mv (t : ℤ) (c : Cand α) : baseKey (mvC t c) = baseKey c := rfl

theorem addElem_mv (t : ℤ) (g : Groups) (key : List Char) (e : Elem) : addElem (mvG t g) key (mvE t e) = mvG t (addElem g key e) := by
  unfold addElem
  have e1 : (mvG t g).map Prod.fst = g.map Prod.fst := by
    unfold mvG
    rw [List.map_map]
    rfl
  rw [e1]
  split_ifs
  · unfold mvG
    rw [List.map_map, List.map_map]
    refine List.map_congr_left (fun x _ => ?_)
    simp only [Function.comp]
    split_ifs <;> simp
  · simp [mvG]

theorem initGroups_mv (t : ℤ) (cands : List (Cand α)) : initGroups (cands.map (mvC t)) = (initGroups cands).map (mvG t) := by
  unfold initGroups
  have main : ∀ (l : List (Cand α × ℕ)) (g : Option Groups),
      (l.map (fun x => (mvC t x.1, x.2))).foldl (fun g x => match g, x.1.O.head? with
        | some g, some t0 => some (addElem g (baseKey x.1) (t0, [x.2]))
        | _, _ => none) (g.map (mvG t)) =
      (l.foldl (fun g x => match g, x.1.O.head? with
        | some g, some t0 => some (addElem g (baseKey x.1) (t0, [x.2]))
        | _, _ => none) g).map (mvG t) := by
    intro l
    induction l with
    | nil => intro g; rfl
    | cons x l ih =>
      intro g
      rw [List.map_cons, List.foldl_cons, List.foldl_cons, ← ih]
      congr 1
      cases g with
      | none => rfl
      | some g =>
        simp only [Option.map_some, mvC, head_sh]
        cases x.1.O.head? with
        | none => rfl
        | some t0 =>
          simp only [Option.map_some, Option.some.injEq]
          exact addElem_mv t g (baseKey x.1) (t0, [x.2])
  have h := main cands.zipIdx (some [])
  rw [List.zipIdx_map] 
  exact h

theorem dropEqual_mv (t : ℤ) (cheaper : List ℕ → List ℕ → Bool) : ∀ (ys : List Elem) (x : Elem), dropEqual cheaper (mvE t x) (ys.map (mvE t)) = (dropEqual cheaper x ys).map (mvE t) := by
  intro ys
  induction ys with
  | nil => intro x; rfl
  | cons y ys ih =>
    intro x
    rw [List.map_cons, dropEqual, dropEqual]
    have e : ((mvE t y).1 = (mvE t x).1) ↔ y.1 = x.1 := by simp [mvE]
    by_cases h : y.1 = x.1
    · rw [if_pos h, if_pos (e.2 h), ih, ih]
      change (if cheaper y.2 x.2 = true then _ else _) = _
      split_ifs <;> rfl
    · rw [if_neg h, if_neg (fun h' => h (e.1 h')), ih, List.map_cons]

theorem sortElems_mv {t : ℤ} {env env' : Env} (h : EnvMove t env env') (u : List Elem) : sortElems env' (u.map (mvE t)) = (sortElems env u).map (mvE t) := by
  unfold sortElems
  rw [h.cheaper, ← List.map_insertionSort (r := elemLE) (s := elemLE) (mvE t) u (fun a _ b _ => by simp [elemLE, mvE])]
  cases u.insertionSort elemLE with
  | nil => rfl
  | cons x xs => exact dropEqual_mv t env.cheaper xs x

theorem combKids_mv (t : ℤ) (elems : List Elem) (pos : List ℕ) : combKids (elems.map (mvE t)) pos = combKids elems pos := by
  unfold combKids
  have : (fun cc : ℕ => ((elems.map (mvE t))[cc]?).map Prod.snd) = (fun cc : ℕ => (elems[cc]?).map Prod.snd) := by
    funext cc
    rw [List.getElem?_map, Option.map_map]
    rfl
  rw [this]

theorem tripleElem_mv (t : ℤ) (key : List Char) (elems : List Elem) (x : ℤ × List ℕ) : tripleElem key (elems.map (mvE t)) x = (tripleElem key elems x).map (fun y => (y.1, mvE t y.2)) := by
  unfold tripleElem
  rw [combKids_mv]
  cases combKids elems x.2 with
  | none => rfl
  | some kids =>
    cases x.2.head? with
    | none => rfl
    | some k =>
      simp only [Option.bind_some, List.getElem?_map]
      cases elems[k]? <;> rfl

theorem chainElem_mv {t : ℤ} {env env' : Env} (h : EnvMove t env env') (key : List Char) (elems : List Elem) (x : List ℤ × List ℕ) :
    chainElem env' key (elems.map (mvE t)) (sh t x.1, x.2) = (chainElem env key elems x).map (fun y => (y.1, mvE t y.2)) := by
  unfold chainElem
  rw [combKids_mv]
  simp only [head_sh, h.period, sh_length]
  cases combKids elems x.2 with
  | none => rfl
  | some kids =>
    cases x.1.head? <;> rfl

theorem newElems_mv {t : ℤ} {env env' : Env} (h : EnvMove t env env') (lvl : ℕ) (key : List Char) (u : List Elem) :
    newElems env' lvl key (u.map (mvE t)) = (newElems env lvl key u).map (fun r => (r.1.map (fun y => (y.1, mvE t y.2)), r.2)) := by
  unfold newElems
  rw [List.length_map]
  split_ifs
  · rfl
  · simp only [sortElems_mv h]
    have hs : ((sortElems env u).map Prod.fst).Pairwise (· < ·) := List.pairwise_map.2 (sortElems_sorted env u)
    have e : ((sortElems env u).map (mvE t)).map Prod.fst = sh t ((sortElems env u).map Prod.fst) := by
      unfold sh
      rw [List.map_map, List.map_map]
      rfl
    rw [e, h.triples _ _ _ hs, h.chains _ _ _ hs]
    have m1 := mapM_map' (tripleElem key (sortElems env u)) (tripleElem key ((sortElems env u).map (mvE t))) id (fun y => (y.1, mvE t y.2)) (fun x => tripleElem_mv t key (sortElems env u) x)
      (env.triples lvl key ((sortElems env u).map Prod.fst))
    rw [List.map_id] at m1
    have m2 := mapM_map' (chainElem env key (sortElems env u)) (chainElem env' key ((sortElems env u).map (mvE t))) (fun c => (sh t c.1, c.2)) (fun y => (y.1, mvE t y.2)) (fun x => chainElem_mv h key (sortElems env u) x)
      (env.chains lvl key ((sortElems env u).map Prod.fst))
    rw [m1, m2]
    cases (env.triples lvl key ((sortElems env u).map Prod.fst)).mapM (tripleElem key (sortElems env u)) with
    | none => rfl
    | some a =>
      cases (env.chains lvl key ((sortElems env u).map Prod.fst)).mapM (chainElem env key (sortElems env u)) with
      | none => rfl
      | some b =>
        simp only [Option.map_some, List.map_append, List.flatMap_map]

theorem kept_mv (t : ℤ) (key : List Char) (u : List Elem) (taken : List ℕ) : kept key (u.map (mvE t)) taken = (kept key u taken).map (List.map (mvK t)) := by
  unfold kept
  rw [Option.map_map]
  congr 1
  funext s
  rw [List.zipIdx_map, List.filter_map, List.map_map]
  simp only [Function.comp, List.map_map]
  rfl

theorem foldl_addElem_mv (t : ℤ) : ∀ (new : List (List Char × Elem)) (g : Groups), (new.map (fun y => (y.1, mvE t y.2))).foldl (fun g x => addElem g x.1 x.2) (mvG t g) = mvG t (new.foldl (fun g x => addElem g x.1 x.2) g) := by
  intro new
  induction new with
  | nil => intro g; rfl
  | cons x new ih =>
    intro g
    rw [List.map_cons, List.foldl_cons, List.foldl_cons, addElem_mv, ih]

theorem passGroups_mv {t : ℤ} {env env' : Env} (h : EnvMove t env env') (lvl : ℕ) : ∀ (gs next : Groups) (keep : List (ℤ × List Char × ℤ × List ℕ)),
    passGroups env' lvl (mvG t gs) (mvG t next) (keep.map (mvK t)) = (passGroups env lvl gs next keep).map (fun r => (mvG t r.1, r.2.map (mvK t))) := by
  intro gs
  induction gs with
  | nil => intro next keep; rfl
  | cons g gs ih =>
    intro next keep
    obtain ⟨key, u⟩ := g
    change passGroups env' lvl ((key, u.map (mvE t)) :: mvG t gs) _ _ = _
    rw [passGroups, passGroups, newElems_mv h]
    cases newElems env lvl key u with
    | none => rfl
    | some r =>
      obtain ⟨new, taken⟩ := r
      simp only [Option.map_some, kept_mv]
      cases kept key u taken with
      | none => rfl
      | some ks =>
        simp only [Option.map_some]
        rw [foldl_addElem_mv, ← List.map_append, ih]

theorem levels_mv {t : ℤ} {env env' : Env} (h : EnvMove t env env') : ∀ (n lvl : ℕ) (gs : Groups) (keep : List (ℤ × List Char × ℤ × List ℕ)),
    levels env' n lvl (mvG t gs) (keep.map (mvK t)) = (levels env n lvl gs keep).map (List.map (mvK t)) := by
  intro n
  induction n with
  | zero =>
    intro lvl gs keep
    cases gs <;> rfl
  | succ n ih =>
    intro lvl gs keep
    cases gs with
    | nil => rfl
    | cons g gs =>
      have hp := passGroups_mv h lvl (g :: gs) [] keep
      change levels env' (n + 1) lvl ((g.1, g.2.map (mvE t)) :: mvG t gs) _ = _
      rw [levels, levels]
      change passGroups env' lvl ((g.1, g.2.map (mvE t)) :: mvG t gs) [] _ = _ at hp
      rw [hp]
      cases passGroups env lvl (g :: gs) [] keep with
      | none => rfl
      | some r => exact ih (lvl + 1) r.1 r.2

theorem selectNested_mv (t : ℤ) (cands : List (Cand α)) : ∀ (l : List (ℤ × List Char × ℤ × List ℕ)) (covered : Finset ℕ) (prev : ℤ),
    selectNested (cands.map (mvC t)) (l.map (mvK t)) covered prev = (selectNested cands l covered prev).map (fun r => (r.1.map (mvC t), r.2)) := by
  intro l
  induction l with
  | nil => intro covered prev; rfl
  | cons x l ih =>
    intro covered prev
    rw [List.map_cons, selectNested, selectNested]
    simp only [mvK]
    rw [prepareNested_mv, ih, ih]
    by_cases hc : 2 < (x.2.2.2.toFinset \ covered).card ∨ x.1 = prev
    · refine (if_pos hc).trans (Eq.trans ?_ (congrArg _ (if_pos hc).symm))
      cases prepareNested cands x.2.1 x.2.2.2 with
      | none => rfl
      | some c =>
        cases selectNested cands l (covered ∪ x.2.2.2.toFinset) x.1 <;> rfl
    · exact (if_neg hc).trans (congrArg _ (if_neg hc).symm)

/-- Nesting candidates moved in time gives the same candidates moved. -/
theorem nestCmplx_mv {t : ℤ} {env env' : Env} (h : EnvMove t env env') (fuel : ℕ) (cands : List (Cand α)) :
    nestCmplx fuel env' (cands.map (mvC t)) = (nestCmplx fuel env cands).map (fun r => (r.1.map (mvC t), r.2)) := by
  unfold nestCmplx
  rw [initGroups_mv]
  cases initGroups cands with
  | none => rfl
  | some g =>
    simp only [Option.map_some]
    have hl := levels_mv h fuel 0 g []
    rw [List.map_nil] at hl
    rw [hl]
    cases levels env fuel 0 g [] with
    | error e => rfl
    | ok keep =>
      simp only [Except.map]
      rw [h.order, ← List.map_reverse, selectNested_mv]
      cases selectNested cands (env.order keep).reverse ∅ (-1) <;> rfl

end Verif.Complex
