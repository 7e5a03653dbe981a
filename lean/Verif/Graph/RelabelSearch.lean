import Verif.Graph.RelabelSpec

/-!
# The search of GraphMDL with other values for the candidates
-/

set_option autoImplicit false
set_option linter.unusedSectionVars false

namespace Verif.Graph

variable {C C' K : Type} [DecidableEq C] [DecidableEq C'] [LinearOrder K]

theorem SRow.along_symm (e : C ≃ C') (r : SRow C) : (r.along e).along e.symm = r := by simp [SRow.along]

theorem SRow.symm_along (e : C ≃ C') (r : SRow C') : (r.along e.symm).along e = r := by simp [SRow.along]

theorem SRow.along_injective (e : C ≃ C') : Function.Injective (SRow.along e) := fun a b h => by rw [← SRow.along_symm e a, h, SRow.along_symm]

/-- Rows with the other values. -/
abbrev rowsAlong (e : C ≃ C') (l : List (SRow C)) : List (SRow C') := l.map (SRow.along e)

theorem rowsAlong_symm (e : C ≃ C') (l : List (SRow C)) : (rowsAlong e l).map (SRow.along e.symm) = l := by
  simp [rowsAlong, List.map_map, Function.comp_def, SRow.along_symm]

theorem SState.along_symm (e : C ≃ C') (s : SState C K) : (s.along e).along e.symm = s := by
  obtain ⟨rows, dlen, tested, prune, usage, old, ticks, timeout, log⟩ := s
  simp [SState.along, List.map_map, Function.comp_def, SRow.along_symm]

theorem mem_along (e : C ≃ C') (l : List (SRow C)) (r : SRow C') : r ∈ rowsAlong e l ↔ r.along e.symm ∈ l := by
  constructor
  · intro h
    obtain ⟨a, ha, rfl⟩ := List.mem_map.1 h
    rwa [SRow.along_symm]
  · exact fun h => List.mem_map.2 ⟨_, h, SRow.symm_along e r⟩

theorem mem_along' (e : C ≃ C') (l : List (SRow C)) (r : SRow C) : r.along e ∈ rowsAlong e l ↔ r ∈ l := by rw [mem_along, SRow.along_symm]

theorem dl_along (e : C ≃ C') (env : SEnv C K) (l : List (SRow C)) : (env.along e).dl (rowsAlong e l) = env.dl l := by
  simp only [SEnv.along, rowsAlong_symm]

theorem usage_along (e : C ≃ C') (s : SState C K) (r : SRow C) : (s.along e).usage (r.along e) = s.usage r := by simp only [SState.along, SRow.along_symm]

theorem sortRows_along (e : C ≃ C') (env : SEnv C K) (l : List (SRow C)) : sortRows (env.along e) (rowsAlong e l) = rowsAlong e (sortRows env l) := by
  unfold sortRows
  refine (List.map_insertionSort _ _ _ _ (fun a _ b _ => ?_)).symm
  simp only [rowLE, SEnv.along, SRow.along, Equiv.symm_apply_apply]

theorem addRow_along (e : C ≃ C') (env : SEnv C K) (l : List (SRow C)) (r : SRow C) : addRow (env.along e) (rowsAlong e l) (r.along e) = rowsAlong e (addRow env l r) := by
  unfold addRow
  rw [← sortRows_along]
  simp [rowsAlong]

theorem erase_along (e : C ≃ C') (l : List (SRow C)) (r : SRow C) : (rowsAlong e l).erase (r.along e) = rowsAlong e (l.erase r) :=
  (List.map_erase (SRow.along_injective e) l).symm

theorem removeRow_along (e : C ≃ C') (env : SEnv C K) (l : List (SRow C)) (r : SRow C) : removeRow (env.along e) (rowsAlong e l) (r.along e) = (removeRow env l r).map (rowsAlong e) := by
  unfold removeRow
  simp only [mem_along', erase_along, sortRows_along]
  split <;> rfl

theorem coverUsage_along (e : C ≃ C') (env : SEnv C K) (s : SState C K) : coverUsage (env.along e) (s.along e) = (coverUsage env s).along e := by
  have h2 : ∀ r : SRow C', (env.along e).usage (s.along e).rows r = env.usage s.rows (r.along e.symm) := by
    intro r
    have := rowsAlong_symm e s.rows
    simp only [SEnv.along, SState.along]
    rw [this]
  unfold coverUsage
  simp only [h2]
  simp only [SState.along, SState.mk.injEq, true_and, and_true]
  funext r
  have := mem_along e s.rows r
  by_cases hm : r.along e.symm ∈ s.rows
  · rw [if_pos hm]; exact if_pos (this.2 hm)
  · rw [if_neg hm]; exact if_neg (fun h => hm (this.1 h))

theorem oldUsage_along (e : C ≃ C') (s : SState C K) : oldUsage (s.along e) = (oldUsage s).along e := by
  unfold oldUsage
  simp only [SState.along, SState.mk.injEq, true_and, and_true, List.map_map, Function.comp_def, SRow.along_symm]

theorem lookup_along (e : C ≃ C') (r : SRow C) : ∀ l : List (SRow C × ℕ), (l.map (fun x => (x.1.along e, x.2))).lookup (r.along e) = l.lookup r
  | [] => rfl
  | (a, n) :: t => by
    have ih := lookup_along e r t
    simp only [List.map_cons, List.lookup_cons] at ih ⊢
    rw [ih]
    have : (r.along e == a.along e) = (r == a) := by rw [Bool.eq_iff_iff, beq_iff_eq, beq_iff_eq, (SRow.along_injective e).eq_iff]
    rw [this]

theorem pruneCands_along (e : C ≃ C') (s : SState C K) : pruneCands (s.along e) = (pruneCands s).along e := by
  unfold pruneCands
  simp only [SState.along, SState.mk.injEq, true_and, and_true, List.map_append, List.filter_map]
  congr 2
  refine List.filter_congr (fun r _ => ?_)
  simp only [Function.comp_apply, lookup_along, SRow.along_symm]

theorem pruneStart_along (e : C ≃ C') (s : SState C K) : pruneStart (s.along e) = (pruneStart s).along e := by
  unfold pruneStart
  rw [oldUsage_along]
  simp only [SState.along, SState.mk.injEq, true_and, and_true]
  refine (List.map_insertionSort _ _ _ _ (fun a _ b _ => ?_)).symm
  simp only [SRow.along_symm]

/-- The outcome with the other values. -/
abbrev outAlong (e : C ≃ C') (x : Option (Except String (SState C K))) : Option (Except String (SState C' K)) := x.map (Except.map (SState.along e))

/-- The state with other rows. -/
def SState.setRows (s : SState C K) (rows : List (SRow C)) : SState C K := { s with rows := rows }

/-- The state with another length, accepted, and other rows to prune. -/
def SState.accept (s : SState C K) (d : K) (p : List (SRow C)) (log : List K) : SState C K := { s with dlen := d, prune := p, log := d :: log }

/-- The state with another number of clock readings. -/
def SState.setTicks (s : SState C K) (k : ℕ) : SState C K := { s with ticks := k }

/-- The state with other candidates tested. -/
def SState.setTested (s : SState C K) (l : List C) : SState C K := { s with tested := l }

theorem setRows_along (e : C ≃ C') (s : SState C K) (rows : List (SRow C)) : (s.along e).setRows (rowsAlong e rows) = (s.setRows rows).along e := rfl

theorem accept_along (e : C ≃ C') (s : SState C K) (d : K) (p : List (SRow C)) (log : List K) : (s.along e).accept d (rowsAlong e p) log = (s.accept d p log).along e := rfl

theorem setTicks_along (e : C ≃ C') (s : SState C K) (k : ℕ) : (s.along e).setTicks k = (s.setTicks k).along e := rfl

theorem setTested_along (e : C ≃ C') (s : SState C K) (l : List C) : (s.along e).setTested (l.map e) = (s.setTested l).along e := rfl

theorem pruneLoop_eq (env : SEnv C K) (n i : ℕ) (s : SState C K) : pruneLoop env (n + 1) i s = match s.prune[i]? with
    | none => some (.ok s)
    | some r => match removeRow env s.rows r with
      | .error e => some (.error e)
      | .ok rows =>
        if env.dl rows < s.dlen then
          match pruneLoop env n 0 (pruneStart (pruneCands ((coverUsage env (s.setRows rows)).accept (env.dl rows) (s.prune.erase r) s.log))) with
          | some (.ok s4) => pruneLoop env n (i + 1) s4
          | x => x
        else pruneLoop env n (i + 1) ((coverUsage env (s.setRows rows)).setRows (addRow env rows r)) := by
  rw [pruneLoop]
  rfl

theorem pruneLoop_along (e : C ≃ C') (env : SEnv C K) : ∀ (n i : ℕ) (s : SState C K), pruneLoop (env.along e) n i (s.along e) = outAlong e (pruneLoop env n i s)
  | 0, _, _ => rfl
  | n + 1, i, s => by
    have ih := pruneLoop_along e env n
    have hp : (s.along e).prune[i]? = (s.prune[i]?).map (SRow.along e) := by simp [SState.along]
    rw [pruneLoop_eq, pruneLoop_eq, hp]
    cases s.prune[i]? with
    | none => rfl
    | some r =>
      simp only [Option.map_some]
      have hr : removeRow (env.along e) (s.along e).rows (r.along e) = (removeRow env s.rows r).map (rowsAlong e) := removeRow_along e env s.rows r
      have he : (s.along e).prune.erase (r.along e) = rowsAlong e (s.prune.erase r) := erase_along e s.prune r
      have hd : (s.along e).dlen = s.dlen := rfl
      have hl : (s.along e).log = s.log := rfl
      rw [hr, he, hd, hl]
      cases removeRow env s.rows r with
      | error x => rfl
      | ok rows =>
        simp only [Except.map, dl_along, setRows_along, coverUsage_along, accept_along, pruneCands_along, pruneStart_along, addRow_along, ih]
        by_cases h : env.dl rows < s.dlen
        · rw [if_pos h, if_pos h]
          generalize pruneLoop env n 0 _ = x
          cases x with
          | none => rfl
          | some x =>
            cases x with
            | error x => rfl
            | ok s4 => exact ih (i + 1) s4
        · rw [if_neg h, if_neg h]

theorem searchEnd_along (e : C ≃ C') (env : SEnv C K) (s : SState C K) : searchEnd (env.along e) (s.along e) = (searchEnd env s).along e := by
  have h : (env.along e).dl (s.along e).rows = env.dl s.rows := dl_along e env s.rows
  unfold searchEnd
  rw [coverUsage_along, h]
  rfl

theorem newUid_along (e : C ≃ C') (s : SState C K) : newUid (s.along e) = newUid s := by
  simp [newUid, SState.along, List.map_map, Function.comp_def, SRow.along]

theorem testAll_eq (env : SEnv C K) (late : ℕ → Bool) (fuel : ℕ) (cands : List C) (c : C) (t : List C) (s : SState C K) : testAll env late fuel cands (c :: t) s =
    if s.tested.any (fun d => env.same d c) then some (.error "TypeError")
    else if s.timeout && late s.ticks then some (.ok (searchEnd env (s.setTicks (s.ticks + 1)), false))
    else
      let row : SRow C := ⟨c, newUid ((oldUsage s).setTicks (s.ticks + 1)), s.rows.length + 1⟩
      let rows := addRow env s.rows row
      let s2 := (coverUsage env (((oldUsage s).setTicks (s.ticks + 1)).setRows rows)).setTested (s.tested ++ [c])
      if env.dl rows < s.dlen then
        match pruneLoop env fuel 0 (pruneStart (pruneCands (s2.accept (env.dl rows) s.prune s.log))) with
        | none => none
        | some (.error e) => some (.error e)
        | some (.ok s3) => some (.ok (s3, false))
      else match removeRow env rows row with
        | .error e => some (.error e)
        | .ok rows' =>
          if s.dlen < env.dl rows ∧ cands.findIdx (fun d => env.same d c) = cands.length - 1 then some (.ok (searchEnd env (s2.setRows rows'), true))
          else testAll env late fuel cands t (s2.setRows rows') := by
  rw [testAll]
  rfl

theorem testAll_along (e : C ≃ C') (env : SEnv C K) (late : ℕ → Bool) (fuel : ℕ) (cands : List C) : ∀ (l : List C) (s : SState C K),
    testAll (env.along e) late fuel (cands.map e) (l.map e) (s.along e) = (testAll env late fuel cands l s).map (Except.map (fun x => (x.1.along e, x.2)))
  | [], _ => rfl
  | c :: t, s => by
    have ih := testAll_along e env late fuel cands t
    have hsame : ∀ a b, (env.along e).same (e a) (e b) = env.same a b := fun a b => by simp [SEnv.along]
    have h1 : (s.along e).tested.any (fun d => (env.along e).same d (e c)) = s.tested.any (fun d => env.same d c) := by
      simp only [SState.along, List.any_map, Function.comp_def, hsame]
    have h2 : (cands.map e).findIdx (fun d => (env.along e).same d (e c)) = cands.findIdx (fun d => env.same d c) := by
      simp only [List.findIdx_map, Function.comp_def, hsame]
    have ht : (s.along e).timeout = s.timeout := rfl
    have hk : (s.along e).ticks = s.ticks := rfl
    have hd : (s.along e).dlen = s.dlen := rfl
    have hl : (s.along e).log = s.log := rfl
    have hp : (s.along e).prune = rowsAlong e s.prune := rfl
    have hr : (s.along e).rows = rowsAlong e s.rows := rfl
    have hc : (s.along e).tested ++ [e c] = (s.tested ++ [c]).map e := by simp [SState.along]
    have hrow : (⟨e c, newUid ((oldUsage s).setTicks (s.ticks + 1)), s.rows.length + 1⟩ : SRow C') = SRow.along e ⟨c, newUid ((oldUsage s).setTicks (s.ticks + 1)), s.rows.length + 1⟩ := rfl
    rw [List.map_cons, testAll_eq, testAll_eq, h1, h2, List.length_map, ht, hk, hd, hl, hp, hr, hc, List.length_map]
    simp only [oldUsage_along, setTicks_along, newUid_along, hrow, addRow_along, setRows_along, coverUsage_along, setTested_along, dl_along, accept_along, pruneCands_along, pruneStart_along, searchEnd_along,
      pruneLoop_along, removeRow_along]
    split
    · rfl
    · split
      · rfl
      · split
        · generalize pruneLoop env fuel 0 _ = x
          cases x with
          | none => rfl
          | some x => cases x <;> rfl
        · generalize removeRow env _ _ = x
          cases x with
          | error x => rfl
          | ok rows' =>
            simp only [Except.map, setRows_along, searchEnd_along, ih]
            split <;> rfl

theorem search_eq (env : SEnv C K) (late : ℕ → Bool) (n : ℕ) (s : SState C K) : search env late (n + 1) s =
    if s.timeout && late s.ticks then some (.ok s)
    else if s.timeout && late (s.ticks + 1) then some (.ok (searchEnd env (s.setTicks (s.ticks + 1))))
    else if env.gen (s.setTicks (s.ticks + 1)) = [] then some (.ok (searchEnd env (s.setTicks (s.ticks + 1))))
    else match testAll env late n (env.gen (s.setTicks (s.ticks + 1))) (env.gen (s.setTicks (s.ticks + 1))) (s.setTicks (s.ticks + 1 + 1)) with
      | none => none
      | some (.error e) => some (.error e)
      | some (.ok (s2, true)) => some (.ok s2)
      | some (.ok (s2, false)) => search env late n s2 := by
  rw [search]
  rfl

theorem search_along (e : C ≃ C') (env : SEnv C K) (late : ℕ → Bool) : ∀ (n : ℕ) (s : SState C K), search (env.along e) late n (s.along e) = outAlong e (search env late n s)
  | 0, _ => rfl
  | n + 1, s => by
    have ih := search_along e env late n
    have ht : (s.along e).timeout = s.timeout := rfl
    have hk : (s.along e).ticks = s.ticks := rfl
    have hg : ∀ s : SState C K, (env.along e).gen (s.along e) = (env.gen s).map e := fun s => by simp only [SEnv.along, SState.along_symm]
    rw [search_eq, search_eq, ht, hk]
    simp only [setTicks_along, hg, searchEnd_along, testAll_along, List.map_eq_nil_iff]
    split
    · rfl
    · split
      · rfl
      · split
        · rfl
        · generalize testAll env late n _ _ _ = x
          cases x with
          | none => rfl
          | some x =>
            cases x with
            | error x => rfl
            | ok x =>
              obtain ⟨s2, b⟩ := x
              cases b
              · exact ih s2
              · rfl

/-- The search with other values for the candidates is the same search. -/
theorem searchFit_along (e : C ≃ C') (env : SEnv C K) (late : ℕ → Bool) (fuel : ℕ) (timeout : Bool) (s : SState C K) : searchFit (env.along e) late fuel timeout (s.along e) = outAlong e (searchFit env late fuel timeout s) := by
  have h : searchInit (env.along e) timeout (s.along e) = (searchInit env timeout s).along e := by
    unfold searchInit
    have hd := dl_along e env []
    simp only [rowsAlong, List.map_nil] at hd
    rw [hd]
    simp only [SState.along, List.map_nil, SState.mk.injEq, true_and, and_true]
    funext r
    have := mem_along e s.prune r
    by_cases hm : r.along e.symm ∈ s.prune
    · rw [if_pos hm]; exact if_pos (this.2 hm)
    · rw [if_neg hm]; exact if_neg (fun h => hm (this.1 h))
  unfold searchFit
  rw [h, search_along]

end Verif.Graph
