import Verif.Graph.SearchModel
import Mathlib.Tactic.Common

/-!
# The search of GraphMDL: properties (C46)
-/

set_option autoImplicit false
set_option linter.unusedSectionVars false

namespace Verif.Graph

variable {C K : Type} [DecidableEq C] [LinearOrder K]

/-! ## Specification -/

/-- The description length does not depend on the order of rows which compare as equal. -/
def TieFree (env : SEnv C K) : Prop :=
  ∀ rows rows' : List (SRow C), rows.Perm rows' → rows.Pairwise (rowLE env) → rows'.Pairwise (rowLE env) → env.dl rows = env.dl rows'

/-- The accepted lengths, newest first, above the initial one: each is strictly below the one before, and the newest is the current length. -/
def Decreasing (init : K) (log : List K) (current : K) : Prop :=
  (log ++ [init]).Pairwise (· < ·) ∧ (log ++ [init]).head? = some current

/-! ## Lemmas -/

theorem rowLE_total (env : SEnv C K) (a b : SRow C) : rowLE env a b ∨ rowLE env b a := by
  unfold rowLE
  omega

theorem rowLE_trans (env : SEnv C K) (a b c : SRow C) (h1 : rowLE env a b) (h2 : rowLE env b c) : rowLE env a c := by
  unfold rowLE at *
  omega

theorem sortRows_perm (env : SEnv C K) (rows : List (SRow C)) : (sortRows env rows).Perm rows := List.perm_insertionSort _ _

theorem sortRows_sorted (env : SEnv C K) (rows : List (SRow C)) : (sortRows env rows).Pairwise (rowLE env) := by
  have : Std.Total (rowLE env) := ⟨rowLE_total env⟩
  have : IsTrans _ (rowLE env) := ⟨rowLE_trans env⟩
  exact List.pairwise_insertionSort (rowLE env) rows

theorem removeRow_ok {env : SEnv C K} {rows rows' : List (SRow C)} {r : SRow C} (h : removeRow env rows r = .ok rows') :
    r ∈ rows ∧ rows'.Perm (rows.erase r) ∧ rows'.Pairwise (rowLE env) := by
  unfold removeRow at h
  split at h
  · rename_i hr
    rw [← Except.ok.inj h]
    exact ⟨hr, sortRows_perm .., sortRows_sorted ..⟩
  · cases h

/-- What holds between statements. -/
structure SInv (env : SEnv C K) (s : SState C K) : Prop where
  sorted : s.rows.Pairwise (rowLE env)
  dec : Decreasing (env.dl []) s.log s.dlen
  dl : TieFree env → s.dlen = env.dl s.rows
  used : s.rows ≠ [] → s.log ≠ []

theorem Decreasing.push {init k d : K} {log : List K} (h : Decreasing init log k) (hd : d < k) : Decreasing init (d :: log) d := by
  refine ⟨?_, rfl⟩
  rw [List.cons_append, List.pairwise_cons]
  refine ⟨?_, h.1⟩
  intro x hx
  obtain ⟨a, t, ht⟩ : ∃ a t, log ++ [init] = a :: t := by
    cases log with
    | nil => exact ⟨_, _, rfl⟩
    | cons a t => exact ⟨_, _, rfl⟩
  have h1 := h.1
  have h2 := h.2
  rw [ht] at hx h1 h2
  have h2 : a = k := by simpa using h2
  subst h2
  rcases List.mem_cons.mp hx with rfl | hx
  · exact hd
  · exact lt_trans hd ((List.pairwise_cons.mp h1).1 x hx)

theorem Decreasing.le {init k : K} {log : List K} (h : Decreasing init log k) : k ≤ init ∧ (log ≠ [] → k < init) := by
  cases log with
  | nil =>
    have := h.2
    simp at this
    exact ⟨le_of_eq this.symm, fun hh => absurd rfl hh⟩
  | cons a t =>
    have h2 := h.2
    simp only [List.cons_append, List.head?_cons, Option.some.injEq] at h2
    subst h2
    have := (List.pairwise_cons.mp h.1).1 init (by simp)
    exact ⟨le_of_lt this, fun _ => this⟩

theorem sInv_end {env : SEnv C K} {s : SState C K} (h : SInv env s) (ht : TieFree env) : SInv env (searchEnd env s) := by
  have : (searchEnd env s).dlen = s.dlen := (h.dl ht).symm
  refine ⟨h.sorted, ?_, fun _ => rfl, h.used⟩
  show Decreasing _ s.log _
  rw [this]; exact h.dec

theorem sInv_prune {env : SEnv C K} (n i : ℕ) (s s' : SState C K) (h : SInv env s) (hr : pruneLoop env n i s = some (.ok s')) : SInv env s' := by
  induction n generalizing i s s' with
  | zero => cases hr
  | succ n ih =>
    rw [pruneLoop] at hr
    split at hr
    · have := Except.ok.inj (Option.some.inj hr)
      rw [← this]; exact h
    · rename_i r hri
      split at hr
      · cases hr
      · rename_i rows hrem
        obtain ⟨hmem, hperm, hsort⟩ := removeRow_ok hrem
        split at hr
        · rename_i hlt
          simp only at hr
          have h3 : SInv env (pruneStart (pruneCands { coverUsage env { s with rows := rows } with
              dlen := env.dl rows, prune := (coverUsage env { s with rows := rows }).prune.erase r, log := env.dl rows :: s.log })) :=
            ⟨hsort, h.dec.push hlt, fun _ => rfl, fun _ => List.cons_ne_nil _ _⟩
          split at hr
          · rename_i s4 h4
            exact ih _ _ _ (ih _ _ _ h3 h4) hr
          · rename_i hx
            exact absurd hr (hx s')
        · simp only at hr
          refine ih _ _ _ ?_ hr
          refine ⟨sortRows_sorted _ _, h.dec, ?_, ?_⟩
          · intro ht
            rw [show _ = s.dlen from rfl, h.dl ht]
            refine ht _ _ ?_ h.sorted (sortRows_sorted ..)
            refine List.Perm.symm ?_
            refine (sortRows_perm env (rows ++ [r])).trans ?_
            refine (hperm.append_right [r]).trans ?_
            refine List.perm_append_comm.trans ?_
            exact (List.perm_cons_erase hmem).symm
          · intro _
            exact h.used (List.ne_nil_of_mem hmem)

theorem erase_addRow {env : SEnv C K} {rows : List (SRow C)} {r : SRow C} {rows' : List (SRow C)} (hr : removeRow env (addRow env rows r) r = .ok rows') : rows'.Perm rows := by
  obtain ⟨_, hp, _⟩ := removeRow_ok hr
  refine hp.trans ?_
  have h1 : (addRow env rows r).Perm (r :: rows) := (sortRows_perm ..).trans List.perm_append_comm
  have h2 := h1.erase r
  rwa [List.erase_cons_head] at h2

theorem sInv_test {env : SEnv C K} (late : ℕ → Bool) (fuel : ℕ) (ht : TieFree env) (cands L : List C) (s s' : SState C K) (b : Bool) (h : SInv env s)
    (hr : testAll env late fuel cands L s = some (.ok (s', b))) : SInv env s' := by
  induction L generalizing s with
  | nil =>
    have := Except.ok.inj (Option.some.inj hr)
    simp only [Prod.mk.injEq] at this
    rw [← this.1]; exact h
  | cons c t ih =>
    rw [testAll] at hr
    split at hr
    · cases hr
    · split at hr
      · have := Except.ok.inj (Option.some.inj hr)
        simp only [Prod.mk.injEq] at this
        rw [← this.1]
        exact sInv_end ⟨h.sorted, h.dec, h.dl, h.used⟩ ht
      · simp only at hr
        split at hr
        · rename_i hlt
          split at hr
          · cases hr
          · cases hr
          · rename_i s3 h3
            have := Except.ok.inj (Option.some.inj hr)
            simp only [Prod.mk.injEq] at this
            rw [← this.1]
            refine sInv_prune _ _ _ _ ?_ h3
            exact ⟨sortRows_sorted _ _, h.dec.push hlt, fun _ => rfl, fun _ => List.cons_ne_nil _ _⟩
        · split at hr
          · cases hr
          · rename_i rows' hrem
            have hperm := erase_addRow hrem
            obtain ⟨_, _, hsort⟩ := removeRow_ok hrem
            have hdl : s.dlen = env.dl rows' := by
              rw [h.dl ht]
              exact ht _ _ hperm.symm h.sorted hsort
            have hused : rows' ≠ [] → s.log ≠ [] := by
              intro hne
              refine h.used ?_
              rintro e
              apply hne
              have h0 : rows'.Perm s.rows := hperm
              rw [e] at h0
              exact h0.eq_nil
            split at hr
            · have := Except.ok.inj (Option.some.inj hr)
              simp only [Prod.mk.injEq] at this
              rw [← this.1]
              exact sInv_end ⟨hsort, h.dec, fun _ => hdl, hused⟩ ht
            · refine ih _ ?_ hr
              exact ⟨hsort, h.dec, fun _ => hdl, hused⟩

theorem sInv_search {env : SEnv C K} (late : ℕ → Bool) (ht : TieFree env) (n : ℕ) (s s' : SState C K) (h : SInv env s) (hr : search env late n s = some (.ok s')) : SInv env s' := by
  induction n generalizing s with
  | zero => cases hr
  | succ n ih =>
    rw [search] at hr
    split at hr
    · rw [← Except.ok.inj (Option.some.inj hr)]; exact h
    · simp only at hr
      split at hr
      · rw [← Except.ok.inj (Option.some.inj hr)]
        exact sInv_end ⟨h.sorted, h.dec, h.dl, h.used⟩ ht
      · split at hr
        · rw [← Except.ok.inj (Option.some.inj hr)]
          exact sInv_end ⟨h.sorted, h.dec, h.dl, h.used⟩ ht
        · split at hr
          · cases hr
          · cases hr
          · rename_i s2 h2
            rw [← Except.ok.inj (Option.some.inj hr)]
            refine sInv_test late n ht _ _ _ _ _ ?_ h2
            exact ⟨h.sorted, h.dec, h.dl, h.used⟩
          · rename_i s2 h2
            refine ih _ (sInv_test late n ht _ _ _ _ _ ?_ h2) hr
            exact ⟨h.sorted, h.dec, h.dl, h.used⟩

/-! ## C46 -/

/-- Full statement: every accepted change strictly decreases the description length, the final length is at most the initial one, and a second fit behaves as a first one. Proved here: whatever the object did before, whatever the
candidates and the clock, when a fit returns, the lengths accepted (with a pattern added or pruned) form a strictly decreasing sequence from the initial length to the reported one; the reported length is the one of the final table; it is
at most the initial length, and strictly below when a pattern is in the table. Missing: the description length is assumed not to depend on the order of rows that compare as equal (`tie_increases`), the fit may raise
(`retest_raises`, `prune_twice_raises`), and refits (`refit_partial`). -/
theorem search_improves_partial (env : SEnv C K) (ht : TieFree env) (late : ℕ → Bool) (fuel : ℕ) (timeout : Bool) (s s' : SState C K) (hr : searchFit env late fuel timeout s = some (.ok s')) :
    Decreasing (env.dl []) s'.log s'.dlen ∧ s'.dlen = env.dl s'.rows ∧ s'.dlen ≤ env.dl [] ∧ (s'.rows ≠ [] → s'.dlen < env.dl []) := by
  have h0 : SInv env (searchInit env timeout s) := by
    refine ⟨List.Pairwise.nil, ⟨?_, rfl⟩, fun _ => rfl, fun h => absurd rfl h⟩
    exact List.pairwise_singleton _ _
  have h := sInv_search late ht fuel _ _ h0 hr
  exact ⟨h.dec, h.dl ht, h.dec.le.1, fun hne => h.dec.le.2 (h.used hne)⟩

/-- Rows with pairwise different keys leave no choice: an environment in which candidates have different sizes is free of ties. -/
theorem tieFree_of_sizes (env : SEnv C K) (hs : ∀ c d, env.size c = env.size d → c = d) (hdl : ∀ rows rows' : List (SRow C), rows.map SRow.cand = rows'.map SRow.cand → env.dl rows = env.dl rows') : TieFree env := by
  intro rows rows' hp h1 h2
  apply hdl
  have hq : (rows.map SRow.cand).Perm (rows'.map SRow.cand) := hp.map _
  let le : C → C → Prop := fun c d => (env.size d).1 < (env.size c).1 ∨ ((env.size d).1 = (env.size c).1 ∧ (env.size d).2 ≤ (env.size c).2)
  have hle : ∀ a b : SRow C, rowLE env a b → le a.cand b.cand := by
    intro a b h
    show _ ∨ _
    unfold rowLE at h
    omega
  have k1 : (rows.map SRow.cand).Pairwise le := List.pairwise_map.mpr (h1.imp (hle _ _))
  have k2 : (rows'.map SRow.cand).Pairwise le := List.pairwise_map.mpr (h2.imp (hle _ _))
  refine List.Perm.eq_of_pairwise ?_ k1 k2 hq
  intro a b _ _ hab hba
  apply hs
  have hab : _ ∨ _ := hab
  have hba : _ ∨ _ := hba
  refine Prod.ext ?_ ?_ <;> omega

/-- A second fit behaves as a fit of a new object when no row was left to prune, and no timeout was set before (or one is set now). -/
theorem refit_partial (env : SEnv C K) (late : ℕ → Bool) (fuel : ℕ) (timeout : Bool) (s : SState C K) (k : K) (hp : s.prune = []) (ht : s.timeout = false ∨ timeout = true) :
    searchFit env late fuel timeout s = searchFit env late fuel timeout (SState.new k) := by
  unfold searchFit
  congr 1
  unfold searchInit
  rw [hp]
  rcases ht with ht | ht
  · rw [ht]; rfl
  · rw [ht]; simp [SState.new]

/-- A generated candidate that equals one tested before raises: the logger is called instead of its method. -/
theorem retest_raises (env : SEnv C K) (late : ℕ → Bool) (n : ℕ) (s : SState C K) (c : C) (t : List C) (hto : s.timeout = false) (hg : env.gen { s with ticks := s.ticks + 1 } = c :: t)
    (hc : ∃ d ∈ s.tested, env.same d c = true) : search env late (n + 1) s = some (.error "TypeError") := by
  have hany : s.tested.any (fun d => env.same d c) = true := List.any_eq_true.mpr hc
  rw [search]
  dsimp only
  rw [if_neg (by simp [hto]), if_neg (by simp [hto]), hg, if_neg (List.cons_ne_nil _ _), testAll, if_pos hany]

/-! ### Witnesses -/

/-- Candidates are numbers, description lengths integers; the length depends on the candidates in the table in their order, the candidates generated on those in the table. -/
def toyEnv (size : ℕ → ℕ × ℕ) (dl : List ℕ → ℕ) (usage : List ℕ → ℕ → ℕ) (gen : List ℕ → List ℕ) : SEnv ℕ ℕ :=
  ⟨size, fun rows => dl (rows.map SRow.cand), fun rows r => usage (rows.map SRow.cand) r.cand, fun s => gen (s.rows.map SRow.cand), fun a b => decide (a = b)⟩

/-- Two patterns are accepted one after the other, then a third is rejected. -/
def goodEnv : SEnv ℕ ℕ := toyEnv (fun c => (c, c)) (fun l => if 3 ∈ l then 50 else 20 - l.length) (fun _ _ => 1) (fun l => if l = [] then [1] else if l = [1] then [2] else [3])

/-- `search_improves_partial` applies to a run that accepts two patterns. -/
example : (searchFit goodEnv (fun _ => false) 10 false (SState.new 0)).map (fun r => r.toOption.map (fun s => (s.rows.map SRow.cand, s.dlen, s.log))) = some (some ([2, 1], 18, [18, 19])) := by
  decide +kernel

example : TieFree goodEnv := by
  refine tieFree_of_sizes goodEnv (fun c d h => ?_) (fun rows rows' h => ?_)
  · exact (Prod.mk.inj h).1
  · show goodEnv.dl rows = goodEnv.dl rows'
    simp only [goodEnv, toyEnv, h]

/-- The second round generates a rejected candidate again: the fit raises. -/
theorem retest_witness : (searchFit (toyEnv (fun c => (c, c)) (fun l => if 1 ∈ l then 50 else 20 - l.length) (fun _ _ => 1) (fun _ => [1, 2])) (fun _ => false) 10 false (SState.new 0)).map (fun r => r.toOption.isSome) = some false := by
  decide +kernel

/-- A run with pruning: pattern 1 is used less once 2 is in the table and is tried for removal. -/
def pruneEnv (dl : List ℕ → ℕ) (gen : List ℕ → List ℕ) : SEnv ℕ ℕ := toyEnv (fun c => (c, c)) dl (fun l c => if c = 1 then 10 - l.length else 1) gen

/-- The row of pattern 1 is put twice in the list of rows to prune (when 2 and when 3 are accepted). Its removal after 3 is accepted succeeds once, then the second copy raises ValueError. -/
theorem prune_twice_raises : (searchFit (pruneEnv (fun l => if l = [] then 100 else if l = [1] then 90 else if l = [2, 1] then 80 else if l = [3, 2, 1] then 70 else if l = [3, 2] then 60 else 95)
      (fun l => if l = [] then [1] else if l = [1] then [2] else if l = [2, 1] then [3] else [])) (fun _ => false) 20 false (SState.new 0)).map (fun r => match r with
        | .error e => e
        | .ok _ => "") = some "ValueError" := by
  decide +kernel

/-- An environment in which pattern 1 is tried for removal and kept. -/
def staleEnv : SEnv ℕ ℕ := pruneEnv (fun l => if l = [] then 100 else if l = [1] then 90 else if l = [2, 1] then 80 else 95) (fun l => if l = [] then [1] else if l = [1] then [2] else [])

/-- A second fit of the same object on the same data raises ValueError although the first succeeds: rows of the first fit are still in the list of rows to prune. -/
theorem refit_raises : ∃ s, searchFit staleEnv (fun _ => false) 20 false (SState.new 0) = some (.ok s) ∧ s.prune ≠ [] ∧
    (searchFit staleEnv (fun _ => false) 20 false s).map (fun r => r.toOption.isSome) = some false := by
  have h : ((searchFit staleEnv (fun _ => false) 20 false (SState.new 0)).bind (fun r => r.toOption)).isSome = true := by decide +kernel
  cases h1 : searchFit staleEnv (fun _ => false) 20 false (SState.new 0) with
  | none => rw [h1] at h; cases h
  | some r => cases r with
    | error e => rw [h1] at h; cases h
    | ok s =>
      have h2 : ((searchFit staleEnv (fun _ => false) 20 false (SState.new 0)).bind (fun r => r.toOption)).map (fun s => decide (s.prune ≠ [])) = some true := by decide +kernel
      have h3 : ((searchFit staleEnv (fun _ => false) 20 false (SState.new 0)).bind (fun r => r.toOption)).bind (fun s => (searchFit staleEnv (fun _ => false) 20 false s).map (fun r => r.toOption.isSome)) = some false := by
        decide +kernel
      rw [h1] at h2 h3
      refine ⟨s, rfl, ?_, h3⟩
      have h2 : some (decide (s.prune ≠ [])) = some true := h2
      simpa using h2

/-- Patterns 1, 2 and 3 have the same size. When 1 is pruned the arrival number 2 is given a second time, to 3; trying to prune 2 and putting it back moves it behind 3. -/
def tieEnv : SEnv ℕ ℕ := toyEnv (fun _ => (1, 1)) (fun l => if l = [] then 100 else if l = [1] then 90 else if l = [1, 2] then 80 else if l = [2] then 70 else if l = [2, 3] then 60 else if l = [3] then 65 else 200)
  (fun l c => if c = 3 then 1 else 10 - l.length) (fun l => if l = [] then [1] else if l = [1] then [2] else if l = [2] then [3] else [])

/-- With rows that compare as equal the final description length can be above the initial one: every accepted change is an improvement, but a rejected pruning changes the order of the table. -/
theorem tie_increases : tieEnv.dl [] = 100 ∧
    (searchFit tieEnv (fun _ => false) 20 false (SState.new 0)).map (fun r => r.toOption.map (fun s => (s.rows.map SRow.cand, s.dlen, s.log))) = some (some ([3, 2], 200, [60, 70, 80, 90])) := by
  exact ⟨rfl, by decide +kernel⟩

/-- A timeout given to a first fit also ends a second fit for which none is given. -/
theorem timeout_persists (env : SEnv C K) (late : ℕ → Bool) (fuel : ℕ) (s : SState C K) (h : s.timeout = true) : searchFit env late fuel false s = searchFit env late fuel true s := by
  unfold searchFit searchInit
  rw [h]; rfl

end Verif.Graph
