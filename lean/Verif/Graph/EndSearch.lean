import Verif.Graph.SearchProps
import Mathlib.Data.Finset.Card
import Mathlib.Data.Finset.Filter

/-!
# The search of GraphMDL ends: lemmas on the search
-/

set_option autoImplicit false
set_option linter.unusedSectionVars false

namespace Verif.Graph

variable {C K κ : Type} [DecidableEq C] [LinearOrder K] [DecidableEq κ]

/-- What makes the search end: candidates with the same key are equal, all rows keep a property, the tables whose rows have it have finitely many lengths, and tables with a bounded number of rows give candidates with finitely many
keys. -/
structure Narrow {κ : Type} (env : SEnv C K) (key : C → κ) (P : C → Prop) (D : Finset K) : Prop where
  same : ∀ c d, key c = key d → env.same c d = true
  gen : ∀ s : SState C K, (∀ r ∈ s.rows, P r.cand) → ∀ c ∈ env.gen s, P c
  dl : ∀ rows : List (SRow C), (∀ r ∈ rows, P r.cand) → env.dl rows ∈ D
  keys : ∀ m : ℕ, ∃ U : List κ, ∀ s : SState C K, (∀ r ∈ s.rows, P r.cand) → s.rows.length ≤ m → ∀ c ∈ env.gen s, key c ∈ U

/-- The lengths below a given one. -/
def below (D : Finset K) (k : K) : ℕ := (D.filter (fun x => x < k)).card

theorem below_lt {D : Finset K} {a b : K} (ha : a ∈ D) (h : a < b) : below D a < below D b := by
  refine Finset.card_lt_card ⟨?_, ?_⟩
  · intro x hx
    rw [Finset.mem_filter] at hx ⊢
    exact ⟨hx.1, lt_trans hx.2 h⟩
  · intro hs
    have := hs (Finset.mem_filter.mpr ⟨ha, h⟩)
    exact lt_irrefl _ (Finset.mem_filter.mp this).2

theorem below_le {D : Finset K} {a b : K} (h : a ≤ b) : below D a ≤ below D b := by
  refine Finset.card_le_card ?_
  intro x hx
  rw [Finset.mem_filter] at hx ⊢
  exact ⟨hx.1, lt_of_lt_of_le hx.2 h⟩

/-- What holds between statements: the rows have the property, there are no more rows than lengths given up, and the length is one of the possible ones. -/
structure NInv (P : C → Prop) (D : Finset K) (s : SState C K) : Prop where
  rows : ∀ r ∈ s.rows, P r.cand
  few : s.rows.length + below D s.dlen ≤ D.card
  dlen : s.dlen ∈ D

theorem NInv.length_le {P : C → Prop} {D : Finset K} {s : SState C K} (h : NInv P D s) : s.rows.length ≤ D.card := le_trans (Nat.le_add_right _ _) h.few

theorem addRow_perm (env : SEnv C K) (rows : List (SRow C)) (r : SRow C) : (addRow env rows r).Perm (r :: rows) :=
  (sortRows_perm ..).trans List.perm_append_comm

theorem removeRow_facts {env : SEnv C K} {rows rows' : List (SRow C)} {r : SRow C} (h : removeRow env rows r = .ok rows') :
    r ∈ rows ∧ (∀ x ∈ rows', x ∈ rows) ∧ rows'.length + 1 = rows.length ∧ (addRow env rows' r).Perm rows := by
  obtain ⟨hm, hp, _⟩ := removeRow_ok h
  refine ⟨hm, fun x hx => List.mem_of_mem_erase (hp.mem_iff.mp hx), ?_, ?_⟩
  · rw [hp.length_eq, List.length_erase_of_mem hm]
    have := List.length_pos_of_mem hm
    omega
  · exact (addRow_perm ..).trans ((hp.cons r).trans (List.perm_cons_erase hm).symm)

/-! ## Pruning -/

/-- The state after a row was taken out for good. -/
def pruned (env : SEnv C K) (s : SState C K) (rows : List (SRow C)) (r : SRow C) : SState C K :=
  pruneStart (pruneCands { coverUsage env { s with rows := rows } with dlen := env.dl rows, prune := (coverUsage env { s with rows := rows }).prune.erase r, log := env.dl rows :: s.log })

/-- The state after a row was put back. -/
def restored (env : SEnv C K) (s : SState C K) (rows : List (SRow C)) (r : SRow C) : SState C K :=
  { coverUsage env { s with rows := rows } with rows := addRow env rows r }

theorem pruneLoop_succ (env : SEnv C K) (n i : ℕ) (s : SState C K) : pruneLoop env (n + 1) i s = match s.prune[i]? with
    | none => some (.ok s)
    | some r => match removeRow env s.rows r with
      | .error e => some (.error e)
      | .ok rows => if env.dl rows < s.dlen then (match pruneLoop env n 0 (pruned env s rows r) with
          | some (.ok s4) => pruneLoop env n (i + 1) s4
          | x => x)
        else pruneLoop env n (i + 1) (restored env s rows r) := rfl

theorem pruneLoop_mono (env : SEnv C K) (n k i : ℕ) (s : SState C K) (x : Except String (SState C K)) (h : pruneLoop env n i s = some x) : pruneLoop env (n + k) i s = some x := by
  induction n generalizing i s x with
  | zero => cases h
  | succ n ih =>
    rw [show n + 1 + k = (n + k) + 1 by omega, pruneLoop_succ]
    rw [pruneLoop_succ] at h
    cases hi : s.prune[i]? with
    | none => rw [hi] at h; exact h
    | some r =>
      rw [hi] at h
      cases hrem : removeRow env s.rows r with
      | error e => simp only [hrem] at h ⊢; exact h
      | ok rows =>
        simp only [hrem] at h ⊢
        by_cases hlt : env.dl rows < s.dlen
        · simp only [hlt, if_true] at h ⊢
          cases hp : pruneLoop env n 0 (pruned env s rows r) with
          | none => rw [hp] at h; cases h
          | some y =>
            rw [ih _ _ _ hp]
            rw [hp] at h
            cases y with
            | error e => exact h
            | ok s4 => exact ih _ _ _ h
        · simp only [hlt, if_false] at h ⊢
          exact ih _ _ _ h

theorem nInv_pruned {env : SEnv C K} {key : C → κ} {P : C → Prop} {D : Finset K} (hn : Narrow env key P D) {s : SState C K} {rows : List (SRow C)} {r : SRow C} (h : NInv P D s)
    (hrem : removeRow env s.rows r = .ok rows) (hlt : env.dl rows < s.dlen) : NInv P D (pruned env s rows r) := by
  obtain ⟨_, hsub, hlen, _⟩ := removeRow_facts hrem
  have hP : ∀ x ∈ rows, P x.cand := fun x hx => h.rows x (hsub x hx)
  refine ⟨hP, ?_, hn.dl rows hP⟩
  show rows.length + below D (env.dl rows) ≤ D.card
  have := below_lt (hn.dl rows hP) hlt
  have := h.few
  omega

theorem nInv_restored {env : SEnv C K} {P : C → Prop} {D : Finset K} {s : SState C K} {rows : List (SRow C)} {r : SRow C} (h : NInv P D s)
    (hrem : removeRow env s.rows r = .ok rows) : NInv P D (restored env s rows r) := by
  obtain ⟨_, _, _, hperm⟩ := removeRow_facts hrem
  refine ⟨fun x hx => h.rows x (hperm.mem_iff.mp hx), ?_, h.dlen⟩
  show (addRow env rows r).length + below D s.dlen ≤ D.card
  rw [hperm.length_eq]
  exact h.few

theorem prune_keeps {env : SEnv C K} {key : C → κ} {P : C → Prop} {D : Finset K} (hn : Narrow env key P D) (n i : ℕ) (s s' : SState C K) (h : NInv P D s) (hr : pruneLoop env n i s = some (.ok s')) :
    NInv P D s' ∧ s'.dlen ≤ s.dlen := by
  induction n generalizing i s s' with
  | zero => cases hr
  | succ n ih =>
    rw [pruneLoop_succ] at hr
    cases hi : s.prune[i]? with
    | none =>
      rw [hi] at hr
      rw [← Except.ok.inj (Option.some.inj hr)]
      exact ⟨h, le_refl _⟩
    | some r =>
      rw [hi] at hr
      cases hrem : removeRow env s.rows r with
      | error e => simp only [hrem] at hr; cases hr
      | ok rows =>
        simp only [hrem] at hr
        by_cases hlt : env.dl rows < s.dlen
        · simp only [hlt, if_true] at hr
          cases hp : pruneLoop env n 0 (pruned env s rows r) with
          | none => rw [hp] at hr; cases hr
          | some y =>
            rw [hp] at hr
            cases y with
            | error e => cases hr
            | ok s4 =>
              have h4 := ih _ _ _ (nInv_pruned hn h hrem hlt) hp
              have h5 := ih _ _ _ h4.1 hr
              refine ⟨h5.1, le_trans h5.2 (le_trans h4.2 (le_of_lt ?_))⟩
              exact hlt
        · simp only [hlt, if_false] at hr
          have h5 := ih _ _ _ (nInv_restored h hrem) hr
          exact ⟨h5.1, h5.2⟩

theorem prune_ends {env : SEnv C K} {key : C → κ} {P : C → Prop} {D : Finset K} (hn : Narrow env key P D) (b m : ℕ) (i : ℕ) (s : SState C K) (h : NInv P D s) (hb : below D s.dlen = b)
    (hm : s.prune.length - i = m) : ∃ n x, pruneLoop env n i s = some x := by
  induction b using Nat.strong_induction_on generalizing m i s with
  | _ b ihb =>
    induction m generalizing i s with
    | zero =>
      refine ⟨1, .ok s, ?_⟩
      rw [pruneLoop_succ, List.getElem?_eq_none (by omega)]
    | succ m ihm =>
      cases hi : s.prune[i]? with
      | none => exact ⟨1, .ok s, by rw [pruneLoop_succ, hi]⟩
      | some r =>
        cases hrem : removeRow env s.rows r with
        | error e => exact ⟨1, .error e, by rw [pruneLoop_succ, hi]; simp only [hrem]⟩
        | ok rows =>
          by_cases hlt : env.dl rows < s.dlen
          · have hsub := (removeRow_facts hrem).2.1
            have hb' := below_lt (hn.dl rows (fun x hx => h.rows x (hsub x hx))) hlt
            have hI := nInv_pruned hn h hrem hlt
            obtain ⟨n1, x, hx⟩ := ihb _ (hb ▸ hb') _ 0 (pruned env s rows r) hI rfl rfl
            cases x with
            | error e =>
              refine ⟨n1 + 1, .error e, ?_⟩
              rw [pruneLoop_succ, hi]
              simp only [hrem, hlt, if_true, hx]
            | ok s4 =>
              have h4 := prune_keeps hn _ _ _ _ hI hx
              have hb4 : below D s4.dlen < b := by
                refine lt_of_le_of_lt (below_le h4.2) ?_
                rw [← hb]
                exact hb'
              obtain ⟨n2, y, hy⟩ := ihb _ hb4 _ (i + 1) s4 h4.1 rfl rfl
              refine ⟨n1 + n2 + 1, y, ?_⟩
              rw [pruneLoop_succ, hi]
              simp only [hrem, hlt, if_true, pruneLoop_mono _ _ n2 _ _ _ hx]
              rw [Nat.add_comm n1 n2]
              exact pruneLoop_mono _ _ n1 _ _ _ hy
          · have hlen : (restored env s rows r).prune.length - (i + 1) = m := by
              show s.prune.length - (i + 1) = m
              omega
            obtain ⟨n, x, hx⟩ := ihm (i + 1) (restored env s rows r) (nInv_restored h hrem) hb hlen
            refine ⟨n + 1, x, ?_⟩
            rw [pruneLoop_succ, hi]
            simp only [hrem, hlt, if_false]
            exact hx

/-! ## The candidates of one round -/

/-- The state after a candidate was tried. -/
def tried (env : SEnv C K) (s : SState C K) (c : C) : SState C K :=
  let s1 := { oldUsage s with ticks := s.ticks + 1 }
  { coverUsage env { s1 with rows := addRow env s1.rows ⟨c, newUid s1, s1.rows.length + 1⟩ } with tested := s1.tested ++ [c] }

/-- The row made for a candidate. -/
def triedRow (s : SState C K) (c : C) : SRow C := ⟨c, newUid { oldUsage s with ticks := s.ticks + 1 }, s.rows.length + 1⟩

/-- The start of the pruning after a candidate was kept. -/
def kept (env : SEnv C K) (s : SState C K) (c : C) : SState C K :=
  pruneStart (pruneCands { tried env s c with dlen := env.dl (addRow env s.rows (triedRow s c)), log := env.dl (addRow env s.rows (triedRow s c)) :: s.log })

theorem testAll_cons (env : SEnv C K) (late : ℕ → Bool) (fuel : ℕ) (cands t : List C) (c : C) (s : SState C K) : testAll env late fuel cands (c :: t) s =
    if s.tested.any (fun d => env.same d c) then some (.error "TypeError")
    else if s.timeout && late s.ticks then some (.ok (searchEnd env { s with ticks := s.ticks + 1 }, false))
    else if env.dl (addRow env s.rows (triedRow s c)) < s.dlen then
        match pruneLoop env fuel 0 (kept env s c) with
        | none => none
        | some (.error e) => some (.error e)
        | some (.ok s3) => some (.ok (s3, false))
      else match removeRow env (addRow env s.rows (triedRow s c)) (triedRow s c) with
        | .error e => some (.error e)
        | .ok rows' =>
          if s.dlen < env.dl (addRow env s.rows (triedRow s c)) ∧ cands.findIdx (fun d => env.same d c) = cands.length - 1 then some (.ok (searchEnd env { tried env s c with rows := rows' }, true))
          else testAll env late fuel cands t { tried env s c with rows := rows' } := rfl

theorem testAll_mono (env : SEnv C K) (late : ℕ → Bool) (n k : ℕ) (cands L : List C) (s : SState C K) (x : Except String (SState C K × Bool)) (h : testAll env late n cands L s = some x) :
    testAll env late (n + k) cands L s = some x := by
  induction L generalizing s with
  | nil => exact h
  | cons c t ih =>
    rw [testAll_cons] at h ⊢
    by_cases h1 : s.tested.any (fun d => env.same d c) = true
    · simp only [h1, if_true] at h ⊢; exact h
    · simp only [h1] at h ⊢
      by_cases h2 : (s.timeout && late s.ticks) = true
      · simp only [h2, if_true] at h ⊢; exact h
      · simp only [h2] at h ⊢
        by_cases h3 : env.dl (addRow env s.rows (triedRow s c)) < s.dlen
        · simp only [h3, if_true] at h ⊢
          cases hp : pruneLoop env n 0 (kept env s c) with
          | none => rw [hp] at h; simp at h
          | some y =>
            rw [pruneLoop_mono _ _ _ _ _ _ hp]
            rw [hp] at h
            exact h
        · simp only [h3, if_false] at h ⊢
          cases hrem : removeRow env (addRow env s.rows (triedRow s c)) (triedRow s c) with
          | error e => simp only [hrem] at h ⊢; exact h
          | ok rows' =>
            simp only [hrem] at h ⊢
            by_cases h4 : s.dlen < env.dl (addRow env s.rows (triedRow s c)) ∧ cands.findIdx (fun d => env.same d c) = cands.length - 1
            · rw [if_pos h4] at h ⊢; exact h
            · rw [if_neg h4] at h ⊢; exact ih _ h

/-- The keys of a list not tested yet. -/
def untested (key : C → κ) (U : List κ) (s : SState C K) : ℕ := U.countP (fun u => !decide (u ∈ s.tested.map key))

theorem untested_lt {env : SEnv C K} {key : C → κ} {P : C → Prop} {D : Finset K} (hn : Narrow env key P D) {U : List κ} {s s' : SState C K} {c : C} (hu : key c ∈ U)
    (hnew : ¬s.tested.any (fun d => env.same d c) = true) (ht : s'.tested = s.tested ++ [c]) : untested key U s' < untested key U s := by
  have himp : ∀ x : κ, (!decide (x ∈ s'.tested.map key)) = true → (!decide (x ∈ s.tested.map key)) = true := by
    intro x hx
    rw [Bool.not_eq_true', decide_eq_false_iff_not] at hx ⊢
    intro h
    apply hx
    rw [ht, List.map_append]
    exact List.mem_append_left _ h
  have hu1 : (!decide (key c ∈ s.tested.map key)) = true := by
    rw [Bool.not_eq_true', decide_eq_false_iff_not]
    intro h
    obtain ⟨d, hd, he⟩ := List.mem_map.mp h
    exact hnew (List.any_eq_true.mpr ⟨d, hd, hn.same d c he⟩)
  have hu2 : ¬(!decide (key c ∈ s'.tested.map key)) = true := by
    rw [ht]
    simp
  unfold untested
  obtain ⟨u, hk⟩ : ∃ u, key c = u := ⟨_, rfl⟩
  rw [hk] at hu hu1 hu2
  induction U with
  | nil => cases hu
  | cons a t ih =>
    rcases List.mem_cons.mp hu with rfl | hu
    · rw [List.countP_cons_of_neg (p := fun u => !decide (u ∈ s'.tested.map key)) hu2, List.countP_cons_of_pos (p := fun u => !decide (u ∈ s.tested.map key)) hu1]
      have : t.countP (fun u => !decide (u ∈ s'.tested.map key)) ≤ t.countP (fun u => !decide (u ∈ s.tested.map key)) := List.countP_mono_left (fun x _ => himp x)
      omega
    · have := ih hu
      rw [List.countP_cons, List.countP_cons]
      by_cases ha : (!decide (a ∈ s'.tested.map key)) = true
      · rw [if_pos ha, if_pos (himp a ha)]; omega
      · rw [if_neg ha]; omega

/-- What a round that does not stop the search leaves: the time is over, or the length is lower, or the length is the same and candidates were tested. -/
structure Progress (key : C → κ) (P : C → Prop) (D : Finset K) (late : ℕ → Bool) (U : List κ) (s s' : SState C K) : Prop where
  cases : (s'.timeout = true ∧ 0 < s'.ticks ∧ late (s'.ticks - 1) = true) ∨ (NInv P D s' ∧ (s'.dlen < s.dlen ∨ (s'.dlen = s.dlen ∧ untested key U s' < untested key U s)))

theorem nInv_kept {env : SEnv C K} {key : C → κ} {P : C → Prop} {D : Finset K} (hn : Narrow env key P D) {s : SState C K} {c : C} (h : NInv P D s) (hc : P c) (hlt : env.dl (addRow env s.rows (triedRow s c)) < s.dlen) :
    NInv P D (kept env s c) := by
  have hP : ∀ x ∈ addRow env s.rows (triedRow s c), P x.cand := by
    intro x hx
    rcases List.mem_cons.mp ((addRow_perm env s.rows (triedRow s c)).mem_iff.mp hx) with rfl | hx
    · exact hc
    · exact h.rows x hx
  refine ⟨hP, ?_, hn.dl _ hP⟩
  show (addRow env s.rows (triedRow s c)).length + below D (env.dl (addRow env s.rows (triedRow s c))) ≤ D.card
  have := below_lt (hn.dl _ hP) hlt
  have := h.few
  have := (addRow_perm env s.rows (triedRow s c)).length_eq
  rw [List.length_cons] at this
  omega

theorem nInv_rejected {env : SEnv C K} {P : C → Prop} {D : Finset K} {s : SState C K} {c : C} (h : NInv P D s) {rows' : List (SRow C)}
    (hrem : removeRow env (addRow env s.rows (triedRow s c)) (triedRow s c) = .ok rows') : NInv P D { tried env s c with rows := rows' } := by
  have hp : rows'.Perm s.rows := erase_addRow hrem
  refine ⟨fun x hx => h.rows x (hp.mem_iff.mp hx), ?_, h.dlen⟩
  show rows'.length + below D s.dlen ≤ D.card
  rw [hp.length_eq]
  exact h.few

theorem test_ends {env : SEnv C K} {key : C → κ} {P : C → Prop} {D : Finset K} (hn : Narrow env key P D) (late : ℕ → Bool) (cands L : List C) (U : List κ) (s : SState C K) (h : NInv P D s)
    (hL : ∀ c ∈ L, P c ∧ key c ∈ U) :
    ∃ n x, testAll env late n cands L s = some x ∧ (∀ s', x = .ok (s', false) → L ≠ [] → Progress key P D late U s s') := by
  induction L generalizing s with
  | nil => exact ⟨0, _, rfl, fun s' _ hne => absurd rfl hne⟩
  | cons c t ih =>
    obtain ⟨hPc, hu⟩ := hL c List.mem_cons_self
    by_cases h1 : s.tested.any (fun d => env.same d c) = true
    · refine ⟨0, .error "TypeError", by rw [testAll_cons, if_pos h1], ?_⟩
      intro s' hx; cases hx
    · by_cases h2 : (s.timeout && late s.ticks) = true
      · refine ⟨0, .ok (searchEnd env { s with ticks := s.ticks + 1 }, false), by rw [testAll_cons, if_neg h1, if_pos h2], ?_⟩
        intro s' hx _
        have hx := (Prod.mk.inj (Except.ok.inj hx)).1
        rw [Bool.and_eq_true] at h2
        refine ⟨Or.inl ?_⟩
        rw [← hx]
        exact ⟨h2.1, Nat.succ_pos _, h2.2⟩
      · by_cases h3 : env.dl (addRow env s.rows (triedRow s c)) < s.dlen
        · obtain ⟨n, x, hx⟩ := prune_ends hn _ _ 0 (kept env s c) (nInv_kept hn h hPc h3) rfl rfl
          cases x with
          | error e =>
            refine ⟨n, .error e, by rw [testAll_cons, if_neg h1, if_neg h2, if_pos h3, hx], ?_⟩
            intro s' hx; cases hx
          | ok s3 =>
            refine ⟨n, .ok (s3, false), by rw [testAll_cons, if_neg h1, if_neg h2, if_pos h3, hx], ?_⟩
            intro s' hx' _
            have hx' := (Prod.mk.inj (Except.ok.inj hx')).1
            rw [← hx']
            have h4 := prune_keeps hn _ _ _ _ (nInv_kept hn h hPc h3) hx
            exact ⟨Or.inr ⟨h4.1, Or.inl (lt_of_le_of_lt h4.2 h3)⟩⟩
        · cases hrem : removeRow env (addRow env s.rows (triedRow s c)) (triedRow s c) with
          | error e =>
            refine ⟨0, .error e, by rw [testAll_cons, if_neg h1, if_neg h2, if_neg h3]; simp only [hrem], ?_⟩
            intro s' hx; cases hx
          | ok rows' =>
            by_cases h4 : s.dlen < env.dl (addRow env s.rows (triedRow s c)) ∧ cands.findIdx (fun d => env.same d c) = cands.length - 1
            · refine ⟨0, .ok (searchEnd env { tried env s c with rows := rows' }, true), by rw [testAll_cons, if_neg h1, if_neg h2, if_neg h3]; simp only [hrem]; rw [if_pos h4], ?_⟩
              intro s' hx; simp at hx
            · have hI := nInv_rejected h hrem
              obtain ⟨n, x, hx, hprog⟩ := ih { tried env s c with rows := rows' } hI (fun d hd => hL d (List.mem_cons_of_mem _ hd))
              refine ⟨n, x, by rw [testAll_cons, if_neg h1, if_neg h2, if_neg h3]; simp only [hrem]; rw [if_neg h4]; exact hx, ?_⟩
              intro s' hx' _
              have hlt : untested key U { tried env s c with rows := rows' } < untested key U s := untested_lt hn hu h1 rfl
              by_cases ht : t = []
              · subst ht
                have := hx.symm.trans (show testAll env late n cands [] { tried env s c with rows := rows' } = some (.ok (_, false)) from rfl)
                rw [hx'] at this
                have := (Prod.mk.inj (Except.ok.inj (Option.some.inj this))).1
                rw [this]
                exact ⟨Or.inr ⟨hI, Or.inr ⟨rfl, hlt⟩⟩⟩
              · rcases (hprog s' hx' ht).cases with hl | ⟨hl1, hl2⟩
                · exact ⟨Or.inl hl⟩
                · refine ⟨Or.inr ⟨hl1, ?_⟩⟩
                  rcases hl2 with hl2 | ⟨hl2, hl3⟩
                  · exact Or.inl hl2
                  · exact Or.inr ⟨hl2, lt_trans hl3 hlt⟩

/-! ## The search -/

theorem search_mono (env : SEnv C K) (late : ℕ → Bool) (n k : ℕ) (s : SState C K) (x : Except String (SState C K)) (h : search env late n s = some x) : search env late (n + k) s = some x := by
  induction n generalizing s with
  | zero => cases h
  | succ n ih =>
    rw [show n + 1 + k = (n + k) + 1 by omega]
    rw [search] at h ⊢
    by_cases h1 : (s.timeout && late s.ticks) = true
    · rw [if_pos h1] at h ⊢; exact h
    · rw [if_neg h1] at h ⊢
      simp only at h ⊢
      by_cases h2 : (s.timeout && late (s.ticks + 1)) = true
      · rw [if_pos h2] at h ⊢; exact h
      · rw [if_neg h2] at h ⊢
        by_cases h3 : env.gen { s with ticks := s.ticks + 1 } = []
        · rw [if_pos h3] at h ⊢; exact h
        · rw [if_neg h3] at h ⊢
          cases hT : testAll env late n (env.gen { s with ticks := s.ticks + 1 }) (env.gen { s with ticks := s.ticks + 1 }) { s with ticks := s.ticks + 1 + 1 } with
          | none => rw [hT] at h; cases h
          | some y =>
            rw [testAll_mono _ _ _ _ _ _ _ _ hT]
            rw [hT] at h
            rcases y with e | ⟨s2, b⟩
            · exact h
            · cases b with
              | true => exact h
              | false => exact ih _ h

/-- A reading of the clock past the timeout is followed by another one at the latest after one more reading. (`current > timeout` is tested once and `current >= timeout` elsewhere, `graph_mdl.py:102, 177`.) -/
def Forward (late : ℕ → Bool) : Prop := ∀ k, late k = true → late (k + 1) = true ∨ late (k + 2) = true

theorem search_ends {env : SEnv C K} {key : C → κ} {P : C → Prop} {D : Finset K} (hn : Narrow env key P D) (late : ℕ → Bool) (hlate : Forward late) (s : SState C K) (h : NInv P D s) :
    ∃ n x, search env late n s = some x := by
  obtain ⟨U, hU⟩ := hn.keys D.card
  obtain ⟨b, hb⟩ : ∃ b, below D s.dlen = b := ⟨_, rfl⟩
  obtain ⟨m, hm⟩ : ∃ m, untested key U s = m := ⟨_, rfl⟩
  induction b using Nat.strong_induction_on generalizing m s with
  | _ b ihb =>
    induction m using Nat.strong_induction_on generalizing s with
    | _ m ihm =>
      by_cases h1 : (s.timeout && late s.ticks) = true
      · exact ⟨1, .ok s, by rw [search, if_pos h1]⟩
      · by_cases h2 : (s.timeout && late (s.ticks + 1)) = true
        · exact ⟨1, .ok (searchEnd env { s with ticks := s.ticks + 1 }), by rw [search, if_neg h1]; simp only; rw [if_pos h2]⟩
        · by_cases h3 : env.gen { s with ticks := s.ticks + 1 } = []
          · exact ⟨1, .ok (searchEnd env { s with ticks := s.ticks + 1 }), by rw [search, if_neg h1]; simp only; rw [if_neg h2, if_pos h3]⟩
          · obtain ⟨n, x, hx, hprog⟩ := test_ends hn late (env.gen { s with ticks := s.ticks + 1 }) (env.gen { s with ticks := s.ticks + 1 }) U { s with ticks := s.ticks + 1 + 1 } ⟨h.rows, h.few, h.dlen⟩
              (fun c hc => ⟨hn.gen { s with ticks := s.ticks + 1 } h.rows c hc, hU { s with ticks := s.ticks + 1 } h.rows h.length_le c hc⟩)
            rcases x with e | ⟨s2, b2⟩
            · exact ⟨n + 1, .error e, by rw [search, if_neg h1]; simp only; rw [if_neg h2, if_neg h3, hx]⟩
            · cases b2 with
              | true => exact ⟨n + 1, .ok s2, by rw [search, if_neg h1]; simp only; rw [if_neg h2, if_neg h3, hx]⟩
              | false =>
                have hnext : ∃ k y, search env late k s2 = some y := by
                  rcases (hprog s2 rfl h3).cases with ⟨ht, h0, hl⟩ | ⟨hI, hl | ⟨hl1, hl2⟩⟩
                  · rcases hlate _ hl with hl | hl
                    · rw [Nat.sub_add_cancel h0] at hl
                      exact ⟨1, .ok s2, by rw [search, ht, hl]; rfl⟩
                    · rw [show s2.ticks - 1 + 2 = s2.ticks + 1 by omega] at hl
                      by_cases h5 : late s2.ticks = true
                      · exact ⟨1, .ok s2, by rw [search, ht, h5]; rfl⟩
                      · refine ⟨1, .ok (searchEnd env { s2 with ticks := s2.ticks + 1 }), ?_⟩
                        rw [search, if_neg (by simp [h5])]
                        simp only
                        rw [if_pos (by simp [ht, hl])]
                  · exact ihb _ (hb ▸ below_lt hI.dlen hl) s2 hI rfl _ rfl
                  · refine ihm _ ?_ s2 hI ?_ rfl
                    · rw [← hm]; exact hl2
                    · rw [hl1]; exact hb
                obtain ⟨k, y, hy⟩ := hnext
                refine ⟨n + k + 1, y, ?_⟩
                rw [search, if_neg h1]
                simp only
                rw [if_neg h2, if_neg h3, testAll_mono _ _ _ k _ _ _ _ hx]
                simp only
                rw [Nat.add_comm n k]
                exact search_mono _ _ _ _ _ _ hy

end Verif.Graph
