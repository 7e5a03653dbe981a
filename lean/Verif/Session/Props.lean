import Verif.Session.Spec
import Verif.Miner.Lemmas

/-!
# What a miner answers depends on its last fit or import (C107)

Source: `/repo/skmine/periodic/cycles.py:84-480`.
-/

set_option autoImplicit false
set_option linter.unusedSectionVars false

namespace Verif.Session

open Verif.Export Verif.DataSeq Verif.Miner Verif.TimeScale

variable {ε R : Type} [LinearOrder ε]

/-! ### Queries -/

theorem transform_same (L : Lib ε R) (o : Obj ε) (s c : Bool) : ∃ cy, (o.transform L s c).1 = { o with cycles := cy } := by
  unfold Obj.transform
  split
  · exact ⟨o.cycles, rfl⟩
  · split
    · split_ifs
      · exact ⟨o.cycles, rfl⟩
      · exact ⟨_, rfl⟩
      · exact ⟨_, rfl⟩
    · exact ⟨o.cycles, rfl⟩

theorem export_state (L : Lib ε R) (o : Obj ε) : (o.exportFile L).1 = (o.transform L true true).1 := by
  unfold Obj.exportFile
  rcases o.transform L true true with ⟨o1, e | x⟩
  · rfl
  · dsimp only
    split <;> rfl

theorem query_same (L : Lib ε R) (o : Obj ε) (q : Op ε) (hq : q.isQuery) : ∃ cy, (step L o q).1 = { o with cycles := cy } := by
  cases q with
  | setParams a c => exact hq.elim
  | fit b rows => exact hq.elim
  | importFile f => exact hq.elim
  | transform s c => exact transform_same L o s c
  | exportFile =>
    obtain ⟨cy, h⟩ := transform_same L o true true
    exact ⟨cy, by rw [step, export_state, h]⟩
  | reconstruct ids => exact ⟨o.cycles, rfl⟩
  | residuals ids => exact ⟨o.cycles, rfl⟩
  | draw i => exact ⟨o.cycles, rfl⟩

theorem queries_same (L : Lib ε R) (t : List (Op ε)) : ∀ o : Obj ε, (∀ q ∈ t, q.isQuery) → ∃ cy, run L o t = { o with cycles := cy } := by
  induction t with
  | nil => exact fun o _ => ⟨o.cycles, rfl⟩
  | cons q t ih =>
    intro o hq
    obtain ⟨cy, h⟩ := query_same L o q (hq q (by simp))
    obtain ⟨cy', h'⟩ := ih { o with cycles := cy } (fun q' hq' => hq q' (by simp [hq']))
    refine ⟨cy', ?_⟩
    rw [run, List.foldl_cons, h]
    exact h'

theorem run_append (L : Lib ε R) (o : Obj ε) (h t : List (Op ε)) : run L o (h ++ t) = run L (run L o h) t := by
  rw [run, List.foldl_append]; rfl

theorem run_cons (L : Lib ε R) (o : Obj ε) (s : Op ε) (t : List (Op ε)) : run L o (s :: t) = run L (step L o s).1 t := rfl

/-- C107, parameters: only `set_params` changes them; the miner works with those of the last `set_params`. -/
theorem params_last (L : Lib ε R) (h : List (Op ε)) : ∀ o : Obj ε, ((run L o h).auto, (run L o h).complex) = paramsAfter (o.auto, o.complex) h := by
  induction h with
  | nil => exact fun o => rfl
  | cons s t ih =>
    intro o
    rw [run, List.foldl_cons]
    change ((run L (step L o s).1 t).auto, (run L (step L o s).1 t).complex) = _
    rw [ih]
    have q : ∀ s : Op ε, s.isQuery → (step L o s).1.auto = o.auto ∧ (step L o s).1.complex = o.complex := by
      intro s hs
      obtain ⟨cy, h⟩ := query_same L o s hs
      rw [h]
      exact ⟨rfl, rfl⟩
    cases s with
    | setParams a c => rfl
    | fit b rows =>
      have : (o.fit L b rows).1.auto = o.auto ∧ (o.fit L b rows).1.complex = o.complex := by
        unfold Obj.fit
        by_cases hl : rows.length < 2
        · rw [if_pos hl]; exact ⟨rfl, rfl⟩
        · rw [if_neg hl]
          dsimp only
          split <;> exact ⟨rfl, rfl⟩
      simp only [step, this, paramsAfter]
    | importFile f =>
      have : (o.importFile f).1.auto = o.auto ∧ (o.importFile f).1.complex = o.complex := by
        unfold Obj.importFile
        dsimp only
        split <;> exact ⟨rfl, rfl⟩
      simp only [step, this, paramsAfter]
    | transform s c => rw [(q (.transform s c) trivial).1, (q (.transform s c) trivial).2]; rfl
    | exportFile => rw [(q .exportFile trivial).1, (q .exportFile trivial).2]; rfl
    | reconstruct ids => rfl
    | residuals ids => rfl
    | draw i => rfl

/-- C107, before the miner has patterns (no fit of two rows or more and no import that could be read), every question raises. -/
theorem nothing_loaded (L : Lib ε R) (a c : Bool) (h : List (Op ε)) (hn : ∀ s ∈ h, ¬ s.Loads) (sums chrono : Bool) (ids : List ℕ) (i : ℕ) :
    answer L (Obj.new a c) h (.transform sums chrono) = .raised "NotFittedError" ∧ answer L (Obj.new a c) h .exportFile = .raised "NotFittedError" ∧ answer L (Obj.new a c) h (.reconstruct ids) = .raised "AttributeError" ∧
      answer L (Obj.new a c) h (.residuals ids) = .raised "AttributeError" ∧ answer L (Obj.new a c) h (.draw i) = .raised "AttributeError" := by
  have inv : ∀ (h : List (Op ε)) (o : Obj ε), (∀ s ∈ h, ¬ s.Loads) → o.pats = none → o.data = none → o.cycles = none → (run L o h).pats = none ∧ (run L o h).data = none ∧ (run L o h).cycles = none := by
    intro h
    induction h with
    | nil => exact fun o _ h1 h2 h3 => ⟨h1, h2, h3⟩
    | cons s t ih =>
      intro o hn h1 h2 h3
      rw [run, List.foldl_cons]
      have hs := hn s (by simp)
      have key : (step L o s).1.pats = none ∧ (step L o s).1.data = none ∧ (step L o s).1.cycles = none := by
        cases s with
        | setParams a c => exact ⟨h1, h2, h3⟩
        | fit b rows =>
          have : rows.length < 2 := by simpa [Op.Loads] using hs
          simp only [step, Obj.fit, this, if_true]
          exact ⟨h1, h2, h3⟩
        | importFile f =>
          cases hd : ofDict f.groups with
          | ok d => exact absurd ⟨d, hd⟩ hs
          | error e => simp only [step, Obj.importFile, hd]; exact ⟨h1, h2, h3⟩
        | transform s c => simp [step, Obj.transform, h1, h2, h3]
        | exportFile => simp [step, Obj.exportFile, Obj.transform, h1, h2, h3]
        | reconstruct ids => exact ⟨h1, h2, h3⟩
        | residuals ids => exact ⟨h1, h2, h3⟩
        | draw i => exact ⟨h1, h2, h3⟩
      exact ih _ (fun s' hs' => hn s' (by simp [hs'])) key.1 key.2.1 key.2.2
  obtain ⟨h1, h2, h3⟩ := inv h (Obj.new a c) hn rfl rfl rfl
  obtain ⟨o, ho⟩ : ∃ o : Obj ε, o = run L (Obj.new a c) h := ⟨_, rfl⟩
  rw [← ho] at h1 h2 h3
  simp only [answer, ← ho, step, Obj.transform, Obj.exportFile, Obj.ask, Obj.draw, h1, h2, h3, Ans.ofTable, Ans.ofFile, Ans.ofVal, and_self]

/-! ### Loading -/

/-- After a fit of two rows or more, or an import, everything but `cycles` (and `alpha_groups_` for an import, `n_zeros_` for a fit without time scale) is as in a new miner. -/
theorem load_same (L : Lib ε R) (o : Obj ε) (s : Op ε) (hs : s.Loads) : ∃ (b : Bool) (v : ℕ) (d : Built ε) (ps : List PatRec) (z z' : Option ℕ) (g g' : Option (List (ε × List ℤ))),
    (step L o s).1 = ⟨o.auto, o.complex, some b, z, some v, g, some d, some ps, o.cycles⟩ ∧ (step L (Obj.new o.auto o.complex) s).1 = ⟨o.auto, o.complex, some b, z', some v, g', some d, some ps, none⟩ ∧
    (o.auto = true ∨ s.isImport → z = z' ∧ z.isSome) ∧ (s.isFit → g = g' ∧ g.isSome) := by
  cases s with
  | setParams a c => exact hs.elim
  | transform s c => exact hs.elim
  | exportFile => exact hs.elim
  | reconstruct ids => exact hs.elim
  | residuals ids => exact hs.elim
  | draw i => exact hs.elim
  | importFile f =>
    obtain ⟨d, hd⟩ := hs
    refine ⟨f.dates, f.div, d, f.pats, some f.nZeros, some f.nZeros, o.groups, none, ?_, ?_, fun _ => ⟨rfl, rfl⟩, fun h => h.elim⟩
    · simp only [step, Obj.importFile, hd]
    · simp only [step, Obj.importFile, hd, Obj.new]
  | fit b rows =>
    have hl : ¬ rows.length < 2 := Nat.not_lt.mpr hs
    obtain ⟨m, hm, _⟩ := fitData_ok o.auto rows
    obtain ⟨d, hd⟩ : ∃ d, ofDict (groupsOf o.auto rows) = .ok d := by
      unfold fitData at hm
      unfold groupsOf alphaGroups
      cases ha : o.auto <;> rw [ha] at hm
      · dsimp only at hm
        simp only [Bool.false_eq_true, if_false, ofList] at hm ⊢
        cases hx : ofDict (group (dedupRows rows)) with
        | ok d => exact ⟨d, rfl⟩
        | error e => rw [hx] at hm; cases hm
      · dsimp only at hm
        simp only [if_true, ofList] at hm ⊢
        cases hx : ofDict (group ((autoscale ((dedupRows rows).map Prod.fst)).1.zip ((dedupRows rows).map Prod.snd))) with
        | ok d => exact ⟨d, rfl⟩
        | error e => rw [hx] at hm; cases hm
    refine ⟨b, if o.auto then (autoscale ((dedupRows rows).map Prod.fst)).2.2.1 else 1, d, L.mine o.complex d, if o.auto then some (autoscale ((dedupRows rows).map Prod.fst)).2.1 else o.nZeros, if o.auto then some (autoscale ((dedupRows rows).map Prod.fst)).2.1 else none,
      some (groupsOf o.auto rows), some (groupsOf o.auto rows), ?_, ?_, ?_, fun _ => ⟨rfl, rfl⟩⟩
    · simp only [step, Obj.fit, hl, if_false, hd]
    · simp only [step, Obj.fit, hl, if_false, Obj.new, hd]
      rfl
    · rintro (h | h)
      · rw [h]; exact ⟨rfl, rfl⟩
      · exact h.elim

/-! ### Tables -/

theorem labelled_keys (ps : List PatRec) : ((labelled ps).map Prod.fst).Nodup := by
  rw [labelled, labels_zipIdx]
  exact List.nodup_range' ..

theorem lookup_iff {β : Type} (l : List (ℕ × β)) (h : (l.map Prod.fst).Nodup) (i : ℕ) (x : β) : l.lookup i = some x ↔ (i, x) ∈ l := by
  induction l with
  | nil => simp
  | cons a l ih =>
    rw [List.map_cons, List.nodup_cons] at h
    rw [List.lookup_cons]
    by_cases hi : i = a.1
    · subst hi
      simp only [beq_self_eq_true, Option.some.injEq, List.mem_cons]
      constructor
      · rintro rfl; exact .inl rfl
      · rintro (hx | hx)
        · rw [← hx]
        · exact absurd (List.mem_map.mpr ⟨_, hx, rfl⟩) h.1
    · have : (i == a.1) = false := by simpa using hi
      rw [this, ih h.2, List.mem_cons]
      constructor
      · exact .inr
      · rintro (hx | hx)
        · exact absurd (by rw [← hx]) hi
        · exact hx

theorem lookup_perm {β : Type} {l l' : List (ℕ × β)} (hp : l.Perm l') (h : (l'.map Prod.fst).Nodup) (i : ℕ) : l.lookup i = l'.lookup i := by
  have h' : (l.map Prod.fst).Nodup := (hp.map Prod.fst).nodup_iff.mpr h
  apply Option.ext
  intro x
  rw [lookup_iff l h', lookup_iff l' h, hp.mem_iff]

/-- The table made by `transform` has the rows of the patterns. -/
theorem table_made (L : Lib ε R) (hL : L.SortsRows) (b : Bool) (v z : ℕ) (d : Built ε) (ps : List PatRec) (hp : ps ≠ []) (a c s ch : Bool) (g : Option (List (ε × List ℤ))) (cy : Option (List (ℕ × PatRec))) :
    ∃ c', (Obj.transform L ⟨a, c, some b, some z, some v, g, some d, some ps, cy⟩ s ch).1 = ⟨a, c, some b, some z, some v, g, some d, some ps, some c'⟩ ∧ c'.Perm (labelled ps) := by
  refine ⟨if ch then L.sort (labelled ps) else labelled ps, ?_, ?_⟩
  · simp only [Obj.transform, hp, if_false]
  · split_ifs
    · exact hL _
    · exact List.Perm.refl _

theorem tables_made (L : Lib ε R) (hL : L.SortsRows) (b : Bool) (v z : ℕ) (d : Built ε) (ps : List PatRec) (hp : ps ≠ []) (a c : Bool) (g : Option (List (ε × List ℤ))) (t : List (Op ε)) :
    ∀ cy : Option (List (ℕ × PatRec)), (∀ q ∈ t, q.isQuery) → ((∃ c', cy = some c' ∧ c'.Perm (labelled ps)) ∨ ∃ q ∈ t, q.makesTable) →
    ∃ c', run L ⟨a, c, some b, some z, some v, g, some d, some ps, cy⟩ t = ⟨a, c, some b, some z, some v, g, some d, some ps, some c'⟩ ∧ c'.Perm (labelled ps) := by
  induction t with
  | nil =>
    intro cy _ h
    rcases h with ⟨c', rfl, h⟩ | ⟨q, hq, _⟩
    · exact ⟨c', rfl, h⟩
    · cases hq
  | cons q t ih =>
    intro cy hq h
    have ht : ∀ q ∈ t, q.isQuery := fun q' hq' => hq q' (by simp [hq'])
    have hh : ∀ c', c'.Perm (labelled ps) → (step L ⟨a, c, some b, some z, some v, g, some d, some ps, cy⟩ q).1 = ⟨a, c, some b, some z, some v, g, some d, some ps, some c'⟩ →
        ∃ c', run L ⟨a, c, some b, some z, some v, g, some d, some ps, cy⟩ (q :: t) = ⟨a, c, some b, some z, some v, g, some d, some ps, some c'⟩ ∧ c'.Perm (labelled ps) := by
      intro c' h1 h2
      rw [run_cons, h2]
      exact ih _ ht (.inl ⟨c', rfl, h1⟩)
    have hother : (step L ⟨a, c, some b, some z, some v, g, some d, some ps, cy⟩ q).1 = ⟨a, c, some b, some z, some v, g, some d, some ps, cy⟩ → ¬ q.makesTable →
        ∃ c', run L ⟨a, c, some b, some z, some v, g, some d, some ps, cy⟩ (q :: t) = ⟨a, c, some b, some z, some v, g, some d, some ps, some c'⟩ ∧ c'.Perm (labelled ps) := by
      intro h2 hm
      rw [run_cons, h2]
      refine ih _ ht (h.imp_right ?_)
      rintro ⟨q', hq', hm'⟩
      rcases List.mem_cons.mp hq' with rfl | hq'
      · exact absurd hm' hm
      · exact ⟨q', hq', hm'⟩
    cases q with
    | setParams a c => exact False.elim (hq _ List.mem_cons_self)
    | fit b rows => exact False.elim (hq _ List.mem_cons_self)
    | importFile f => exact False.elim (hq _ List.mem_cons_self)
    | transform s ch =>
      obtain ⟨c', h1, h2⟩ := table_made L hL b v z d ps hp a c s ch g cy
      exact hh c' h2 h1
    | exportFile =>
      obtain ⟨c', h1, h2⟩ := table_made L hL b v z d ps hp a c true true g cy
      exact hh c' h2 (by rw [step, export_state, h1])
    | reconstruct ids => exact hother rfl (by simp [Op.makesTable])
    | residuals ids => exact hother rfl (by simp [Op.makesTable])
    | draw i => exact hother rfl (by simp [Op.makesTable])

/-! ### The properties -/

/-- C107, occurrences: for every history, every fit of at least two rows or import `s`, and every list of queries after it, `reconstruct` and `get_residuals` return what they return on a new miner with the same parameters on which only
`s` was called. -/
theorem rows_from_last (L : Lib ε R) (a c : Bool) (h : List (Op ε)) (s : Op ε) (hs : s.Loads) (t : List (Op ε)) (ht : ∀ q ∈ t, q.isQuery) (ids : List ℕ) :
    answer L (Obj.new a c) (h ++ s :: t) (.reconstruct ids) = answer L (Obj.new (run L (Obj.new a c) h).auto (run L (Obj.new a c) h).complex) [s] (.reconstruct ids) ∧
    answer L (Obj.new a c) (h ++ s :: t) (.residuals ids) = answer L (Obj.new (run L (Obj.new a c) h).auto (run L (Obj.new a c) h).complex) [s] (.residuals ids) := by
  obtain ⟨o, ho⟩ : ∃ o : Obj ε, o = run L (Obj.new a c) h := ⟨_, rfl⟩
  rw [← ho]
  obtain ⟨b, v, d, ps, z, z', g, g', h1, h2, h3, _⟩ := load_same L o s hs
  obtain ⟨cy, hcy⟩ := queries_same L t (step L o s).1 ht
  have key : ∀ f : Bool → Option (ℕ × ℕ) → Built ε → List PatRec → List ℕ → Except String R, Obj.ask f (run L (Obj.new a c) (h ++ s :: t)) ids = Obj.ask f (run L (Obj.new o.auto o.complex) [s]) ids := by
    intro f
    rw [run_append, ← ho, run_cons, hcy, h1, run_cons, h2]
    cases hao : o.auto with
    | false => rfl
    | true =>
      obtain ⟨rfl, _⟩ := h3 (.inl hao)
      rfl
  exact ⟨congrArg Ans.ofVal (key L.rows), congrArg Ans.ofVal (key L.rest)⟩

/-- C107, table: the same holds for `transform` if the time scale is automatic at the time of the fit, or after an import.
The full statement has no condition; see `transform_stale_scale`. -/
theorem table_from_last_partial (L : Lib ε R) (a c : Bool) (h : List (Op ε)) (s : Op ε) (hs : s.Loads) (t : List (Op ε)) (ht : ∀ q ∈ t, q.isQuery) (hz : (run L (Obj.new a c) h).auto = true ∨ s.isImport) (sums chrono : Bool) :
    answer L (Obj.new a c) (h ++ s :: t) (.transform sums chrono) = answer L (Obj.new (run L (Obj.new a c) h).auto (run L (Obj.new a c) h).complex) [s] (.transform sums chrono) := by
  obtain ⟨o, ho⟩ : ∃ o : Obj ε, o = run L (Obj.new a c) h := ⟨_, rfl⟩
  rw [← ho] at hz ⊢
  obtain ⟨b, v, d, ps, z, z', g, g', h1, h2, h3, _⟩ := load_same L o s hs
  obtain ⟨cy, hcy⟩ := queries_same L t (step L o s).1 ht
  obtain ⟨rfl, hz'⟩ := h3 hz
  obtain ⟨z, rfl⟩ := Option.isSome_iff_exists.mp hz'
  unfold answer
  rw [run_append, ← ho, run_cons, hcy, h1, run_cons, h2]
  simp only [run, List.foldl_nil, step, Obj.transform]
  split_ifs <;> rfl

/-- C107, file: the same holds for `export_patterns` after a fit with automatic time scale that found a pattern.
The full statement has no condition; see `export_old_patterns` and `export_other_data`. -/
theorem file_from_last_partial (L : Lib ε R) (a c : Bool) (h : List (Op ε)) (s : Op ε) (hs : s.Loads) (hf : s.isFit) (t : List (Op ε)) (ht : ∀ q ∈ t, q.isQuery) (hz : (run L (Obj.new a c) h).auto = true)
    (hp : answer L (Obj.new (run L (Obj.new a c) h).auto (run L (Obj.new a c) h).complex) [s] (.transform true true) ≠ .empty) :
    answer L (Obj.new a c) (h ++ s :: t) .exportFile = answer L (Obj.new (run L (Obj.new a c) h).auto (run L (Obj.new a c) h).complex) [s] .exportFile ∧
    ∃ f, answer L (Obj.new a c) (h ++ s :: t) .exportFile = .file f := by
  obtain ⟨o, ho⟩ : ∃ o : Obj ε, o = run L (Obj.new a c) h := ⟨_, rfl⟩
  rw [← ho] at hz hp ⊢
  obtain ⟨b, v, d, ps, z, z', g, g', h1, h2, h3, h4⟩ := load_same L o s hs
  obtain ⟨cy, hcy⟩ := queries_same L t (step L o s).1 ht
  obtain ⟨rfl, hz'⟩ := h3 (.inl hz)
  obtain ⟨z, rfl⟩ := Option.isSome_iff_exists.mp hz'
  obtain ⟨rfl, hg'⟩ := h4 hf
  obtain ⟨g, rfl⟩ := Option.isSome_iff_exists.mp hg'
  unfold answer at hp ⊢
  rw [run_cons, h2] at hp
  have hps : ps ≠ [] := by
    rintro rfl
    exact hp rfl
  rw [run_append, ← ho, run_cons, hcy, h1, run_cons, h2]
  simp only [run, List.foldl_nil, step, Obj.exportFile, Obj.transform, if_neg hps]
  exact ⟨trivial, _, rfl⟩

/-- C107, drawing: `draw_pattern` draws the pattern of the last fit or import if this found a pattern and the table was asked for since, and the time scale is automatic or the patterns are imported.
The full statement has no condition; see `Verif.Draw.draws_old_table`. -/
theorem drawing_from_last_partial (L : Lib ε R) (hL : L.SortsRows) (a c : Bool) (h : List (Op ε)) (s : Op ε) (hs : s.Loads) (t : List (Op ε)) (ht : ∀ q ∈ t, q.isQuery) (hz : (run L (Obj.new a c) h).auto = true ∨ s.isImport)
    (hp : answer L (Obj.new (run L (Obj.new a c) h).auto (run L (Obj.new a c) h).complex) [s] (.transform true true) ≠ .empty) (hm : ∃ q ∈ t, q.makesTable) (i : ℕ) :
    answer L (Obj.new a c) (h ++ s :: t) (.draw i) = answer L (Obj.new (run L (Obj.new a c) h).auto (run L (Obj.new a c) h).complex) [s, .transform true true] (.draw i) := by
  obtain ⟨o, ho⟩ : ∃ o : Obj ε, o = run L (Obj.new a c) h := ⟨_, rfl⟩
  rw [← ho] at hz hp ⊢
  obtain ⟨b, v, d, ps, z, z', g, g', h1, h2, h3, _⟩ := load_same L o s hs
  obtain ⟨rfl, hz'⟩ := h3 hz
  obtain ⟨z, rfl⟩ := Option.isSome_iff_exists.mp hz'
  have hps : ps ≠ [] := by
    rintro rfl
    unfold answer at hp
    rw [run_cons, h2] at hp
    exact hp rfl
  obtain ⟨c1, e1, p1⟩ := tables_made L hL b v z d ps hps o.auto o.complex g t o.cycles ht (.inr hm)
  obtain ⟨c2, e2, p2⟩ := tables_made L hL b v z d ps hps o.auto o.complex g' [.transform true true] none (by simp [Op.isQuery]) (.inr ⟨_, List.mem_singleton_self _, trivial⟩)
  unfold answer
  rw [run_append, ← ho, run_cons, h1, e1, run_cons, h2, e2]
  have : c1.lookup i = c2.lookup i := (lookup_perm p1 (labelled_keys ps) i).trans (lookup_perm p2 (labelled_keys ps) i).symm
  simp only [step, Obj.draw, this, Obj.scale]

theorem labelled_lookup (ps : List PatRec) (i : ℕ) : (labelled ps).lookup i = ps[i]? := by
  apply Option.ext
  intro x
  rw [lookup_iff _ (labelled_keys ps), labelled, List.mem_map, List.getElem?_eq_some_iff]
  constructor
  · rintro ⟨⟨y, j⟩, h, e⟩
    obtain ⟨rfl, rfl⟩ : j = i ∧ y = x := by simpa [Prod.swap] using e
    obtain ⟨h1, h2⟩ := List.mem_zipIdx' h
    exact ⟨h1, h2.symm⟩
  · rintro ⟨h, rfl⟩
    exact ⟨(ps[i], i), by rw [List.mem_zipIdx_iff_getElem?]; exact List.getElem?_eq_getElem h, rfl⟩

/-- Which pattern a new miner draws: after a fit with automatic time scale and a table in either order, `draw_pattern(i)` draws pattern number `i` of the mining with the scale of the data, and raises if there is none. -/
theorem drawing_number (L : Lib ε R) (hL : L.SortsRows) (c b s ch : Bool) (r : List (ℤ × ε)) (h : 2 ≤ r.length) (d : Built ε) (hd : ofDict (groupsOf true r) = .ok d) (hp : L.mine c d ≠ []) (i : ℕ) :
    answer L (Obj.new true c) [.fit b r, .transform s ch] (.draw i) = match (L.mine c d)[i]? with
      | some P => .ofVal (L.drawing b (some ((autoscale ((dedupRows r).map Prod.fst)).2.1, (autoscale ((dedupRows r).map Prod.fst)).2.2.1)) d P)
      | none => .raised "KeyError" := by
  have hl : ¬ r.length < 2 := Nat.not_lt.mpr h
  have e1 : (step L (Obj.new true c) (.fit b r)).1 = ⟨true, c, some b, some (autoscale ((dedupRows r).map Prod.fst)).2.1, some (autoscale ((dedupRows r).map Prod.fst)).2.2.1, some (groupsOf true r), some d, some (L.mine c d), none⟩ := by
    simp only [step, Obj.fit, Obj.new, hl, if_false, hd, if_true]
  obtain ⟨c', h1, h2⟩ := table_made L hL b (autoscale ((dedupRows r).map Prod.fst)).2.2.1 (autoscale ((dedupRows r).map Prod.fst)).2.1 d (L.mine c d) hp true c s ch (some (groupsOf true r)) none
  rw [answer, run_cons, e1, run_cons, step, h1]
  have : c'.lookup i = (L.mine c d)[i]? := (lookup_perm h2 (labelled_keys _) i).trans (labelled_lookup _ i)
  simp only [run, List.foldl_nil, step, Obj.draw, this, Obj.scale, if_true]
  cases (L.mine c d)[i]? <;> rfl

/-! ### Where it fails -/

/-- C107 fails without automatic time scale: on a new miner `transform` raises, after an earlier fit with automatic time scale it returns a table made with the number of zeros of the earlier data. -/
theorem transform_stale_scale (L : Lib ε R) (c b1 b2 : Bool) (r1 r2 : List (ℤ × ε)) (h1 : 2 ≤ r1.length) (h2 : 2 ≤ r2.length) (d : Built ε) (hd : ofDict (groupsOf false r2) = .ok d) (hp : L.mine c d ≠ []) :
    answer L (Obj.new false c) [.fit b2 r2] (.transform true true) = .raised "AttributeError" ∧
    answer L (Obj.new true c) [.fit b1 r1, .setParams false c, .fit b2 r2] (.transform true true) =
      .value (L.table true false b2 ((autoscale ((dedupRows r1).map Prod.fst)).2.1, 1) d (L.sort (labelled (L.mine c d)))) := by
  obtain ⟨b, v, d1, ps, z, z', g, g', e1, _, e3, _⟩ := load_same L (Obj.new true c) (.fit b1 r1) h1
  have hl1 : ¬ r1.length < 2 := Nat.not_lt.mpr h1
  have hl2 : ¬ r2.length < 2 := Nat.not_lt.mpr h2
  have hz : ((step L (Obj.new true c) (.fit b1 r1)).1).nZeros = some (autoscale ((dedupRows r1).map Prod.fst)).2.1 := by
    simp only [step, Obj.fit, hl1, if_false, Obj.new, if_true]
    split <;> rfl
  rw [e1] at hz
  change z = _ at hz
  subst hz
  constructor
  · simp only [answer, run, List.foldl_cons, List.foldl_nil, step, Obj.fit, Obj.new, hl2, if_false, hd, Obj.transform]
    rfl
  · rw [answer, run_cons, e1]
    simp only [run, List.foldl_cons, List.foldl_nil, step, Obj.fit, Obj.new, hl2, if_false, hd, Obj.transform, hp]
    rfl

/-- C107 fails for files: if the last data had no pattern, the file has the last data with the patterns of the data before; a new miner raises. -/
theorem export_old_patterns (L : Lib ε R) (c b1 b2 : Bool) (r1 r2 : List (ℤ × ε)) (h1 : 2 ≤ r1.length) (h2 : 2 ≤ r2.length) (d1 d2 : Built ε) (hd1 : ofDict (groupsOf true r1) = .ok d1) (hd2 : ofDict (groupsOf true r2) = .ok d2)
    (hp1 : L.mine c d1 ≠ []) (hp2 : L.mine c d2 = []) :
    answer L (Obj.new true c) [.fit b2 r2] .exportFile = .raised "AttributeError" ∧
    answer L (Obj.new true c) [.fit b1 r1, .transform true true, .fit b2 r2] .exportFile =
      .file ⟨b2, (autoscale ((dedupRows r2).map Prod.fst)).2.1, (autoscale ((dedupRows r2).map Prod.fst)).2.2.1, groupsOf true r2, (L.sort (labelled (L.mine c d1))).map Prod.snd⟩ := by
  have hl1 : ¬ r1.length < 2 := Nat.not_lt.mpr h1
  have hl2 : ¬ r2.length < 2 := Nat.not_lt.mpr h2
  constructor
  · simp only [answer, run, List.foldl_cons, List.foldl_nil, step, Obj.fit, Obj.new, hl2, if_false, hd2, Obj.exportFile, Obj.transform, hp2, if_true]
    rfl
  · simp only [answer, run, List.foldl_cons, List.foldl_nil, step, Obj.fit, Obj.new, hl1, hl2, if_false, hd1, hd2, Obj.exportFile, Obj.transform, hp1, hp2, if_true]
    rfl

/-- C107 fails for files after an import: a new miner raises, and a miner fitted before writes the imported patterns with the data of its fit. -/
theorem export_other_data (L : Lib ε R) (c b : Bool) (r : List (ℤ × ε)) (h : 2 ≤ r.length) (f : PFile ε) (d1 d2 : Built ε) (hd1 : ofDict (groupsOf true r) = .ok d1) (hd2 : ofDict f.groups = .ok d2) (hp : f.pats ≠ []) :
    answer L (Obj.new true c) [.importFile f] .exportFile = .raised "AttributeError" ∧
    answer L (Obj.new true c) [.fit b r, .importFile f] .exportFile = .file ⟨f.dates, f.nZeros, f.div, groupsOf true r, (L.sort (labelled f.pats)).map Prod.snd⟩ := by
  have hl : ¬ r.length < 2 := Nat.not_lt.mpr h
  constructor
  · simp only [answer, run, List.foldl_cons, List.foldl_nil, step, Obj.importFile, Obj.new, hd2, Obj.exportFile, Obj.transform, hp, if_false, if_true]
    rfl
  · simp only [answer, run, List.foldl_cons, List.foldl_nil, step, Obj.fit, Obj.importFile, Obj.new, hl, if_false, hd1, hd2, Obj.exportFile, Obj.transform, hp, if_true]
    rfl

/-- Changing `auto_time_scale` between a fit and a query: the occurrences are computed with another scale than the patterns, none. -/
theorem scale_switched (L : Lib ε R) (c b : Bool) (r : List (ℤ × ε)) (h : 2 ≤ r.length) (d : Built ε) (hd : ofDict (groupsOf true r) = .ok d) (ids : List ℕ) :
    answer L (Obj.new true c) [.fit b r] (.reconstruct ids) = .ofVal (L.rows b (some ((autoscale ((dedupRows r).map Prod.fst)).2.1, (autoscale ((dedupRows r).map Prod.fst)).2.2.1)) d (L.mine c d) ids) ∧
    answer L (Obj.new true c) [.fit b r, .setParams false c] (.reconstruct ids) = .ofVal (L.rows b none d (L.mine c d) ids) := by
  have hl : ¬ r.length < 2 := Nat.not_lt.mpr h
  constructor
  · simp only [answer, run, List.foldl_cons, List.foldl_nil, step, Obj.fit, Obj.new, hl, if_false, hd, Obj.ask, Obj.scale, if_true]
  · simp only [answer, run, List.foldl_cons, List.foldl_nil, step, Obj.fit, Obj.new, hl, if_false, hd, Obj.ask, Obj.scale]
    rfl

/-! ### Concrete cases -/

/-- The pattern found for three events or more: event 0, three times, every two units. -/
def exPat : PatRec := ⟨[(0, .inner none (some (3, 2)) [(1, 0)]), (1, .leaf (some 0) 0)], 2, 0, [0, 0]⟩

/-- The rows of the patterns, as computed by `reconstruct` (C36). -/
def exRowsOf (s : Option (ℕ × ℕ)) (d : Built ℕ) (ps : List PatRec) : Except String (List (ℤ × ℕ)) :=
  match (ps.mapM (fun P : PatRec => P.patt 5)).bind (fun qs : List Patt => (qs.mapM (patternRows ⟨d, (s.getD (0, 1)).1, (s.getD (0, 1)).2⟩)).map List.flatten) with
  | some l => .ok l
  | none => .error "KeyError"

/-- A library with this pattern. -/
def exLib : Lib ℕ (List (ℤ × ℕ)) where
  mine := fun _ d => if d.seql.length < 3 then [] else [exPat]
  sort := id
  table := fun _ _ _ s _ c => c.map (fun x => (x.2.t0 * 10 ^ s.1, x.1))
  rows := fun _ s d ps _ => exRowsOf s d ps
  rest := fun _ _ _ _ _ => .error "KeyError"
  drawing := fun _ s d P => exRowsOf s d [P]

/-- Two series: one with a pattern, one with two rows. -/
def exA : List (ℤ × ℕ) := [(0, 5), (20, 5), (40, 5)]

/-- A series of two rows. -/
def exB : List (ℤ × ℕ) := [(7, 8), (9, 6)]

example : answer exLib (Obj.new true true) ([.fit false exB, .transform true true] ++ .fit false exA :: [.exportFile]) (.reconstruct []) = .value [(0, 5), (20, 5), (40, 5)] := by
  rw [(rows_from_last exLib true true [.fit false exB, .transform true true] (.fit false exA) (show 2 ≤ exA.length by decide) [.exportFile] (by simp [Op.isQuery]) []).1]
  rfl

/-- The hypotheses of `nothing_loaded` hold: a fit of one row. -/
example : answer exLib (Obj.new true true) [.fit false [(0, 5)], .setParams false true] (.transform true true) = .raised "NotFittedError" :=
  (nothing_loaded exLib true true _ (by simp [Op.Loads]) true true [] 0).1

/-- The parameter changed after the fit: the times come back divided by ten. -/
example : answer exLib (Obj.new true true) [.fit false exA, .setParams false true] (.reconstruct []) = .value [(0, 5), (2, 5), (4, 5)] := rfl

/-- The file written after a fit without pattern: the data `exB` with the pattern of `exA`. -/
example : ∃ f, answer exLib (Obj.new true true) [.fit false exA, .transform true true, .fit false exB] .exportFile = .file f ∧ f.groups = [(8, [7]), (6, [9])] ∧ f.pats = [exPat] := ⟨_, rfl, rfl, rfl⟩

/-- Importing that file into a new miner and reconstructing: event 6 (number 0), which occurs once, at 9, is said to occur at 0, 2 and 4. -/
example : ∃ f, answer exLib (Obj.new true true) [.fit false exA, .transform true true, .fit false exB] .exportFile = .file f ∧
    answer exLib (Obj.new true true) [.importFile f] (.reconstruct []) = .value [(0, 6), (2, 6), (4, 6)] := ⟨_, rfl, rfl⟩

example : ∃ f, answer exLib (Obj.new true true) ([.fit false exB] ++ .fit false exA :: [.draw 3]) .exportFile = .file f :=
  (file_from_last_partial exLib true true [.fit false exB] (.fit false exA) (show 2 ≤ exA.length by decide) trivial [.draw 3] (by simp [Op.isQuery]) rfl (by intro h; cases h)).2

example : answer exLib (Obj.new true true) ([.fit false exB] ++ .fit false exA :: [.transform true false, .reconstruct []]) (.draw 0) = .value [(0, 5), (20, 5), (40, 5)] := by
  rw [drawing_from_last_partial exLib (fun l => List.Perm.refl l) true true [.fit false exB] (.fit false exA) (show 2 ≤ exA.length by decide) _ (by simp [Op.isQuery]) (.inl rfl) (by intro h; cases h) ⟨.transform true false, List.mem_cons_self, trivial⟩]
  rfl

example : answer exLib (Obj.new true true) [.fit false exA, .transform true true] (.draw 1) = .raised "KeyError" :=
  drawing_number exLib (fun l => List.Perm.refl l) true false true true exA (by decide) _ rfl (by intro h; cases h) 1

example : answer exLib (Obj.new true true) ([.fit false exB, .setParams true false] ++ .fit false exA :: [.draw 0]) (.transform true true) = .value [(0, 0)] := by
  rw [table_from_last_partial exLib true true [.fit false exB, .setParams true false] (.fit false exA) (show 2 ≤ exA.length by decide) [.draw 0] (by simp [Op.isQuery]) (.inl rfl)]
  rfl

end Verif.Session
