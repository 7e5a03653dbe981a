import Verif.Graph.EndSearch
import Verif.Graph.EndKeys
import Verif.Graph.OccWitness

/-!
# The search of GraphMDL ends: property C105
-/

set_option autoImplicit false
set_option linter.unusedSectionVars false

namespace Verif.Graph

variable {σ : Type} [DecidableEq σ]

/-- What candidates are compared by. -/
def tryKey (c : Tried σ) : σ × σ × List (ℕ × ℕ) := (c.cand.first, c.cand.second, c.cand.port)

theorem real_narrow {blank : σ → Bool} {t : LabelTable σ} {nm : Names σ} {d : LGraph σ} (hd : StringData d) {emb : LGraph σ → List Embedding} (hemb : ∀ p, RowFor d p ⟨p.view, emb p, []⟩)
    {env : SEnv (Tried σ) ℝ} (h : RealSearch blank t nm emb d env) : ∃ D : Finset ℝ, Narrow env tryKey (fun c => Tame (d.nodes.length + 2) c.pattern) D := by
  obtain ⟨N, hN⟩ : ∃ N, N = d.nodes.length + 2 := ⟨_, rfl⟩
  rw [← hN]
  have hfin := lengths_finite blank t nm hd (le_of_eq hN.symm) hemb
  have hval := (hfin.image (fun x : Except String ℝ => match x with
    | .ok x => x
    | .error _ => 0)).union (Set.finite_singleton (0 : ℝ))
  have htame : ∀ rows : List (SRow (Tried σ)), (∀ r ∈ rows, Tame N r.cand.pattern) → ∀ p ∈ patsOf rows, Tame N p := by
    intro rows hr p hp
    obtain ⟨r, h1, rfl⟩ := List.mem_map.1 hp
    exact hr r h1
  have hgen : ∀ (s : SState (Tried σ) ℝ) (m : ℕ), (∀ r ∈ s.rows, Tame N r.cand.pattern) → s.rows.length ≤ m → ∀ c ∈ env.gen s,
      CSmall (nodeLabels nm d m) (2 * (d.view.edges.length + d.view.labelPairs.length) * (N + 1)) N c.cand ∧ Tame N c.pattern := by
    intro s m hs hm c hc
    obtain ⟨pats, mk, r, genv, cs, h1, -, h3, h4, h5, h6, h7⟩ := h.gen s c hc
    have hp := htame s.rows hs
    have hsmall := cands_small hd (le_of_eq hN.symm) hemb (pats := pats) (fun p hp' => hp p (h1.mem_iff.1 hp')) (m := m) (by rw [h1.length_eq]; unfold patsOf; rwa [List.length_map]) h3 nm h4 h5 c.cand h6
    exact ⟨hsmall, finalPattern_tame hp c.cand (fun x hx => (hsmall.ports x hx).1) _ h7⟩
  refine ⟨hval.toFinset, ?_, ?_, ?_, ?_⟩
  · intro a b hab
    rw [h.same]
    obtain ⟨h1, h2⟩ := Prod.mk.inj hab
    obtain ⟨h2, h3⟩ := Prod.mk.inj h2
    unfold GCand.same portsEqual
    rw [h1, h2, h3]
    simp
  · intro s hs c hc
    exact (hgen s s.rows.length hs le_rfl c hc).2
  · intro rows hr
    rw [Set.Finite.mem_toFinset, h.dl]
    cases hc : cover d.view (tableRows emb (patsOf rows)) Marks.fresh with
    | error e =>
      refine Or.inr ?_
      unfold totalLength
      rw [hc]
      rfl
    | ok r => exact Or.inl ⟨_, ⟨patsOf rows, htame rows hr, rfl, r, hc⟩, rfl⟩
  · intro m
    have hnat : {k : ℕ | k ≤ N}.Finite := Set.finite_le_nat N
    have h1 := (List.finite_toSet (nodeLabels nm d m)).prod ((List.finite_toSet (nodeLabels nm d m)).prod (finite_lists _ (hnat.prod hnat) (2 * (d.view.edges.length + d.view.labelPairs.length) * (N + 1))))
    refine ⟨h1.toFinset.toList, ?_⟩
    intro s hs hm c hc
    rw [Finset.mem_toList, Set.Finite.mem_toFinset]
    obtain ⟨h2, -⟩ := hgen s m hs hm c hc
    exact ⟨h2.first, h2.second, h2.number, h2.ports⟩

/-- C105. `fit` ends, it returns or raises, on every data graph with at most one edge from one vertex to another and string labels on the edges, with or without a timeout, after any earlier `fit` on the object, whatever the order of
ties, of embeddings and of sets. -/
theorem fit_ends (blank : σ → Bool) (t : LabelTable σ) (nm : Names σ) (d : LGraph σ) (hd : StringData d) (emb : LGraph σ → List Embedding) (hemb : ∀ p, RowFor d p ⟨p.view, emb p, []⟩)
    (env : SEnv (Tried σ) ℝ) (henv : RealSearch blank t nm emb d env) (late : ℕ → Bool) (hlate : Forward late) (timeout : Bool) (s : SState (Tried σ) ℝ) : ∃ fuel x, searchFit env late fuel timeout s = some x := by
  obtain ⟨D, hD⟩ := real_narrow hd hemb henv
  have h0 : env.dl [] ∈ D := hD.dl [] (by simp)
  refine search_ends hD late hlate (searchInit env timeout s) ⟨by simp [searchInit], ?_, h0⟩
  simp only [searchInit, List.length_nil, Nat.zero_add]
  exact Finset.card_filter_le _ _

/-! ## Cases -/

/-- There are embeddings as `get_embeddings` returns them, for every pattern. -/
theorem rows_exist (d : LGraph σ) : ∃ emb : LGraph σ → List Embedding, ∀ p, RowFor d p ⟨p.view, emb p, []⟩ := by
  have h : ∀ p : LGraph σ, ∃ L : List Embedding, RowFor d p ⟨p.view, L, []⟩ := by
    intro p
    have hfin : {e : Embedding | ∃ h : ℕ → ℕ, Found false d p h ∧ e = p.verts.map (fun a => (h a, a))}.Finite := by
      refine (finite_lists _ ((List.finite_toSet d.verts).prod (List.finite_toSet p.verts)) p.verts.length).subset ?_
      rintro e ⟨h, h1, rfl⟩
      refine ⟨by rw [List.length_map], ?_⟩
      intro x hx
      obtain ⟨a, ha, rfl⟩ := List.mem_map.1 hx
      exact ⟨h1.verts a ha, ha⟩
    refine ⟨hfin.toFinset.toList, rfl, ?_, ?_⟩
    · intro e he
      obtain ⟨h, h1, rfl⟩ := hfin.mem_toFinset.1 (Finset.mem_toList.1 he)
      exact ⟨h, h1, List.Perm.refl _⟩
    · intro h h1
      exact ⟨_, Finset.mem_toList.2 (hfin.mem_toFinset.2 ⟨h, h1, rfl⟩), List.Perm.refl _⟩
  exact ⟨fun p => (h p).choose, fun p => (h p).choose_spec⟩

/-- The search with its parts in place, for given readings of the table by the generation. -/
noncomputable def realEnv (blank : σ → Bool) (t : LabelTable σ) (nm : Names σ) (emb : LGraph σ → List Embedding) (d : LGraph σ) (genv : List (LGraph σ) → GenEnv σ) : SEnv (Tried σ) ℝ where
  size := fun c => (c.pattern.nodes.length, (emb c.pattern).length)
  dl := fun rows => match totalLength blank t nm emb d (patsOf rows) with
    | .ok x => x
    | .error _ => 0
  usage := fun rows r => match cover d.view (tableRows emb (patsOf rows)) Marks.fresh with
    | .ok x => rowUsage x.2.2 (rows.findIdx (fun q => decide (q = r)))
    | .error _ => 0
  gen := fun s => match cover d.view (tableRows emb (patsOf s.rows)) Marks.fresh with
    | .ok x => match generate (genv (patsOf s.rows)) (rewriteGraph nm x.2.2) with
      | .ok cs => cs.filterMap (fun c => (finalPattern (patsOf s.rows) c).toOption.map (fun p => ⟨c, p⟩))
      | .error _ => []
    | .error _ => []
  same := fun a b => a.cand.same b.cand

theorem realEnv_real (blank : σ → Bool) (t : LabelTable σ) (nm : Names σ) (emb : LGraph σ → List Embedding) (d : LGraph σ) (genv : List (LGraph σ) → GenEnv σ) (hg : ∀ pats, (genv pats).Ok) :
    RealSearch blank t nm emb d (realEnv blank t nm emb d genv) := by
  refine ⟨fun _ => rfl, fun _ _ => rfl, ?_⟩
  intro s c hc
  unfold realEnv at hc
  simp only at hc
  split at hc
  · next r h1 =>
    split at hc
    · next cs h2 =>
      obtain ⟨c', h3, h4⟩ := List.mem_filterMap.1 hc
      rw [Option.map_eq_some_iff] at h4
      obtain ⟨p, h4, rfl⟩ := h4
      exact ⟨_, _, r, _, cs, List.Perm.refl _, .fresh, h1, hg _, h2, h3, toOption_ok h4⟩
    · simp at hc
  · simp at hc

theorem lineData_string : StringData lineData := ⟨by decide, by decide, fun e he => by
  simp [lineData] at he
  rcases he with rfl | rfl | rfl <;> exact ⟨_, rfl⟩⟩

/-- The hypotheses of `fit_ends` hold for three edges in a row, and the search has candidates there. -/
example (t : LabelTable ℕ) : ∃ emb env, (∀ p, RowFor lineData p ⟨p.view, emb p, []⟩) ∧ RealSearch (fun _ => false) t witnessNames emb lineData env ∧ (env.gen (searchInit env false (SState.new 0))).length = 2 ∧
    ∃ fuel x, searchFit env (fun _ => false) fuel false (SState.new 0) = some x := by
  obtain ⟨emb, hemb⟩ := rows_exist lineData
  obtain ⟨env, hE⟩ : ∃ env, env = realEnv (fun _ => false) t witnessNames emb lineData (fun pats => witnessEnv pats.length [7, 7, 8] []) := ⟨_, rfl⟩
  have hr : RealSearch (fun _ => false) t witnessNames emb lineData env := by
    rw [hE]
    exact realEnv_real _ _ _ _ _ _ (fun _ => witnessEnv_ok _ _ _)
  refine ⟨emb, env, hemb, hr, ?_, fit_ends _ _ _ _ lineData_string emb hemb env hr _ (fun k hk => by simp at hk) false _⟩
  obtain ⟨m', rows', ps, h1, -⟩ := cover_partial lineData.view (by decide) [] (by simp) Marks.fresh .fresh
  have e1 : (cover lineData.view [] Marks.fresh).toOption.map (fun x => x.2.2) = some [.edge 1 2 7, .edge 2 3 7, .edge 3 4 8] := by decide +kernel
  rw [h1] at e1
  have e1 : ps = _ := Option.some.inj e1
  subst e1
  have h2 : generate (witnessEnv 0 [7, 7, 8] []) (rewriteGraph witnessNames [.edge 1 2 7, .edge 2 3 7, .edge 3 4 8]) =
    .ok [⟨7, 7, [(2, 1)], {3}, some (.edge 7), some (.edge 7), 0, 1⟩, ⟨7, 8, [(2, 1)], {5}, some (.edge 7), some (.edge 8), 1, 1⟩] := toOption_ok (by decide +kernel)
  rw [hE]
  simp only [realEnv, searchInit, patsOf, tableRows, List.map_nil, h1, List.length_nil, h2]
  decide +kernel

end Verif.Graph
