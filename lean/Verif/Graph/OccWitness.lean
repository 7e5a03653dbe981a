import Verif.Graph.OccProps
import Verif.Graph.GenWitness

/-!
# The patterns tested by GraphMDL: witnesses
-/

set_option autoImplicit false
set_option linter.unusedSectionVars false

namespace Verif.Graph

/-- A pattern with more vertices than the data does not occur. -/
theorem absent_of_length {σ : Type} [DecidableEq σ] {d p : LGraph σ} (hn : p.verts.Nodup) (hl : d.verts.length < p.verts.length) (h : ℕ → ℕ) : ¬ Occurs d p h := by
  intro ho
  have h1 : (p.verts.map h).Nodup := (List.nodup_map_iff_inj_on hn).2 ho.inj
  have h2 : p.verts.map h ⊆ d.verts := by
    intro x hx
    obtain ⟨a, ha, rfl⟩ := List.mem_map.1 hx
    exact ho.verts a ha
  have := (h1.subperm h2).length_le
  rw [List.length_map] at this
  omega

/-- What the generation reads, with these edge and vertex singletons. -/
theorem witnessEnv_reads (d : LGraph ℕ) (rows : List (Row ℕ)) (es vs : List ℕ) (h1 : ∀ l ∈ es, ∃ e ∈ d.edges, e.2.2 = .str l) (h2 : ∀ l ∈ vs, ∃ x ∈ d.nodes, l ∈ d.namesAt x.1) : (witnessEnv rows.length es vs).Reads witnessNames rows d :=
  ⟨fun i => by simp [witnessEnv, witnessNames], rfl, fun l h => h1 l (by simpa [witnessEnv] using h), fun l h => by
    obtain ⟨x, -, hx⟩ := h2 l (by simpa [witnessEnv] using h)
    exact ⟨x.1, hx⟩⟩

theorem names_apart_vertex (g : DGraph ℕ) (h1 : ∀ x ∈ g.nodes, ∀ l ∈ x.2, l < 100) (h2 : ∀ x ∈ g.edges, x.2.2 < 100) (v l : ℕ) (h : g.Uses l) : l ≠ witnessNames.vertex v := by
  have : l < 100 := by
    rcases h with ⟨v, ls, h3, h4⟩ | ⟨u, v, h3⟩
    · exact h1 _ h3 l h4
    · exact h2 _ h3
  simp only [witnessNames]
  omega

/-! ## Where it fails -/

/-- A labelled vertex with a loop. -/
def loopData : LGraph ℕ := ⟨[(1, .str 5)], [(1, 1, .str 7)]⟩

/-- C103 is false for a loop: the two ports of the loop fall together, one of them is lost, and the pattern tested has two vertices; the data has one. -/
theorem loop_pattern_absent : ∃ c g, Generated loopData witnessNames [] c ∧ finalPattern [] c = .ok g ∧ (∀ h, ¬ Occurs loopData g h) ∧ NamesApart witnessNames loopData := by
  obtain ⟨m', rows', ps, h1, -⟩ := cover_partial loopData.view (by decide) [] (by simp) Marks.fresh .fresh
  have e1 : (cover loopData.view [] Marks.fresh).toOption.map (fun x => x.2.2) = some [.edge 1 1 7, .vertex 1 5] := by decide +kernel
  rw [h1] at e1
  have e1 : ps = _ := Option.some.inj e1
  subst e1
  have hgen : generate (witnessEnv 0 [7] [5]) (rewriteGraph witnessNames [.edge 1 1 7, .vertex 1 5]) = .ok [⟨5, 7, [(1, 2)], {2}, some (.vertex 5), some (.edge 7), 1, 1⟩] := toOption_ok (by decide +kernel)
  have hfin : finalPattern [] (⟨5, 7, [(1, 2)], {2}, some (.vertex 5), some (.edge 7), 1, 1⟩ : GCand ℕ) = .ok ⟨[(1, .str 5), (2, .none)], [(2, 1, .str 7)]⟩ := toOption_ok (by decide +kernel)
  refine ⟨_, _, ⟨[], Marks.fresh, _, _, _, List.Forall₂.nil, .fresh, h1, witnessEnv_ok _ _ _, witnessEnv_reads loopData [] [7] [5] (by decide) (by decide), hgen, List.mem_singleton.2 rfl⟩, hfin, absent_of_length (by decide) (by decide), ?_⟩
  exact ⟨names_apart _ (by decide) (by decide), names_apart_vertex _ (by decide) (by decide), fun i v => by simp [witnessNames]; omega⟩

/-- An edge that starts at a vertex with the same label. -/
def mixedData : LGraph ℕ := ⟨[(1, .str 7), (2, .none)], [(1, 2, .str 7)]⟩

/-- C103 is false for a label used both for a vertex and for an edge: the labelled vertex is taken for an edge, and the pattern tested has two edges; the data has one. -/
theorem mixed_pattern_absent : ∃ c g, Generated mixedData witnessNames [] c ∧ finalPattern [] c = .ok g ∧ (∀ h, ¬ Occurs mixedData g h) ∧ NamesApart witnessNames mixedData := by
  obtain ⟨m', rows', ps, h1, -⟩ := cover_partial mixedData.view (by decide) [] (by simp) Marks.fresh .fresh
  have e1 : (cover mixedData.view [] Marks.fresh).toOption.map (fun x => x.2.2) = some [.edge 1 2 7, .vertex 1 7] := by decide +kernel
  rw [h1] at e1
  have e1 : ps = _ := Option.some.inj e1
  subst e1
  have hgen : generate (witnessEnv 0 [7] [7]) (rewriteGraph witnessNames [.edge 1 2 7, .vertex 1 7]) = .ok [⟨7, 7, [(1, 1)], {2}, some (.edge 7), some (.edge 7), 1, 1⟩] := toOption_ok (by decide +kernel)
  have hfin : finalPattern [] (⟨7, 7, [(1, 1)], {2}, some (.edge 7), some (.edge 7), 1, 1⟩ : GCand ℕ) = .ok ⟨[(1, .none), (2, .none), (3, .none)], [(1, 2, .str 7), (1, 3, .str 7)]⟩ := toOption_ok (by decide +kernel)
  refine ⟨_, _, ⟨[], Marks.fresh, _, _, _, List.Forall₂.nil, .fresh, h1, witnessEnv_ok _ _ _, witnessEnv_reads mixedData [] [7] [7] (by decide) (by decide), hgen, List.mem_singleton.2 rfl⟩, hfin, absent_of_length (by decide) (by decide), ?_⟩
  exact ⟨names_apart _ (by decide) (by decide), names_apart_vertex _ (by decide) (by decide), fun i v => by simp [witnessNames]; omega⟩

/-- Two vertices with an edge each way; the label of the first edge is the name of the vertex it starts at. -/
def namedData : LGraph ℕ := ⟨[(1, .none), (2, .none)], [(1, 2, .str 103), (2, 1, .str 7)]⟩

theorem namedData_plain : PlainData namedData :=
  ⟨by decide, by decide, by decide, by decide, fun e he => by
    simp [namedData] at he
    rcases he with rfl | rfl <;> exact ⟨_, rfl⟩, fun v l h => by
    simp only [LGraph.namesAt, namedData, List.lookup] at h
    split at h <;> (try split at h) <;> simp [Label.names] at h⟩

/-- C103 is false for a label that is the name of a vertex: the vertex is not found as a port, and the pattern tested has three vertices; the data has two. -/
theorem named_pattern_absent : PlainData namedData ∧ witnessNames.vertex 1 = 103 ∧ ∃ c g, Generated namedData witnessNames [] c ∧ finalPattern [] c = .ok g ∧ ∀ h, ¬ Occurs namedData g h := by
  refine ⟨namedData_plain, rfl, ?_⟩
  obtain ⟨m', rows', ps, h1, -⟩ := cover_partial namedData.view (by decide) [] (by simp) Marks.fresh .fresh
  have e1 : (cover namedData.view [] Marks.fresh).toOption.map (fun x => x.2.2) = some [.edge 1 2 103, .edge 2 1 7] := by decide +kernel
  rw [h1] at e1
  have e1 : ps = _ := Option.some.inj e1
  subst e1
  have hgen : generate (witnessEnv 0 [103, 7] []) (rewriteGraph witnessNames [.edge 1 2 103, .edge 2 1 7]) = .ok [⟨7, 103, [(1, 2)], {2}, some (.edge 7), some (.edge 103), 1, 1⟩] := toOption_ok (by decide +kernel)
  have hfin : finalPattern [] (⟨7, 103, [(1, 2)], {2}, some (.edge 7), some (.edge 103), 1, 1⟩ : GCand ℕ) = .ok ⟨[(1, .none), (2, .none), (3, .none)], [(1, 2, .str 7), (3, 1, .str 103)]⟩ := toOption_ok (by decide +kernel)
  exact ⟨_, _, ⟨[], Marks.fresh, _, _, _, List.Forall₂.nil, .fresh, h1, witnessEnv_ok _ _ _, witnessEnv_reads namedData [] [103, 7] [] (by decide) (by decide), hgen, List.mem_singleton.2 rfl⟩, hfin, absent_of_length (by decide) (by decide)⟩

/-! ## Where it holds -/

/-- Three edges in a row, the first two with the same label. -/
def lineData : LGraph ℕ := ⟨[(1, .none), (2, .none), (3, .none), (4, .none)], [(1, 2, .str 7), (2, 3, .str 7), (3, 4, .str 8)]⟩

/-- Two edges in a row. -/
def linePat : LGraph ℕ := ⟨[(1, .none), (2, .none), (3, .none)], [(1, 2, .str 7), (2, 3, .str 7)]⟩

theorem lineData_plain : PlainData lineData :=
  ⟨by decide, by decide, by decide, by decide, fun e he => by
    simp [lineData] at he
    rcases he with rfl | rfl | rfl <;> exact ⟨_, rfl⟩, fun v l h => by
    simp only [LGraph.namesAt, lineData, List.lookup] at h
    split at h <;> (try split at h) <;> (try split at h) <;> (try split at h) <;> simp [Label.names] at h⟩

theorem lineData_apart : NamesApart witnessNames lineData := ⟨names_apart _ (by decide) (by decide), names_apart_vertex _ (by decide) (by decide), fun i v => by simp [witnessNames]; omega⟩

theorem line_table : Tables lineData witnessNames [linePat] := by
  obtain ⟨m', rows', ps, h1, -⟩ := cover_partial lineData.view (by decide) [] (by simp) Marks.fresh .fresh
  have e1 : (cover lineData.view [] Marks.fresh).toOption.map (fun x => x.2.2) = some [.edge 1 2 7, .edge 2 3 7, .edge 3 4 8] := by decide +kernel
  rw [h1] at e1
  have e1 : ps = _ := Option.some.inj e1
  subst e1
  have hgen : ∃ cs, generate (witnessEnv 0 [7, 7, 8] []) (rewriteGraph witnessNames [.edge 1 2 7, .edge 2 3 7, .edge 3 4 8]) = .ok cs ∧ ⟨7, 7, [(2, 1)], {3}, some (.edge 7), some (.edge 7), 0, 1⟩ ∈ cs := by
    refine ⟨[⟨7, 7, [(2, 1)], {3}, some (.edge 7), some (.edge 7), 0, 1⟩, ⟨7, 8, [(2, 1)], {5}, some (.edge 7), some (.edge 8), 1, 1⟩], toOption_ok (by decide +kernel), by simp⟩
  obtain ⟨cs, h2, h3⟩ := hgen
  have hfin : finalPattern [] (⟨7, 7, [(2, 1)], {3}, some (.edge 7), some (.edge 7), 0, 1⟩ : GCand ℕ) = .ok linePat := toOption_ok (by decide +kernel)
  exact .tested [] _ _ _ .empty ⟨[], Marks.fresh, _, _, _, List.Forall₂.nil, .fresh, h1, witnessEnv_ok _ _ _, witnessEnv_reads lineData [] [7, 7, 8] [] (by decide) (by decide), h2, h3⟩ hfin (List.Perm.refl _)

/-- The hypotheses of `table_patterns_occur_partial` hold for a table with a row. -/
example : ∃ h, Occurs lineData linePat h := (table_patterns_occur_partial lineData lineData_plain witnessNames witnessNames_ok lineData_apart _ line_table linePat (by simp)).1

def lineRow : Row ℕ := ⟨linePat.view, [[(1, 1), (2, 2), (3, 3)]], []⟩

theorem lineRow_for : RowFor lineData linePat lineRow := by
  have hmade := ((tables_good lineData_plain witnessNames_ok lineData_apart line_table).1 linePat (by simp)).1
  refine ⟨rfl, ?_, ?_⟩
  · intro e he
    obtain rfl : e = [(1, 1), (2, 2), (3, 3)] := by simpa [lineRow] using he
    refine ⟨id, (embeddings_exact_partial false lineData linePat lineData_plain.simpleData hmade id).2 ⟨by decide, fun _ _ _ _ h => h, by decide, by decide⟩, List.Perm.refl _⟩
  · intro h hf
    have ho := (embeddings_exact_partial false lineData linePat lineData_plain.simpleData hmade h).1 hf
    have h1 := ho.edges (1, 2, .str 7) (by decide)
    have h2 := ho.edges (2, 3, .str 7) (by decide)
    simp [lineData] at h1 h2
    refine ⟨_, List.mem_singleton.2 rfl, ?_⟩
    have : h 1 = 1 ∧ h 2 = 2 ∧ h 3 = 3 := by omega
    simp [linePat, LGraph.verts, this]

/-- The hypotheses of `tested_pattern_occurs_partial` hold for a table with a row: the row is merged with the third edge. -/
example : ∃ c g, c.firstPat = some (.row 0) ∧ c.secondPat = some (.edge 8) ∧ finalPattern [linePat] c = .ok g ∧ g.verts.length = 4 ∧ ∃ h, Occurs lineData g h := by
  have ht : TableFor lineData [linePat] [lineRow] := .cons lineRow_for .nil
  have hrows := rows_ok lineData_plain (tables_good lineData_plain witnessNames_ok lineData_apart line_table).1 ht
  obtain ⟨m', rows', ps, h1, -⟩ := cover_partial lineData.view (by decide) [lineRow] hrows Marks.fresh .fresh
  have e1 : (cover lineData.view [lineRow] Marks.fresh).toOption.map (fun x => x.2.2) = some [.emb 0 [(1, 1), (2, 2), (3, 3)] [(3, 3)], .edge 3 4 8] := by decide +kernel
  rw [h1] at e1
  have e1 : ps = _ := Option.some.inj e1
  subst e1
  have hgen : generate (witnessEnv 1 [8] []) (rewriteGraph witnessNames [.emb 0 [(1, 1), (2, 2), (3, 3)] [(3, 3)], .edge 3 4 8]) = .ok [⟨100, 8, [(3, 1)], {2}, some (.row 0), some (.edge 8), 1, 1⟩] := toOption_ok (by decide +kernel)
  obtain ⟨g, h2, h3, -⟩ := tested_pattern_occurs_partial lineData lineData_plain witnessNames witnessNames_ok lineData_apart _ line_table [lineRow] ht Marks.fresh .fresh _ h1 _ (witnessEnv_ok _ _ _)
    (witnessEnv_reads lineData [lineRow] [8] [] (by decide) (by decide)) _ hgen _ (List.mem_singleton.2 rfl)
  have hfin : finalPattern [linePat] (⟨100, 8, [(3, 1)], {2}, some (.row 0), some (.edge 8), 1, 1⟩ : GCand ℕ) = .ok ⟨[(1, .none), (2, .none), (3, .none), (4, .none)], [(1, 2, .str 7), (2, 3, .str 7), (3, 4, .str 8)]⟩ := toOption_ok (by decide +kernel)
  refine ⟨_, g, rfl, rfl, h2, ?_, h3⟩
  rw [hfin] at h2
  rw [← Except.ok.inj h2]
  rfl

end Verif.Graph
