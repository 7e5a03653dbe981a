import Verif.Graph.EncodeProps

/-!
# Description of the code table (C89): properties
-/

set_option autoImplicit false
set_option linter.unusedSectionVars false

namespace Verif.Graph

variable {σ : Type} [DecidableEq σ]

/-! ## Specification -/

/-- The pattern of a kind of node; `pats` are the patterns of the rows. -/
def kindPattern (pats : List (LGraph σ)) : PKind σ → LGraph σ
  | .row i => pats.getD i ⟨[], []⟩
  | .vertex l => vertexSingleton l
  | .edge l => edgeSingleton l

/-- The pattern vertices that are ports in the rewritten graph. -/
def portSet (ps : List (Piece σ)) (k : PKind σ) : Finset ℕ := (labelsOf ps k).toFinset

/-! ## Singletons -/

theorem logBinomial_11 : logBinomial 1 1 = .ok 0 := by rw [logBinomial_ok 1 1 le_rfl]; simp

/-- C89. The shortcut for singletons gives the description of the singleton pattern. -/
theorem singleton_description (blank : σ → Bool) (t : LabelTable σ) (l : σ) (hl : blank l = false) :
    encodeSingleton blank t 1 l = encode t (vertexSingleton l) ∧ encodeSingleton blank t 2 l = encode t (edgeSingleton l) := by
  obtain ⟨u, hu⟩ : ∃ u : ℕ → ℕ, ∀ x : ℕ, universalInt0 x = .ok (u x) := ⟨fun x => (universalInt0_ok x).choose, fun x => (universalInt0_ok x).choose_spec⟩
  have hu1 : universalInt0 1 = .ok (u 1) := hu 1
  have hu2 : universalInt0 2 = .ok (u 2) := hu 2
  constructor
  · have c1 : countVertex (vertexSingleton l) = .ok [(l, 1)] := rfl
    have c2 : countEdge (vertexSingleton l) = .ok [] := rfl
    have c3 : (vertexSingleton l).nodes.length = 1 := rfl
    unfold encodeSingleton encodeVertexSingleton encode
    rw [c1, c2, c3]
    simp only [if_true, hl, Bool.false_eq_true, if_false, Except.bind, describeLabels, Nat.cast_one, hu1, logBinomial_11]
    split
    · rfl
    · cases t.vertex.lookup l with
      | none => rfl
      | some c => simp only [Except.map, add_zero]
  · have c1 : countVertex (edgeSingleton l) = .ok [] := rfl
    have c2 : countEdge (edgeSingleton l) = .ok [(l, 1)] := rfl
    have c3 : (edgeSingleton l).nodes.length = 2 := rfl
    have e4 : logBinomial 4 1 = .ok (Real.logb 2 ((4 : ℕ).choose 1)) := logBinomial_ok 4 1 (by norm_num)
    unfold encodeSingleton encodeEdgeSingleton encode
    rw [c1, c2, c3]
    simp only [OfNat.ofNat_ne_one, if_true, hl, Bool.false_eq_true, if_false, Except.bind, describeLabels, Nat.cast_ofNat, Nat.cast_one, hu1, hu2, show (2 : ℕ) ^ 2 = 4 from rfl, e4]
    split
    · rfl
    · cases t.edge.lookup l with
      | none => rfl
      | some c => simp only [Except.map, add_zero, zero_add]

theorem sumOk_ok {α : Type} (L : List α) (f : α → Except String ℝ) (v : α → ℝ) (h : ∀ x ∈ L, f x = .ok (v x)) : sumOk (L.map f) = .ok (L.map v).sum := by
  induction L with
  | nil => rfl
  | cons a t ih =>
    rw [List.map_cons, sumOk, h a (List.mem_cons_self ..), ih (fun x hx => h x (List.mem_cons_of_mem _ hx))]
    rfl

theorem sumOk_append (a b : List (Except String ℝ)) (x y : ℝ) (ha : sumOk a = .ok x) (hb : sumOk b = .ok y) : sumOk (a ++ b) = .ok (x + y) := by
  induction a generalizing x with
  | nil =>
    have : (0 : ℝ) = x := Except.ok.inj ha
    rw [← this, List.nil_append, hb, zero_add]
  | cons c t ih =>
    rw [sumOk] at ha
    obtain ⟨d, hd, h2⟩ := bind_ok ha
    obtain ⟨e, he, rfl⟩ := map_ok h2
    rw [List.cons_append, sumOk, hd, ih e he, add_assoc]
    rfl

theorem card_portSet (ps : List (Piece σ)) (i : ℕ) : (portUsage ps i).length = (portSet ps (.row i)).card := by
  obtain ⟨ks, h1, h2, h3⟩ := foldl_bump_eq (labelsOf ps (.row i))
  have : portUsage ps i = ks.map (fun k => (k, (labelsOf ps (.row i)).count k)) := h3
  have f : portSet ps (.row i) = ks.toFinset := by ext a; rw [portSet, List.mem_toFinset, List.mem_toFinset, h2]
  rw [this, List.length_map, f, List.toFinset_card_of_nodup h1]

theorem singleton_ports (ps : List (Piece σ)) (l : σ) : (InUse ps (.vertex l) → (portSet ps (.vertex l)).card = 1) ∧ (InUse ps (.edge l) → (portSet ps (.edge l)).card = 2) := by
  constructor
  · intro h
    have : portSet ps (.vertex l) = {1} := by
      ext a
      rw [portSet, List.mem_toFinset, labelsOf, List.mem_flatMap, Finset.mem_singleton]
      constructor
      · rintro ⟨pc, hpc, ha⟩
        rw [List.mem_filter, decide_eq_true_eq] at hpc
        cases pc <;> simp_all [Piece.kind, Piece.ports]
      · rintro rfl
        obtain ⟨pc, hpc, e⟩ := h
        refine ⟨pc, List.mem_filter.mpr ⟨hpc, decide_eq_true e⟩, ?_⟩
        cases pc <;> simp_all [Piece.kind, Piece.ports]
    rw [this]; rfl
  · intro h
    have : portSet ps (.edge l) = {1, 2} := by
      ext a
      rw [portSet, List.mem_toFinset, labelsOf, List.mem_flatMap, Finset.mem_insert, Finset.mem_singleton]
      constructor
      · rintro ⟨pc, hpc, ha⟩
        rw [List.mem_filter, decide_eq_true_eq] at hpc
        cases pc <;> simp_all [Piece.kind, Piece.ports]
      · intro ha
        obtain ⟨pc, hpc, e⟩ := h
        refine ⟨pc, List.mem_filter.mpr ⟨hpc, decide_eq_true e⟩, ?_⟩
        cases pc <;> simp_all [Piece.kind, Piece.ports]
    rw [this]; rfl

/-! ## C89 -/

/-- C89. After a cover, the description of the code table is the sum of the descriptions of the patterns in use with their ports, and two more bits for every edge singleton in use. -/
theorem table_description (g : DGraph σ) (rows : List (Row σ)) (m : Marks σ) (m' : Marks σ) (rows' : List (Row σ)) (ps : List (Piece σ)) (hc : cover g rows m = .ok (m', rows', ps)) (hne : ps ≠ []) (blank : σ → Bool)
    (hblank : ∀ l, InUse ps (.vertex l) ∨ InUse ps (.edge l) → blank l = false) (t : LabelTable σ) (pats : List (LGraph σ)) (hpats : pats.length = rows.length) (U : List (PKind σ)) (hU : U.Nodup) (hUm : ∀ k, k ∈ U ↔ InUse ps k)
    (len : PKind σ → ℝ) (hlen : ∀ k ∈ U, rowDescription t (kindPattern pats k) (portSet ps k).card = .ok (len k)) (edges : List σ) (hE : edges.Nodup) (hEm : ∀ l, l ∈ edges ↔ InUse ps (.edge l)) :
    tableDescription blank t pats ps = .ok ((U.map len).sum + 2 * edges.length) := by
  have hn := cover_rows_lt g rows m _ hc
  obtain ⟨vs, hv, hvm, hve⟩ := foldl_bump_eq (ps.filterMap Piece.vertexLabel?)
  obtain ⟨es, he, hem, hee⟩ := foldl_bump_eq (ps.filterMap Piece.edgeLabel?)
  have hvm : ∀ l, l ∈ vs ↔ InUse ps (.vertex l) := fun l => (hvm l).trans (mem_vertex ps l)
  have hem : ∀ l, l ∈ es ↔ InUse ps (.edge l) := fun l => (hem l).trans (mem_edge ps l)
  obtain ⟨is, his⟩ : ∃ is : List ℕ, is = (List.range pats.length).filter (fun i => decide (rowUsage ps i ≠ 0)) := ⟨_, rfl⟩
  have himem : ∀ i, i ∈ is ↔ InUse ps (.row i) := by
    intro i
    rw [his, List.mem_filter, List.mem_range, decide_eq_true_eq, inUse_iff, count_row]
    refine ⟨fun h => by omega, fun h => ⟨?_, by omega⟩⟩
    rw [← count_row, ← inUse_iff] at h
    obtain ⟨pc, hpc, e⟩ := h
    rw [hpats]
    exact hn pc hpc i e
  have hzip : (pats.zipIdx.filter (fun x => decide (rowUsage ps x.2 ≠ 0))).map (fun x => rowDescription t x.1 (portUsage ps x.2).length) = is.map (fun i => rowDescription t (kindPattern pats (.row i)) (portSet ps (.row i)).card) := by
    have e : pats.zipIdx = (List.range pats.length).map (fun i => (pats.getD i ⟨[], []⟩, i)) := by
      apply List.ext_getElem
      · simp
      · intro i h1 h2
        simp at h1
        simp [h1]
    rw [e, List.filter_map, List.map_map, his]
    refine List.map_congr_left (fun i _ => ?_)
    simp only [Function.comp, kindPattern, card_portSet]
  have hrow := sumOk_ok is (fun i => rowDescription t (kindPattern pats (.row i)) (portSet ps (.row i)).card) (fun i => len (.row i)) (fun i hi => hlen _ ((hUm _).mpr ((himem i).mp hi)))
  have hvert : ∀ l ∈ vs, (encodeSingleton blank t 1 l).map (fun d => d + Real.logb 2 2) = .ok (len (.vertex l)) := by
    intro l hl
    have hl := (hvm l).mp hl
    have := hlen _ ((hUm _).mpr hl)
    rw [(singleton_ports ps l).1 hl] at this
    change rowDescription t (vertexSingleton l) 1 = _ at this
    unfold rowDescription at this
    rw [show (vertexSingleton l).nodes.length = 1 from rfl, logBinomial_11] at this
    obtain ⟨s, h1, h2⟩ := map_ok this
    rw [(singleton_description blank t l (hblank l (.inl hl))).1, h1, ← h2]
    change Except.ok _ = Except.ok _
    congr 1; norm_num
  have hedge : ∀ l ∈ es, (encodeSingleton blank t 2 l).map (fun d => d + (Real.logb 2 3 + 2)) = .ok (len (.edge l) + 2) := by
    intro l hl
    have hl := (hem l).mp hl
    have := hlen _ ((hUm _).mpr hl)
    rw [(singleton_ports ps l).2 hl] at this
    change rowDescription t (edgeSingleton l) 2 = _ at this
    unfold rowDescription at this
    rw [show (edgeSingleton l).nodes.length = 2 from rfl, logBinomial_ok 2 2 le_rfl] at this
    obtain ⟨s, h1, h2⟩ := map_ok this
    rw [(singleton_description blank t l (hblank l (.inr hl))).2, h1, ← h2]
    change Except.ok _ = Except.ok _
    congr 1; norm_num; ring
  have hsing : singletonDescription blank t ps = .ok ((vs.map (fun l => len (.vertex l))).sum + (es.map (fun l => len (.edge l) + 2)).sum) := by
    unfold singletonDescription vertexUsage edgeUsage
    rw [hve, hee, List.map_map, List.map_map]
    exact sumOk_append _ _ _ _ (sumOk_ok vs _ _ hvert) (sumOk_ok es _ _ hedge)
  unfold tableDescription
  rw [if_neg hne, hzip, hrow, hsing]
  change Except.ok _ = Except.ok _
  congr 1
  have hperm : U.Perm (is.map PKind.row ++ (vs.map PKind.vertex ++ es.map PKind.edge)) := by
    refine (List.perm_ext_iff_of_nodup hU ?_).mpr (fun k => ?_)
    · rw [List.nodup_append, List.nodup_append]
      refine ⟨(his ▸ List.nodup_range.filter _ : is.Nodup).map (fun x y h => by injection h), ⟨hv.map (fun x y h => by injection h), he.map (fun x y h => by injection h), ?_⟩, ?_⟩
      · intro a ha b hb hab
        obtain ⟨x, -, rfl⟩ := List.mem_map.mp ha
        obtain ⟨y, -, rfl⟩ := List.mem_map.mp hb
        cases hab
      · intro a ha b hb hab
        obtain ⟨x, -, rfl⟩ := List.mem_map.mp ha
        rcases List.mem_append.mp hb with hb | hb <;> obtain ⟨y, -, rfl⟩ := List.mem_map.mp hb <;> cases hab
    · rw [hUm]
      cases k <;> simp [himem, hvm, hem]
  have hel : edges.length = es.length := ((List.perm_ext_iff_of_nodup hE he).mpr (fun l => (hEm l).trans (hem l).symm)).length_eq
  rw [(hperm.map len).sum_eq, List.map_append, List.map_append, List.sum_append, List.sum_append, List.map_map, List.map_map, List.map_map, List.sum_map_add, hel]
  simp only [List.map_const', List.sum_replicate, Function.comp_def, nsmul_eq_mul]
  ring

/-- Full statement: the description of the code table is the sum of the descriptions of the patterns in use with their ports, be they rows or singletons. Proved here when no edge singleton is in use. Missing: an edge singleton counts two
bits more than the same pattern in a row (`table_description`). -/
theorem table_description_partial (g : DGraph σ) (rows : List (Row σ)) (m : Marks σ) (m' : Marks σ) (rows' : List (Row σ)) (ps : List (Piece σ)) (hc : cover g rows m = .ok (m', rows', ps)) (hne : ps ≠ []) (blank : σ → Bool)
    (hblank : ∀ l, InUse ps (.vertex l) ∨ InUse ps (.edge l) → blank l = false) (t : LabelTable σ) (pats : List (LGraph σ)) (hpats : pats.length = rows.length) (U : List (PKind σ)) (hU : U.Nodup) (hUm : ∀ k, k ∈ U ↔ InUse ps k)
    (len : PKind σ → ℝ) (hlen : ∀ k ∈ U, rowDescription t (kindPattern pats k) (portSet ps k).card = .ok (len k)) (hno : ∀ l, ¬ InUse ps (.edge l)) : tableDescription blank t pats ps = .ok (U.map len).sum := by
  have := table_description g rows m m' rows' ps hc hne blank hblank t pats hpats U hU hUm len hlen [] (by simp) (fun l => ⟨fun h => by simp at h, fun h => absurd h (hno l)⟩)
  simpa using this

/-- A code table that was not covered, or that covers a graph without labels, has no description. -/
theorem table_not_covered (blank : σ → Bool) (t : LabelTable σ) (pats : List (LGraph σ)) : tableDescription blank t pats [] = .error "ValueError" := rfl

/-- The path without rows: the description of the table is two bits above the sum of the descriptions of the two patterns in use. -/
theorem edge_singleton_two_bits : ∃ (m' : Marks ℕ) (rows' : List (Row ℕ)) (ps : List (Piece ℕ)) (t : LabelTable ℕ) (a b : ℝ), cover pathGraph [] Marks.fresh = .ok (m', rows', ps) ∧ (∀ k, InUse ps k ↔ k = .edge 1 ∨ k = .vertex 9) ∧
    labelCodes pathData = .ok t ∧ rowDescription t (edgeSingleton 1) 2 = .ok a ∧ rowDescription t (vertexSingleton 9) 1 = .ok b ∧ tableDescription (fun _ => false) t [] ps = .ok (a + b + 2) := by
  obtain ⟨m', rows', ps, h1, -⟩ := cover_partial pathGraph (by decide) [] (by simp) Marks.fresh .fresh
  have e1 : (cover pathGraph [] Marks.fresh).toOption.map (fun x => x.2.2) = some [.edge 0 1 1, .edge 1 2 1, .vertex 0 9, .vertex 1 9, .vertex 2 9] := by decide +kernel
  have h0 := h1
  rw [h1] at e1
  have e1 : ps = _ := Option.some.inj e1
  have hk : ∀ k, InUse ps k ↔ k = .edge 1 ∨ k = .vertex 9 := by
    intro k
    subst e1
    unfold InUse
    simp only [List.mem_cons, List.not_mem_nil, or_false, exists_eq_or_imp, exists_eq_left, Piece.kind]
    tauto
  obtain ⟨t, len, t1, t2⟩ := path_descriptions
  have r : ∀ (p : LGraph ℕ) (k : ℕ), k ≤ p.nodes.length → p ∈ [vertexSingleton 9, edgeSingleton 1, halfEdge] → rowDescription t p k = .ok (len p + (Real.logb 2 (p.nodes.length + 1) + Real.logb 2 (p.nodes.length.choose k))) := by
    intro p k hk hp
    unfold rowDescription
    rw [logBinomial_ok _ _ hk, t2 p hp]
    rfl
  have r1 := r (edgeSingleton 1) 2 le_rfl (by simp)
  have r2 := r (vertexSingleton 9) 1 le_rfl (by simp)
  refine ⟨m', rows', ps, t, _, _, h1, hk, t1, r1, r2, ?_⟩
  have p1 := (singleton_ports ps 1).2 ((hk _).mpr (.inl rfl))
  have p2 := (singleton_ports ps 9).1 ((hk _).mpr (.inr rfl))
  have := table_description pathGraph [] Marks.fresh m' rows' ps h0 (by subst e1; simp) (fun _ => false) (fun _ _ => rfl) t [] rfl [.edge 1, .vertex 9] (by simp) (fun k => by rw [hk]; simp)
    (fun k => len (kindPattern [] k) + (Real.logb 2 ((kindPattern [] k).nodes.length + 1) + Real.logb 2 ((kindPattern [] k).nodes.length.choose (portSet ps k).card))) (by
      intro k hk
      simp only [List.mem_cons, List.not_mem_nil, or_false] at hk
      rcases hk with rfl | rfl
      · rw [p1]; exact r1
      · rw [p2]; exact r2) [1] (by simp) (fun l => by rw [hk]; simp)
  rw [this]
  simp only [List.map_cons, List.map_nil, List.sum_cons, List.sum_nil, p1, p2, kindPattern, List.length_cons, List.length_nil]
  congr 1
  push_cast
  ring

/-- An edge with labelled ends. -/
def fullEdge : LGraph ℕ := ⟨[(1, .str 9), (2, .str 9)], [(1, 2, .str 1)]⟩

theorem fullEdge_tidy : Tidy fullEdge where
  hash := ⟨by simp [fullEdge, Label.Hashable], by simp [fullEdge, Label.Hashable]⟩
  verts := rfl
  ends := by simp [fullEdge, LGraph.verts]
  vonce := by simp [fullEdge, Label.names]
  eonce := by decide

/-- The path with one row, an edge with labelled ends, which covers it entirely: the table is described by the row with its two ports, and `table_description_partial` applies. -/
example : ∃ (m' : Marks ℕ) (rows' : List (Row ℕ)) (ps : List (Piece ℕ)) (t : LabelTable ℕ) (a : ℝ), cover pathGraph [pathRow] Marks.fresh = .ok (m', rows', ps) ∧ (∀ l, ¬ InUse ps (.edge l)) ∧
    rowDescription t fullEdge 2 = .ok a ∧ tableDescription (fun _ => false) t [fullEdge] ps = .ok a := by
  obtain ⟨m', rows', ps, h1, -⟩ := cover_partial pathGraph (by decide) [pathRow] (by simpa using pathRow_ok) Marks.fresh .fresh
  have e1 : (cover pathGraph [pathRow] Marks.fresh).toOption.map (fun x => x.2.2) = some [.emb 0 [(0, 1), (1, 2)] [(1, 2)], .emb 0 [(1, 1), (2, 2)] [(1, 1)]] := by decide +kernel
  have h0 := h1
  rw [h1] at e1
  have e1 : ps = _ := Option.some.inj e1
  have hk : ∀ k, InUse ps k ↔ k = .row 0 := by
    intro k
    subst e1
    unfold InUse
    simp only [List.mem_cons, List.not_mem_nil, or_false, exists_eq_or_imp, exists_eq_left, Piece.kind]
    tauto
  have hport : (portSet ps (.row 0)).card = 2 := by subst e1; decide +kernel
  have hf : FromData pathData fullEdge := by unfold FromData; decide
  obtain ⟨t, u, a1, a2, a3⟩ := description_exact pathData pathData_hash (.inl (by decide)) _ fullEdge_tidy hf
  have r1 : ∃ a, rowDescription t fullEdge 2 = .ok a := by
    unfold rowDescription
    rw [logBinomial_ok _ _ (by simp [fullEdge]), a3]
    exact ⟨_, rfl⟩
  obtain ⟨a, r1⟩ := r1
  refine ⟨m', rows', ps, t, a, h1, fun l hl => by simp [hk] at hl, r1, ?_⟩
  have := table_description_partial pathGraph [pathRow] Marks.fresh m' rows' ps h0 (by subst e1; simp) (fun _ => false) (fun _ _ => rfl) t [fullEdge] rfl [.row 0] (by simp) (fun k => by rw [hk]; simp)
    (fun _ => a) (by
      intro k hk
      simp only [List.mem_cons, List.not_mem_nil, or_false] at hk
      subst hk
      rw [hport]
      exact r1) (fun l hl => by simp [hk] at hl)
  simpa using this

end Verif.Graph
