import Verif.Graph.RelabelGen
import Verif.Graph.RelabelSearch
import Verif.Graph.VertexProps
import Mathlib.Logic.Equiv.Fintype

/-!
# The names of the labels of a data graph: property C149
-/

set_option autoImplicit false
set_option linter.unusedSectionVars false

namespace Verif.Graph

variable {σ τ : Type} [DecidableEq σ] [DecidableEq τ]

/-! ## There and back -/

theorem Label.relabel_symm (g : σ ≃ τ) (l : Label σ) : (l.relabel g).relabel g.symm = l := by cases l <;> simp [Label.relabel, List.map_map, Function.comp_def]

theorem LGraph.relabel_symm (g : σ ≃ τ) (p : LGraph σ) : (p.relabel g).relabel g.symm = p := by
  obtain ⟨ns, es⟩ := p
  simp [LGraph.relabel, List.map_map, Function.comp_def, Label.relabel_symm]

theorem PKind.relabel_symm (g : σ ≃ τ) (k : PKind σ) : (k.relabel g).relabel g.symm = k := by cases k <;> simp [PKind.relabel]

theorem GCand.relabel_symm (g : σ ≃ τ) (c : GCand σ) : (c.relabel g).relabel g.symm = c := by
  obtain ⟨a, b, ports, dp, f, s, u, x⟩ := c
  cases f <;> cases s <;> simp [GCand.relabel, PKind.relabel_symm]

theorem Tried.relabel_symm (g : σ ≃ τ) (c : Tried σ) : (c.relabel g).relabel g.symm = c := by simp [Tried.relabel, GCand.relabel_symm, LGraph.relabel_symm]

/-- Candidates and candidates with the new names. -/
def triedEquiv (g : σ ≃ τ) : Tried σ ≃ Tried τ := ⟨Tried.relabel g, Tried.relabel g.symm, Tried.relabel_symm g, fun c => by
  have := Tried.relabel_symm g.symm c
  rwa [Equiv.symm_symm] at this⟩

/-! ## The parts of the search -/

theorem uses_relabel (g : σ ≃ τ) (d : LGraph σ) (l : σ) : (d.relabel g).view.Uses (g l) ↔ d.view.Uses l := by
  rw [view_relabel]
  unfold DGraph.Uses
  simp only [edges_relabel]
  refine or_congr ?_ Iff.rfl
  simp only [DGraph.relabel, List.mem_map, Prod.mk.injEq]
  constructor
  · rintro ⟨v, ls, ⟨n, hn, rfl, rfl⟩, hl⟩
    exact ⟨n.1, n.2, hn, by simpa using hl⟩
  · rintro ⟨v, ls, hn, hl⟩
    exact ⟨v, ls.map g, ⟨(v, ls), hn, rfl, rfl⟩, List.mem_map.2 ⟨l, hl, rfl⟩⟩

theorem tableRows_relabel (g : σ ≃ τ) (emb : LGraph σ → List Embedding) (pats : List (LGraph σ)) : tableRows (embRelabel g emb) (pats.map (LGraph.relabel g)) = (tableRows emb pats).map (Row.relabel g) := by
  simp [tableRows, embRelabel, Row.relabel, List.map_map, Function.comp_def, LGraph.relabel_symm, view_relabel]

theorem cover_table_relabel (g : σ ≃ τ) (emb : LGraph σ → List Embedding) (d : LGraph σ) (pats : List (LGraph σ)) (m : Marks σ) :
    cover (d.relabel g).view (tableRows (embRelabel g emb) (pats.map (LGraph.relabel g))) (m.relabel g) = (cover d.view (tableRows emb pats) m).map (mrp g) := by
  rw [tableRows_relabel, view_relabel, cover_relabel]

theorem singletonDescription_congr {b c : σ → Bool} (t : LabelTable σ) (ps : List (Piece σ)) (h : ∀ l, ((∃ u v, Piece.edge u v l ∈ ps) ∨ ∃ v, Piece.vertex v l ∈ ps) → b l = c l) : singletonDescription b t ps = singletonDescription c t ps := by
  have h1 : ∀ x ∈ vertexUsage ps, b x.1 = c x.1 := by
    intro x hx
    obtain ⟨pc, hp, hl⟩ := List.mem_filterMap.1 ((bump_small (ps.filterMap Piece.vertexLabel?)).2 x hx).1
    cases pc with
    | emb => cases hl
    | edge => cases hl
    | vertex v l => cases hl; exact h _ (.inr ⟨v, hp⟩)
  have h2 : ∀ x ∈ edgeUsage ps, b x.1 = c x.1 := by
    intro x hx
    obtain ⟨pc, hp, hl⟩ := List.mem_filterMap.1 ((bump_small (ps.filterMap Piece.edgeLabel?)).2 x hx).1
    cases pc with
    | emb => cases hl
    | edge u v l => cases hl; exact h _ (.inl ⟨u, v, hp⟩)
    | vertex => cases hl
  have h3 : ∀ (n : ℕ) (l : σ), b l = c l → encodeSingleton b t n l = encodeSingleton c t n l := by
    intro n l hl
    unfold encodeSingleton encodeVertexSingleton encodeEdgeSingleton
    rw [hl]
  unfold singletonDescription
  congr 2
  · exact List.map_congr_left (fun x hx => by rw [h3 _ _ (h1 x hx)])
  · exact List.map_congr_left (fun x hx => by rw [h3 _ _ (h2 x hx)])

/-- The total description length of a table does not depend on the names of labels. -/
theorem total_length_relabel {g : σ ≃ τ} {nm : Names σ} {nm' : Names τ} (hn : NamesKept g nm nm') (d : LGraph σ) {blank : σ → Bool} {blank' : τ → Bool} (hb : ∀ l, d.view.Uses l → blank' (g l) = blank l) (t : LabelTable σ)
    (emb : LGraph σ → List Embedding) (pats : List (LGraph σ)) : totalLength blank' (t.relabel g) nm' (embRelabel g emb) (d.relabel g) (pats.map (LGraph.relabel g)) = totalLength blank t nm emb d pats := by
  have hc := cover_table_relabel g emb d pats Marks.fresh
  rw [fresh_relabel] at hc
  unfold totalLength
  rw [hc]
  cases h : cover d.view (tableRows emb pats) Marks.fresh with
  | error s => rfl
  | ok r =>
    obtain ⟨h1, h2⟩ := cover_uses _ _ _ _ h
    have hs : ∀ (t' : LabelTable τ) pats', tableDescription blank' t' pats' (r.2.2.map (Piece.relabel g)) = tableDescription (fun x => blank (g.symm x)) t' pats' (r.2.2.map (Piece.relabel g)) := by
      intro t' pats'
      unfold tableDescription
      rw [singletonDescription_congr (b := blank') (c := fun x => blank (g.symm x))]
      rintro l (⟨u, v, hl⟩ | ⟨v, hl⟩)
      · obtain ⟨pc, hp, hq⟩ := List.mem_map.1 hl
        cases pc <;> cases hq
        rw [hb _ (h1 _ _ _ hp), Equiv.symm_apply_apply]
      · obtain ⟨pc, hp, hq⟩ := List.mem_map.1 hl
        cases pc <;> cases hq
        rw [hb _ (h2 _ _ hp), Equiv.symm_apply_apply]
    simp only [Except.map, Except.bind, mrp, hs, tableDescription_relabel, rewriteGraph_relabel hn, rewriteDesc_relabel, List.length_map]

theorem usage_relabel (g : σ ≃ τ) (d : LGraph σ) (emb : LGraph σ → List Embedding) (pats : List (LGraph σ)) (i : ℕ) :
    (cover (d.relabel g).view (tableRows (embRelabel g emb) (pats.map (LGraph.relabel g))) Marks.fresh).map (fun x => rowUsage x.2.2 i) = (cover d.view (tableRows emb pats) Marks.fresh).map (fun x => rowUsage x.2.2 i) := by
  have hc := cover_table_relabel g emb d pats Marks.fresh
  rw [fresh_relabel] at hc
  rw [hc, Except.map_map']
  simp only [mrp, rowUsage_relabel]

theorem mapM_relabel {α β γ δ : Type} (f : α → β) (h : γ → δ) (k : α → Except String γ) (k' : β → Except String δ) (hk : ∀ a, k' (f a) = (k a).map h) : ∀ l : List α, (l.map f).mapM k' = (l.mapM k).map (List.map h)
  | [] => rfl
  | a :: t => by
    rw [List.map_cons, List.mapM_cons, List.mapM_cons, hk, mapM_relabel f h k k' hk t]
    cases k a with
    | error s => rfl
    | ok x => cases t.mapM k <;> rfl

/-- The candidates with their patterns, with the new names. -/
theorem triedOf_relabel {g : σ ≃ τ} {nm : Names σ} {nm' : Names τ} (hn : NamesKept g nm nm') (emb : LGraph σ → List Embedding) (d : LGraph σ) (pats rowPats : List (LGraph σ)) (m : Marks σ) (genv : GenEnv σ) :
    triedOf nm' (embRelabel g emb) (d.relabel g) (pats.map (LGraph.relabel g)) (rowPats.map (LGraph.relabel g)) (m.relabel g) (genv.relabel g) = (triedOf nm emb d pats rowPats m genv).map (List.map (Tried.relabel g)) := by
  unfold triedOf
  rw [cover_table_relabel, Except.bind_map', Except.map_bind']
  refine Except.bind_congr' _ (fun r => ?_)
  have e : (mrp g r).2.2 = r.2.2.map (Piece.relabel g) := rfl
  rw [e, rewriteGraph_relabel hn, generate_relabel, Except.bind_map', Except.map_bind']
  refine Except.bind_congr' _ (fun cs => ?_)
  refine mapM_relabel _ _ _ _ (fun c => ?_) cs
  rw [finalPattern_relabel, Except.map_map', Except.map_map']
  rfl

theorem mapM_mem {α β : Type} (k : α → Except String β) : ∀ (l : List α) (r : List β), l.mapM k = .ok r → ∀ b ∈ r, ∃ a ∈ l, k a = .ok b
  | [], r, h, b, hb => by cases h; cases hb
  | a :: t, r, h, b, hb => by
    rw [List.mapM_cons] at h
    cases hk : k a with
    | error s => rw [hk] at h; cases h
    | ok x =>
      cases ht : t.mapM k with
      | error s => rw [hk, ht] at h; cases h
      | ok y =>
        rw [hk, ht] at h
        cases h
        rcases List.mem_cons.1 hb with rfl | hb
        · exact ⟨a, List.mem_cons_self, hk⟩
        · obtain ⟨c, hc, h2⟩ := mapM_mem k t y ht b hb
          exact ⟨c, List.mem_cons_of_mem _ hc, h2⟩

theorem triedOf_gen {nm : Names σ} {emb : LGraph σ → List Embedding} {d : LGraph σ} {pats rowPats : List (LGraph σ)} {m : Marks σ} {genv : GenEnv σ} {l : List (Tried σ)}
    (h : TestsAll (triedOf nm emb d pats rowPats m genv) l) {c : Tried σ} (hc : c ∈ l) :
    ∃ r cs, cover d.view (tableRows emb pats) m = .ok r ∧ generate genv (rewriteGraph nm r.2.2) = .ok cs ∧ c.cand ∈ cs ∧ finalPattern rowPats c.cand = .ok c.pattern := by
  unfold triedOf TestsAll at h
  cases h1 : cover d.view (tableRows emb pats) m with
  | error s => simp only [h1, Except.bind] at h; subst h; cases hc
  | ok r =>
    cases h2 : generate genv (rewriteGraph nm r.2.2) with
    | error s => simp only [h1, h2, Except.bind] at h; subst h; cases hc
    | ok cs =>
      simp only [h1, h2, Except.bind] at h
      cases h3 : cs.mapM (fun c => (finalPattern rowPats c).map (fun p => (⟨c, p⟩ : Tried σ))) with
      | error s => rw [h3] at h; simp only at h; subst h; cases hc
      | ok ts =>
        rw [h3] at h
        simp only at h
        obtain ⟨a, ha, hk⟩ := mapM_mem _ _ _ h3 c (h.mem_iff.1 hc)
        cases h4 : finalPattern rowPats a with
        | error s => rw [h4] at hk; cases hk
        | ok p =>
          rw [h4] at hk
          cases hk
          exact ⟨r, cs, rfl, h2, ha, h4⟩

theorem patsOf_along (g : σ ≃ τ) (rows : List (SRow (Tried σ))) : patsOf (rows.map (SRow.along (triedEquiv g))) = (patsOf rows).map (LGraph.relabel g) := by
  simp [patsOf, List.map_map, Function.comp_def, SRow.along, triedEquiv, Tried.relabel]

theorem before_relabel (g : σ ≃ τ) (t : LabelTable σ) {a b : Tried σ} (h : Before t a b) : Before (t.relabel g) (triedEquiv g a) (triedEquiv g b) := by
  unfold Before at h ⊢
  simpa only [triedEquiv, Equiv.coe_fn_mk, Tried.relabel, GCand.relabel, encode_relabel] using h

/-- C149: with other names for the labels, and the embeddings of every pattern listed in the same order, the search is the same one: it tests the same candidates in the same order under the new names, every table has the same length, and
the rows, their usages and the length at the end are the same under the new names. The names given by the program (of rows and of vertices) are kept, the labels of the data keep their alphabetical order, and an empty label stays empty. -/
theorem label_names_partial {g : σ ≃ τ} {nm : Names σ} {nm' : Names τ} (hn : NamesKept g nm nm') (d : LGraph σ) {lt : σ → σ → Bool} {lt' : τ → τ → Bool} (hlt : ∀ a b, d.view.Uses a → d.view.Uses b → lt' (g a) (g b) = lt a b)
    {blank : σ → Bool} {blank' : τ → Bool} (hb : ∀ l, d.view.Uses l → blank' (g l) = blank l) (t : LabelTable σ) (emb : LGraph σ → List Embedding) (env : SEnv (Tried σ) ℝ) (h : LabelSearch lt blank t nm emb d env) :
    LabelSearch lt' blank' (t.relabel g) nm' (embRelabel g emb) (d.relabel g) (env.along (triedEquiv g)) ∧
      ∀ late fuel timeout s, searchFit (env.along (triedEquiv g)) late fuel timeout (s.along (triedEquiv g)) = (searchFit env late fuel timeout s).map (Except.map (SState.along (triedEquiv g))) := by
  refine ⟨?_, fun late fuel timeout s => searchFit_along _ env late fuel timeout s⟩
  have hrows : ∀ rows' : List (SRow (Tried τ)), ∃ rows : List (SRow (Tried σ)), rows' = rows.map (SRow.along (triedEquiv g)) := fun rows' =>
    ⟨rows'.map (SRow.along (triedEquiv g).symm), by simp [List.map_map, Function.comp_def, SRow.symm_along]⟩
  have hstate : ∀ s' : SState (Tried τ) ℝ, ∃ s : SState (Tried σ) ℝ, s' = s.along (triedEquiv g) := fun s' => ⟨s'.along (triedEquiv g).symm, by
    have := SState.along_symm (triedEquiv g).symm s'
    rw [Equiv.symm_symm] at this
    exact this.symm⟩
  have hgen : ∀ s : SState (Tried σ) ℝ, (env.along (triedEquiv g)).gen (s.along (triedEquiv g)) = (env.gen s).map (triedEquiv g) := fun s => by simp only [SEnv.along, SState.along_symm]
  have htests : ∀ s : SState (Tried τ) ℝ, ∃ pats m genv, pats.Perm (patsOf s.rows) ∧ History (d.relabel g).view m ∧ genv.Ok ∧ genv.ReadsBy lt' nm' pats.length (d.relabel g) ∧
      TestsAll (triedOf nm' (embRelabel g emb) (d.relabel g) pats (patsOf s.rows) m genv) ((env.along (triedEquiv g)).gen s) := by
    intro s'
    obtain ⟨s, rfl⟩ := hstate s'
    obtain ⟨pats, m, genv, h1, h2, h3, h4, h5⟩ := h.tests s
    have hp : patsOf (s.along (triedEquiv g)).rows = (patsOf s.rows).map (LGraph.relabel g) := patsOf_along g s.rows
    refine ⟨pats.map (LGraph.relabel g), m.relabel g, genv.relabel g, ?_, ?_, genEnv_relabel_ok g h3, ?_, ?_⟩
    · rw [hp]; exact h1.map _
    · rw [view_relabel]; exact history_relabel g _ h2
    · refine ⟨fun i => ?_, ?_, fun l hl => ?_, fun a b ha hb' => ?_⟩
      · simp only [GenEnv.relabel, hn.row, Equiv.symm_apply_apply, h4.idx]
      · rw [List.length_map]; exact h4.nRows
      · obtain ⟨l, rfl⟩ := g.surjective l
        rw [uses_relabel]
        refine h4.used l ?_
        simpa only [GenEnv.relabel, Equiv.symm_apply_apply] using hl
      · obtain ⟨a, rfl⟩ := g.surjective a
        obtain ⟨b, rfl⟩ := g.surjective b
        rw [uses_relabel] at ha hb'
        rw [hlt a b ha hb']
        simpa only [GenEnv.relabel, Equiv.symm_apply_apply] using h4.lt a b ha hb'
    · rw [hp, triedOf_relabel hn, hgen]
      cases hT : triedOf nm emb d pats (patsOf s.rows) m genv with
      | error x =>
        rw [hT] at h5
        unfold TestsAll at h5 ⊢
        simp only at h5
        simp [Except.map, h5]
      | ok cs =>
        rw [hT] at h5
        exact List.Perm.map _ h5
  refine ⟨⟨⟨fun rows' => ?_, fun a b => ?_, fun s c hc => ?_⟩, fun c => ?_, fun rows' r => ?_⟩, htests, fun s' => ?_⟩
  · obtain ⟨rows, rfl⟩ := hrows rows'
    rw [patsOf_along, total_length_relabel hn d hb]
    exact (dl_along (triedEquiv g) env rows).trans (h.dl rows)
  · obtain ⟨a, rfl⟩ := (triedEquiv g).surjective a
    obtain ⟨b, rfl⟩ := (triedEquiv g).surjective b
    have : (env.along (triedEquiv g)).same (triedEquiv g a) (triedEquiv g b) = env.same a b := by simp [SEnv.along]
    rw [this, h.same]
    exact (same_relabel g a.cand b.cand).symm
  · obtain ⟨pats, m, genv, h1, h2, h3, -, h5⟩ := htests s
    obtain ⟨r, cs, h6, h7, h8, h9⟩ := triedOf_gen h5 hc
    exact ⟨pats, m, r, genv, cs, h1, h2, h6, h3, h7, h8, h9⟩
  · obtain ⟨c, rfl⟩ := (triedEquiv g).surjective c
    have h1 : (env.along (triedEquiv g)).size (triedEquiv g c) = env.size c := by simp [SEnv.along]
    have h2 : (triedEquiv g c).pattern = c.pattern.relabel g := rfl
    rw [h1, h2, h.size, totalLabel_relabel, embRelabel, LGraph.relabel_symm]
  · obtain ⟨rows, rfl⟩ := hrows rows'
    have h1 : (env.along (triedEquiv g)).usage (rows.map (SRow.along (triedEquiv g))) r = env.usage rows (r.along (triedEquiv g).symm) := by
      simp only [SEnv.along]
      rw [rowsAlong_symm]
    have h2 : (rows.map (SRow.along (triedEquiv g))).idxOf r = rows.idxOf (r.along (triedEquiv g).symm) := by
      unfold List.idxOf
      rw [List.findIdx_map]
      congr 1
      funext x
      simp only [Function.comp_apply]
      rw [Bool.eq_iff_iff, beq_iff_eq, beq_iff_eq]
      constructor
      · rintro rfl; rw [SRow.along_symm]
      · rintro rfl; rw [SRow.symm_along]
    rw [h1, h2, patsOf_along, usage_relabel]
    exact h.usage rows _
  · obtain ⟨s, rfl⟩ := hstate s'
    rw [hgen]
    exact List.pairwise_map.2 ((h.sorted s).imp (before_relabel g t))

/-- Other names for the labels of the data, different for different labels and none of them a name of a row or of a vertex, come from a change of names that keeps the names given by the program. -/
theorem renaming_extends (nm : Names σ) (d : LGraph σ) (hap : NamesApart nm d) (f : σ → σ) (hf : ∀ a b, d.view.Uses a → d.view.Uses b → f a = f b → a = b) (hr : ∀ i l, d.view.Uses l → f l ≠ nm.row i) (hv : ∀ v l, d.view.Uses l → f l ≠ nm.vertex v) :
    ∃ g : σ ≃ σ, NamesKept g nm nm ∧ ∀ l, d.view.Uses l → g l = f l := by
  obtain ⟨S, hS⟩ : ∃ S : Finset σ, ∀ l, l ∈ S ↔ d.view.Uses l := by
    refine ⟨(d.view.nodes.flatMap Prod.snd ++ d.view.edges.map (fun e => e.2.2)).toFinset, fun l => ?_⟩
    simp only [List.mem_toFinset, List.mem_append, List.mem_flatMap, List.mem_map, DGraph.Uses]
    refine or_congr ?_ ?_
    · exact ⟨fun ⟨n, h1, h2⟩ => ⟨n.1, n.2, h1, h2⟩, fun ⟨v, ls, h1, h2⟩ => ⟨(v, ls), h1, h2⟩⟩
    · exact ⟨fun ⟨e, h1, h2⟩ => ⟨e.1, e.2.1, h2 ▸ h1⟩, fun ⟨u, v, h1⟩ => ⟨(u, v, l), h1, rfl⟩⟩
  let T : Finset σ := S ∪ S.image f
  let p : {x // x ∈ T} → Prop := fun x => x.1 ∈ S
  let q : {x // x ∈ T} → Prop := fun x => x.1 ∈ S.image f
  let F : {x // p x} → {x // q x} := fun x => ⟨⟨f x.1.1, Finset.mem_union_right _ (Finset.mem_image_of_mem f x.2)⟩, Finset.mem_image_of_mem f x.2⟩
  have hF : Function.Bijective F := by
    constructor
    · intro a b hab
      have h1 : f a.1.1 = f b.1.1 := congrArg (fun x : {x // q x} => x.1.1) hab
      exact Subtype.ext (Subtype.ext (hf _ _ ((hS _).1 a.2) ((hS _).1 b.2) h1))
    · rintro ⟨⟨x, hx⟩, hq⟩
      obtain ⟨a, ha, rfl⟩ := Finset.mem_image.1 hq
      exact ⟨⟨⟨a, Finset.mem_union_left _ ha⟩, ha⟩, rfl⟩
  let G : Equiv.Perm σ := Equiv.Perm.ofSubtype (Equiv.extendSubtype (Equiv.ofBijective F hF))
  have hout : ∀ x, ¬ d.view.Uses x → (∀ l, d.view.Uses l → f l ≠ x) → G x = x := by
    intro x h1 h2
    refine Equiv.Perm.ofSubtype_apply_of_not_mem _ (fun hx => ?_)
    rcases Finset.mem_union.1 hx with h | h
    · exact h1 ((hS x).1 h)
    · obtain ⟨l, hl, e⟩ := Finset.mem_image.1 h
      exact h2 l ((hS l).1 hl) e
  refine ⟨G, ⟨fun i => (hout _ (fun h => hap.row i _ h rfl) (fun l hl => hr i l hl)).symm, fun v => (hout _ (fun h => hap.vertex v _ h rfl) (fun l hl => hv v l hl)).symm⟩, fun l hl => ?_⟩
  have hT : l ∈ T := Finset.mem_union_left _ ((hS l).2 hl)
  have h1 : G l = _ := Equiv.Perm.ofSubtype_apply_of_mem _ hT
  rw [h1, Equiv.extendSubtype_apply_of_mem _ _ (show p ⟨l, hT⟩ from (hS l).2 hl)]
  rfl

/-! ## Witnesses -/

/-- Two edges in a row, labelled 7 and 8. -/
def bothLabels : LGraph ℕ := ⟨[(1, .none), (2, .none), (3, .none)], [(1, 2, .str 7), (2, 3, .str 8)]⟩

theorem swap_kept (a b : ℕ) (ha : a < 100) (hb : b < 100) : NamesKept (Equiv.swap a b) witnessNames witnessNames :=
  ⟨fun i => (Equiv.swap_apply_of_ne_of_ne (by simp [witnessNames]; omega) (by simp [witnessNames]; omega)).symm, fun i => (Equiv.swap_apply_of_ne_of_ne (by simp [witnessNames]; omega) (by simp [witnessNames]; omega)).symm⟩

/-- C149 is false when the order of labels changes: with 7 and 8 exchanged in two edges in a row, the pattern of the only candidate is not the former pattern with the labels exchanged; its vertices have other numbers. -/
theorem label_order_matters : ∃ c c' p p', triedOf witnessNames (fun _ => []) bothLabels [] [] Marks.fresh (witnessEnv 0 [7, 8] []) = .ok [⟨c, p⟩] ∧
    triedOf witnessNames (fun _ => []) (bothLabels.relabel (Equiv.swap 7 8)) [] [] Marks.fresh (witnessEnv 0 [7, 8] []) = .ok [⟨c', p'⟩] ∧ p' ≠ p.relabel (Equiv.swap 7 8) ∧
    NamesKept (Equiv.swap 7 8) witnessNames witnessNames ∧ (witnessEnv 0 [7, 8] []).Ok ∧ (witnessEnv 0 [7, 8] []).ReadsBy (fun a b => decide (a < b)) witnessNames 0 bothLabels ∧
    (witnessEnv 0 [7, 8] []).ReadsBy (fun a b => decide (a < b)) witnessNames 0 (bothLabels.relabel (Equiv.swap 7 8)) := by
  have hreads : ∀ d : LGraph ℕ, d.view.Uses 7 → d.view.Uses 8 → (witnessEnv 0 [7, 8] []).ReadsBy (fun a b => decide (a < b)) witnessNames 0 d := by
    intro d h7 h8
    refine ⟨fun i => by simp [witnessEnv, witnessNames], rfl, fun l hl => ?_, fun _ _ _ _ => rfl⟩
    simp [witnessEnv] at hl
    rcases hl with rfl | rfl
    · exact h7
    · exact h8
  have h1 : triedOf witnessNames (fun _ => []) bothLabels [] [] Marks.fresh (witnessEnv 0 [7, 8] []) = .ok [⟨⟨7, 8, [(2, 1)], {3}, some (.edge 7), some (.edge 8), 1, 1⟩, ⟨[(1, .none), (2, .none), (3, .none)], [(1, 2, .str 7), (2, 3, .str 8)]⟩⟩] :=
    toOption_ok (by decide +kernel)
  have h2 : triedOf witnessNames (fun _ => []) (bothLabels.relabel (Equiv.swap 7 8)) [] [] Marks.fresh (witnessEnv 0 [7, 8] []) =
      .ok [⟨⟨7, 8, [(1, 2)], {3}, some (.edge 7), some (.edge 8), 1, 1⟩, ⟨[(1, .none), (2, .none), (3, .none)], [(1, 2, .str 7), (3, 1, .str 8)]⟩⟩] := toOption_ok (by decide +kernel)
  exact ⟨_, _, _, _, h1, h2, by decide +kernel, swap_kept 7 8 (by omega) (by omega), witnessEnv_ok _ _ _, hreads _ (.inr ⟨1, 2, by decide⟩) (.inr ⟨2, 3, by decide⟩), hreads _ (.inr ⟨2, 3, by decide +kernel⟩) (.inr ⟨1, 2, by decide +kernel⟩)⟩

/-- C149 is false when a label of the data is the name of a vertex: there is no candidate, and with another name for the label (which keeps the order of the labels) there is one. -/
theorem label_named_like_vertex : vertexNamed.view.Uses (witnessNames.vertex 2) ∧
    triedOf witnessNames (fun _ => []) vertexNamed [] [] Marks.fresh (witnessEnv 0 [105, 7] []) = .ok [] ∧
    ∃ c, triedOf witnessNames (fun _ => []) (vertexNamed.relabel (Equiv.swap 105 9)) [] [] Marks.fresh (witnessEnv 0 [9, 7] []) = .ok [c] := by
  have h2 : (triedOf witnessNames (fun _ => []) (vertexNamed.relabel (Equiv.swap 105 9)) [] [] Marks.fresh (witnessEnv 0 [9, 7] [])).toOption.map List.length = some 1 := by decide +kernel
  refine ⟨.inr ⟨1, 2, by decide⟩, toOption_ok (by decide +kernel), ?_⟩
  cases h : triedOf witnessNames (fun _ => []) (vertexNamed.relabel (Equiv.swap 105 9)) [] [] Marks.fresh (witnessEnv 0 [9, 7] []) with
  | error s => rw [h] at h2; cases h2
  | ok l =>
    rw [h] at h2
    obtain ⟨c, rfl⟩ := List.length_eq_one_iff.1 (Option.some.inj h2)
    exact ⟨c, rfl⟩

/-- What the generation reads of the data with two labels. -/
theorem bothLabels_reads (lt : ℕ → ℕ → Bool) (hlt : ∀ a b, lt a b = decide (a < b)) (n : ℕ) : (witnessEnv n [7, 8] []).ReadsBy lt witnessNames n bothLabels := by
  refine ⟨fun i => by simp [witnessEnv, witnessNames], rfl, fun l hl => ?_, fun a b _ _ => (hlt a b).symm⟩
  simp [witnessEnv] at hl
  rcases hl with rfl | rfl
  · exact .inr ⟨1, 2, by decide⟩
  · exact .inr ⟨2, 3, by decide⟩

/-- The search in the two edges in a row. -/
noncomputable def twoEnv (t : LabelTable ℕ) (emb : LGraph ℕ → List Embedding) : SEnv (Tried ℕ) ℝ where
  size c := (okOr (totalLabel c.pattern), okOr (getSupport (emb c.pattern)))
  dl rows := match totalLength (fun _ => false) t witnessNames emb bothLabels (patsOf rows) with
    | .ok x => x
    | .error _ => 0
  usage rows r := okOr ((cover bothLabels.view (tableRows emb (patsOf rows)) Marks.fresh).map (fun x => rowUsage x.2.2 (rows.idxOf r)))
  gen s := match triedOf witnessNames emb bothLabels (patsOf s.rows) (patsOf s.rows) Marks.fresh (witnessEnv (patsOf s.rows).length [7, 8] []) with
    | .ok cs => @List.insertionSort _ (keyLe t) (Classical.decRel _) cs
    | .error _ => []
  same a b := a.cand.same b.cand

theorem twoEnv_search (t : LabelTable ℕ) (emb : LGraph ℕ → List Embedding) : LabelSearch (fun a b => decide (a < b)) (fun _ => false) t witnessNames emb bothLabels (twoEnv t emb) := by
  have htests : ∀ s : SState (Tried ℕ) ℝ, TestsAll (triedOf witnessNames emb bothLabels (patsOf s.rows) (patsOf s.rows) Marks.fresh (witnessEnv (patsOf s.rows).length [7, 8] [])) ((twoEnv t emb).gen s) := by
    intro s
    unfold twoEnv TestsAll
    simp only
    cases triedOf witnessNames emb bothLabels (patsOf s.rows) (patsOf s.rows) Marks.fresh (witnessEnv (patsOf s.rows).length [7, 8] []) with
    | ok cs => exact @List.perm_insertionSort _ (keyLe t) (Classical.decRel _) cs
    | error x => rfl
  have hr := fun n => bothLabels_reads (fun a b => decide (a < b)) (fun _ _ => rfl) n
  refine ⟨⟨⟨fun _ => rfl, fun _ _ => rfl, fun s c hc => ?_⟩, fun _ => rfl, fun _ _ => rfl⟩, fun s => ⟨_, _, _, List.Perm.refl _, .fresh, witnessEnv_ok _ _ _, hr _, htests s⟩, fun s => ?_⟩
  · obtain ⟨r, cs, h6, h7, h8, h9⟩ := triedOf_gen (htests s) hc
    exact ⟨_, _, r, _, cs, List.Perm.refl _, .fresh, h6, witnessEnv_ok _ _ _, h7, h8, h9⟩
  · unfold twoEnv
    simp only
    split
    · have : Std.Total (keyLe (σ := ℕ) t) := ⟨keyLe_total t⟩
      have : IsTrans (Tried ℕ) (keyLe t) := ⟨fun _ _ _ => keyLe_trans t⟩
      exact (@List.pairwise_insertionSort _ (keyLe t) (Classical.decRel _) _ _ _).imp keyLe_before
    · exact List.Pairwise.nil

/-- The hypotheses of `label_names_partial` hold for two edges in a row when the label 8 becomes 9, and there is a candidate to test. -/
example (t : LabelTable ℕ) (emb : LGraph ℕ → List Embedding) : LabelSearch (fun a b => decide (a < b)) (fun _ => false) (t.relabel (Equiv.swap 8 9)) witnessNames (embRelabel (Equiv.swap 8 9) emb) (bothLabels.relabel (Equiv.swap 8 9)) ((twoEnv t emb).along (triedEquiv (Equiv.swap 8 9))) ∧
    bothLabels.relabel (Equiv.swap 8 9) ≠ bothLabels ∧ (twoEnv t emb).gen (searchInit (twoEnv t emb) false (SState.new 0)) ≠ [] := by
  have huse : ∀ a, bothLabels.view.Uses a → a = 7 ∨ a = 8 := by
    rintro a (⟨v, ls, h1, h2⟩ | ⟨u, v, h⟩)
    · simp [bothLabels, LGraph.view, Label.names] at h1
      rcases h1 with ⟨-, rfl⟩ | ⟨-, rfl⟩ | ⟨-, rfl⟩ <;> cases h2
    · simp [bothLabels, LGraph.view] at h
      rcases h with ⟨-, -, rfl⟩ | ⟨-, -, rfl⟩
      · exact .inl rfl
      · exact .inr rfl
  refine ⟨(label_names_partial (swap_kept 8 9 (by omega) (by omega)) bothLabels (fun a b ha hb => ?_) (fun _ _ => rfl) t emb _ (twoEnv_search t emb)).1, by decide +kernel, ?_⟩
  · rcases huse a ha with rfl | rfl <;> rcases huse b hb with rfl | rfl <;> decide +kernel
  · have h1 : triedOf witnessNames emb bothLabels [] [] Marks.fresh (witnessEnv 0 [7, 8] []) = .ok [⟨⟨7, 8, [(2, 1)], {3}, some (.edge 7), some (.edge 8), 1, 1⟩, ⟨[(1, .none), (2, .none), (3, .none)], [(1, 2, .str 7), (2, 3, .str 8)]⟩⟩] := by
      have : triedOf witnessNames emb bothLabels [] [] Marks.fresh (witnessEnv 0 [7, 8] []) = triedOf witnessNames (fun _ => []) bothLabels [] [] Marks.fresh (witnessEnv 0 [7, 8] []) := rfl
      rw [this]
      exact toOption_ok (by decide +kernel)
    simp only [twoEnv, searchInit, patsOf, List.map_nil, List.length_nil, h1]
    simp

end Verif.Graph
