import Verif.Graph.ShowModel
import Verif.Graph.CodeProps
import Verif.Graph.OccProps
import Verif.Graph.OccWitness

/-!
# The summary printed by GraphMDL (C108)

Source: `/repo/skmine/graph/graphmdl/utils.py:538-576`, `/repo/skmine/graph/graphmdl/graph_mdl.py:297-312`.
-/

set_option autoImplicit false
set_option linter.unusedSectionVars false

namespace Verif.Graph

open Verif.Text

variable {σ : Type} [DecidableEq σ]

/-! ### Specification -/

/-- The caption of a vertex: its label, or its number if it has none. -/
def caption (txt : Label σ → List Char) (g : LGraph σ) (v : ℕ) : List Char :=
  match (g.nodes.lookup v).getD .none with
  | .none => showNat v
  | l => txt l

/-- An edge as the reader sees it: captions of its ends and text of its label. -/
def seen (txt : Label σ → List Char) (g : LGraph σ) (e : ℕ × ℕ × Label σ) : List Char × List Char × List Char := (caption txt g e.1, txt e.2.2, caption txt g e.2.1)

/-- No label of the graph has a dash or a line break in its text. -/
def CleanText (txt : Label σ → List Char) (g : LGraph σ) : Prop :=
  (∀ n ∈ g.nodes, n.2 ≠ .none → '-' ∉ txt n.2 ∧ '\n' ∉ txt n.2) ∧ ∀ e ∈ g.edges, '-' ∉ txt e.2.2 ∧ '\n' ∉ txt e.2.2

/-! ### Texts -/

theorem lookup_of_vert {β : Type} (l : List (ℕ × β)) (v : ℕ) (h : v ∈ l.map Prod.fst) : ∃ x, l.lookup v = some x ∧ (v, x) ∈ l := by
  induction l with
  | nil => simp at h
  | cons a l ih =>
    rw [List.lookup_cons]
    by_cases hv : v = a.1
    · subst hv
      exact ⟨a.2, by simp, by simp⟩
    · have : (v == a.1) = false := by simpa using hv
      rw [List.map_cons, List.mem_cons] at h
      obtain ⟨x, h1, h2⟩ := ih (h.resolve_left hv)
      exact ⟨x, by rw [this]; exact h1, List.mem_cons_of_mem _ h2⟩

theorem nodeText_ok (txt : Label σ → List Char) (g : LGraph σ) (v : ℕ) (h : v ∈ g.verts) : nodeText txt g v = .ok (caption txt g v) := by
  obtain ⟨x, h1, _⟩ := lookup_of_vert g.nodes v h
  unfold nodeText caption
  rw [h1]
  cases x <;> rfl

theorem caption_clean (txt : Label σ → List Char) (g : LGraph σ) (hc : CleanText txt g) (v : ℕ) (h : v ∈ g.verts) : '-' ∉ caption txt g v ∧ '\n' ∉ caption txt g v := by
  obtain ⟨x, h1, h2⟩ := lookup_of_vert g.nodes v h
  unfold caption
  rw [h1]
  have hd : '-' ∉ showNat v ∧ '\n' ∉ showNat v := by
    constructor <;> intro hm <;> have := mem_showNat v _ hm <;> revert this <;> decide
  cases x with
  | none => exact hd
  | str s => exact hc.1 _ h2 (by simp)
  | tuple l => exact hc.1 _ h2 (by simp)
  | list l => exact hc.1 _ h2 (by simp)

theorem edgeLine_ok (txt : Label σ → List Char) (g : LGraph σ) (e : ℕ × ℕ × Label σ) (h1 : e.1 ∈ g.verts) (h2 : e.2.1 ∈ g.verts) :
    edgeLine txt g e = .ok (caption txt g e.1 ++ arrow txt e.2.2 ++ caption txt g e.2.1 ++ ['\n']) := by
  unfold edgeLine
  rw [nodeText_ok txt g _ h1, nodeText_ok txt g _ h2]

theorem display_eq (txt : Label σ → List Char) (g : LGraph σ) (multi : Bool) (hg : IsPattern multi g) (hb : g.edges = [] → 1 ∈ g.verts) :
    displayGraph txt g = .ok (if g.edges = [] then caption txt g 1 else (g.edges.map (fun e => caption txt g e.1 ++ arrow txt e.2.2 ++ caption txt g e.2.1 ++ ['\n'])).flatten) := by
  unfold displayGraph
  by_cases h : g.edges = []
  · rw [if_pos h, if_pos h, nodeText_ok txt g 1 (hb h)]
  · rw [if_neg h, if_neg h, mapM_ok (edgeLine txt g) _ g.edges (fun e he => edgeLine_ok txt g e (hg.ends e he).1 (hg.ends e he).2.1)]
    rfl

theorem text_split {α : Type} [DecidableEq α] (c : α) : ∀ (a b r s : List α), c ∉ a → c ∉ b → a ++ c :: r = b ++ c :: s → a = b ∧ r = s
  | [], [], r, s, _, _, h => ⟨rfl, by simpa using h⟩
  | [], y :: b, r, s, _, hb, h => by
    rw [List.nil_append, List.cons_append, List.cons.injEq] at h
    exact absurd (by rw [h.1]; exact List.mem_cons_self) hb
  | x :: a, [], r, s, ha, _, h => by
    rw [List.nil_append, List.cons_append, List.cons.injEq] at h
    exact absurd (by rw [h.1]; exact List.mem_cons_self) ha
  | x :: a, y :: b, r, s, ha, hb, h => by
    rw [List.cons_append, List.cons_append, List.cons.injEq] at h
    obtain ⟨h1, h2⟩ := text_split c a b r s (fun hm => ha (List.mem_cons_of_mem _ hm)) (fun hm => hb (List.mem_cons_of_mem _ hm)) h.2
    exact ⟨by rw [h.1, h1], h2⟩

theorem arrow_labelled (txt : Label σ → List Char) (l : Label σ) (h : l ≠ .none) : arrow txt l = '-' :: '-' :: (txt l ++ ['-', '-', '>']) := by
  cases l with
  | none => exact absurd rfl h
  | str s => rfl
  | tuple l => rfl
  | list l => rfl

/-- The lines determine the edges as they are seen. -/
theorem lines_inj (txt : Label σ → List Char) (g g' : LGraph σ) (es es' : List (ℕ × ℕ × Label σ))
    (h : ∀ e ∈ es, ('-' ∉ caption txt g e.1 ∧ '\n' ∉ caption txt g e.1) ∧ ('-' ∉ caption txt g e.2.1 ∧ '\n' ∉ caption txt g e.2.1) ∧ ('-' ∉ txt e.2.2 ∧ '\n' ∉ txt e.2.2) ∧ e.2.2 ≠ .none)
    (h' : ∀ e ∈ es', ('-' ∉ caption txt g' e.1 ∧ '\n' ∉ caption txt g' e.1) ∧ ('-' ∉ caption txt g' e.2.1 ∧ '\n' ∉ caption txt g' e.2.1) ∧ ('-' ∉ txt e.2.2 ∧ '\n' ∉ txt e.2.2) ∧ e.2.2 ≠ .none)
    (ht : (es.map (fun e => caption txt g e.1 ++ arrow txt e.2.2 ++ caption txt g e.2.1 ++ ['\n'])).flatten = (es'.map (fun e => caption txt g' e.1 ++ arrow txt e.2.2 ++ caption txt g' e.2.1 ++ ['\n'])).flatten) :
    es.map (seen txt g) = es'.map (seen txt g') := by
  induction es generalizing es' with
  | nil =>
    cases es' with
    | nil => rfl
    | cons e' es' => simp at ht
  | cons e es ih =>
    cases es' with
    | nil => simp at ht
    | cons e' es' =>
      obtain ⟨a1, a2, a3, a4⟩ := h e List.mem_cons_self
      obtain ⟨b1, b2, b3, b4⟩ := h' e' List.mem_cons_self
      rw [List.map_cons, List.map_cons, List.flatten_cons, List.flatten_cons, arrow_labelled txt _ a4, arrow_labelled txt _ b4] at ht
      simp only [List.append_assoc, List.cons_append, List.nil_append] at ht
      obtain ⟨e1, ht⟩ := text_split '-' _ _ _ _ a1.1 b1.1 ht
      rw [List.cons.injEq] at ht
      obtain ⟨e2, ht⟩ := text_split '-' _ _ _ _ a3.1 b3.1 ht.2
      simp only [List.cons.injEq, true_and] at ht
      obtain ⟨e3, ht⟩ := text_split '\n' _ _ _ _ a2.2 b2.2 ht
      rw [List.map_cons, List.map_cons, ih es' (fun x hx => h x (List.mem_cons_of_mem _ hx)) (fun x hx => h' x (List.mem_cons_of_mem _ hx)) (by simpa only [List.append_assoc] using ht)]
      unfold seen
      rw [e1, e2, e3]

/-! ### The properties -/

/-- C108, no exception: every pattern that can be in the table during a fit, and every singleton, can be displayed (a fit displays every pattern it accepts, `graph_mdl.py:138`). -/
theorem display_total (txt : Label σ → List Char) (d : LGraph σ) (hd : PlainData d) (nm : Names σ) (hnm : nm.Ok) (hap : NamesApart nm d) (pats : List (LGraph σ)) (htab : Tables d nm pats) :
    (∀ p ∈ pats, ∃ t, displayGraph txt p = .ok t) ∧ ∀ l, (∃ t, displayGraph txt (edgeSingleton l) = .ok t) ∧ ∃ t, displayGraph txt (vertexSingleton l) = .ok t := by
  refine ⟨fun p hp => ?_, fun l => ⟨⟨_, rfl⟩, ⟨_, rfl⟩⟩⟩
  obtain ⟨h1, h2⟩ := (tables_good hd hnm hap htab).1 p hp
  refine ⟨_, display_eq txt p false (made_patterns false p h1) (fun h => ?_)⟩
  obtain ⟨l, hl, _⟩ := h2.bare h
  rw [LGraph.verts, hl]
  simp

/-- C108, what is displayed: the text has one line per edge, and determines the captions of the ends and the label of each edge, in order; a pattern without edge is displayed by the caption of its vertex. For patterns of the search whose
labels have no dash and no line break.
The full statement is that the text determines the pattern; see `display_ambiguous`. -/
theorem display_determines_partial (txt : Label σ → List Char) (g g' : LGraph σ) (hg : Made false g) (hg' : Made false g') (hl : Linked g) (hl' : Linked g') (hc : CleanText txt g) (hc' : CleanText txt g') :
    ∃ t, displayGraph txt g = .ok t ∧ t.count '\n' = g.edges.length ∧
      (displayGraph txt g' = .ok t → g.edges.map (seen txt g) = g'.edges.map (seen txt g') ∧ (g.edges = [] → caption txt g 1 = caption txt g' 1)) := by
  have one : ∀ x : LGraph σ, Linked x → x.edges = [] → 1 ∈ x.verts := by
    intro x hx h
    obtain ⟨l, hl, _⟩ := hx.bare h
    rw [LGraph.verts, hl]
    simp
  have hp := made_patterns false g hg
  have hp' := made_patterns false g' hg'
  have cl : ∀ (x : LGraph σ), IsPattern false x → CleanText txt x → ∀ e ∈ x.edges,
      ('-' ∉ caption txt x e.1 ∧ '\n' ∉ caption txt x e.1) ∧ ('-' ∉ caption txt x e.2.1 ∧ '\n' ∉ caption txt x e.2.1) ∧ ('-' ∉ txt e.2.2 ∧ '\n' ∉ txt e.2.2) ∧ e.2.2 ≠ .none :=
    fun x hx hcx e he => ⟨caption_clean txt x hcx _ (hx.ends e he).1, caption_clean txt x hcx _ (hx.ends e he).2.1, hcx.2 e he, hx.labelled e he⟩
  have cnt : ∀ (x : LGraph σ) (es : List (ℕ × ℕ × Label σ)), (∀ e ∈ es, ('-' ∉ caption txt x e.1 ∧ '\n' ∉ caption txt x e.1) ∧ ('-' ∉ caption txt x e.2.1 ∧ '\n' ∉ caption txt x e.2.1) ∧ ('-' ∉ txt e.2.2 ∧ '\n' ∉ txt e.2.2) ∧ e.2.2 ≠ .none) →
      ((es.map (fun e => caption txt x e.1 ++ arrow txt e.2.2 ++ caption txt x e.2.1 ++ ['\n'])).flatten).count '\n' = es.length := by
    intro x es
    induction es with
    | nil => intro _; rfl
    | cons e es ih =>
      intro h
      obtain ⟨a1, a2, a3, a4⟩ := h e List.mem_cons_self
      rw [List.map_cons, List.flatten_cons, List.count_append, ih (fun y hy => h y (List.mem_cons_of_mem _ hy)), arrow_labelled txt _ a4]
      simp only [List.count_append, List.count_cons, List.count_nil, List.count_eq_zero_of_not_mem a1.2, List.count_eq_zero_of_not_mem a2.2, List.count_eq_zero_of_not_mem a3.2, List.length_cons]
      simp only [beq_iff_eq, Char.reduceEq, if_false, if_true]
      omega
  refine ⟨_, display_eq txt g false hp (one g hl), ?_, ?_⟩
  · by_cases h : g.edges = []
    · rw [if_pos h, h]
      exact List.count_eq_zero_of_not_mem (caption_clean txt g hc 1 (one g hl h)).2
    · rw [if_neg h]
      exact cnt g g.edges (cl g hp hc)
  · intro ht
    rw [display_eq txt g' false hp' (one g' hl')] at ht
    have ht := Except.ok.inj ht
    by_cases h : g.edges = []
    · by_cases h' : g'.edges = []
      · rw [if_pos h, if_pos h'] at ht
        exact ⟨by rw [h, h']; rfl, fun _ => ht.symm⟩
      · rw [if_pos h, if_neg h'] at ht
        have h1 := cnt g' g'.edges (cl g' hp' hc')
        rw [ht, List.count_eq_zero_of_not_mem (caption_clean txt g hc 1 (one g hl h)).2] at h1
        exact absurd (List.length_eq_zero_iff.mp h1.symm) h'
    · by_cases h' : g'.edges = []
      · rw [if_neg h, if_pos h'] at ht
        have h1 := cnt g g.edges (cl g hp hc)
        rw [← ht, List.count_eq_zero_of_not_mem (caption_clean txt g' hc' 1 (one g' hl' h')).2] at h1
        exact absurd (List.length_eq_zero_iff.mp h1.symm) h
      · rw [if_neg h, if_neg h'] at ht
        exact ⟨(lines_inj txt g' g g'.edges g.edges (cl g' hp' hc') (cl g hp hc) ht).symm, fun h0 => absurd h0 h⟩

/-- C108 fails: `discover` raises as soon as a pattern that is no singleton is in use. -/
theorem discover_raises (txt : Label σ → List Char) (order : List (PKind σ) → List (PKind σ)) (g : DGraph σ) (rows : List (Row σ)) (m m' : Marks σ) (rows' : List (Row σ)) (ps : List (Piece σ))
    (hc : cover g rows m = .ok (m', rows', ps)) (pats : List (LGraph σ)) (hp : pats.length = rows.length) (i : ℕ) (hi : InUse ps (.row i)) : discoverObj txt order (some (pats, ps)) = .error "AttributeError" := by
  obtain ⟨pc, hpc, hk⟩ := hi
  have hlt := cover_rows_lt g rows m _ hc pc hpc i hk
  have : (List.range pats.length).any (fun i => decide (rowUsage ps i ≠ 0)) = true := by
    rw [List.any_eq_true]
    refine ⟨i, by rw [List.mem_range, hp]; exact hlt, ?_⟩
    rw [decide_eq_true_iff]
    intro h0
    unfold rowUsage at h0
    rw [List.length_eq_zero_iff, List.filter_eq_nil_iff] at h0
    exact h0 pc hpc (by simpa using hk)
  simp only [discoverObj, discover, this, if_true]

/-- The text of a singleton pattern as `display_graph` writes it. -/
def kindText (txt : Label σ → List Char) : PKind σ → List Char
  | .edge l => '1' :: (arrow txt (.str l) ++ ['2', '\n'])
  | .vertex l => txt (.str l)
  | .row _ => []

/-- C108 when only singletons are in use: `discover` lists the labels in use, each once, under the title of the singletons, and all of them a second time, as patterns, under the title of the patterns that are no singletons. -/
theorem discover_singletons (txt : Label σ → List Char) (order : List (PKind σ) → List (PKind σ)) (ho : ∀ l, (order l).Perm l) (g : DGraph σ) (rows : List (Row σ)) (m m' : Marks σ) (rows' : List (Row σ)) (ps : List (Piece σ))
    (hc : cover g rows m = .ok (m', rows', ps)) (hne : ps ≠ []) (pats : List (LGraph σ)) (hp : pats.length = rows.length) (hno : ∀ i, ¬ InUse ps (.row i)) :
    ∃ (d : List σ) (L : List (List Char)), discoverObj txt order (some (pats, ps)) = .ok ([.table d, .length, .patternsTitle] ++ L.map .pattern ++ .singletonsTitle :: d.map .singleton) ∧
      d.Nodup ∧ (∀ l, l ∈ d ↔ InUse ps (.edge l) ∨ InUse ps (.vertex l)) ∧ L.length = d.length ∧
      (∀ l, InUse ps (.edge l) → '1' :: (arrow txt (.str l) ++ ['2', '\n']) ∈ L) ∧ ∀ l, InUse ps (.vertex l) → ¬ InUse ps (.edge l) → txt (.str l) ∈ L := by
  have hn := cover_rows_lt g rows m _ hc
  obtain ⟨d, vs, es, h1, h2, hv, hvm, he, hem, hkeys, hperm⟩ := singletonCodes_ok rows.length ps hn hne
  obtain ⟨P, q1, q2, q3, q4, q5⟩ := patterns_exact g rows m m' rows' ps hc hne
  have hkey : ∀ l, l ∈ d.map Prod.fst ↔ InUse ps (.edge l) ∨ InUse ps (.vertex l) := by
    intro l
    rw [(hperm.map Prod.fst).mem_iff, List.map_append, List.mem_append, List.map_map, List.map_map]
    simp only [List.mem_map, List.mem_filter, Function.comp_apply, exists_eq_right, decide_eq_true_eq]
    rw [hvm, hem]
    constructor
    · rintro (⟨h, _⟩ | h)
      · exact .inr h
      · exact .inl h
    · rintro (h | h)
      · exact .inr h
      · by_cases h' : InUse ps (.edge l)
        · exact .inr h'
        · exact .inl ⟨h, h'⟩
  have hany : (List.range pats.length).any (fun i => decide (rowUsage ps i ≠ 0)) = false := by
    rw [List.any_eq_false]
    intro i _
    rw [decide_eq_true_iff, not_not]
    unfold rowUsage
    rw [List.length_eq_zero_iff, List.filter_eq_nil_iff]
    intro pc hpc hk
    exact hno i ⟨pc, hpc, by simpa using hk⟩
  have hd : d ≠ [] := by
    rintro rfl
    obtain ⟨pc, hpc⟩ := List.exists_mem_of_ne_nil ps hne
    cases hk : pc.kind with
    | row i => exact hno i ⟨pc, hpc, hk⟩
    | edge l => exact absurd ((hkey l).mpr (.inl ⟨pc, hpc, hk⟩)) (by simp)
    | vertex l => exact absurd ((hkey l).mpr (.inr ⟨pc, hpc, hk⟩)) (by simp)
  have hshow : ∀ k ∈ order P, showKind txt pats k = .ok (kindText txt k) := by
    intro k hk
    have hk := (ho P).mem_iff.mp hk
    cases k with
    | row i => exact absurd ((q3 i).mp hk).1 (hno i)
    | edge l =>
      change displayGraph txt (edgeSingleton l) = _
      have : displayGraph txt (edgeSingleton l) = .ok ([showNat 1 ++ arrow txt (.str l) ++ showNat 2 ++ ['\n']].flatten) := rfl
      rw [this]
      congr 1
      have e1 : showNat 1 = ['1'] := by decide
      have e2 : showNat 2 = ['2'] := by decide
      rw [e1, e2]
      simp [kindText]
    | vertex l => rfl
  have hlen : P.length = d.length := by
    unfold patterns at q1
    rw [h1] at q1
    classical
    have hrow : ∀ i, rowCode rows.length ps i = .ok 0 := fun i => rowCode_unused _ ps i (hno i)
    rw [mapM_ok (rowCode rows.length ps) (fun _ => 0) _ (fun i _ => hrow i)] at q1
    have q1 := Except.ok.inj q1
    rw [← q1, List.length_append, List.length_map, List.length_map]
    have : ((List.range rows.length).filter (fun i => decide (((List.range rows.length).map (fun _ => (0 : ℝ))).getD i 0 ≠ 0))) = [] := by
      rw [List.filter_eq_nil_iff]
      intro i _
      simp only [List.map_const', List.length_range, List.getD_eq_getElem?_getD, List.getElem?_replicate]
      split <;> simp
    rw [this]
    simp
  refine ⟨d.map Prod.fst, (order P).map (kindText txt), ?_, h2, hkey, ?_, ?_, ?_⟩
  · have he : d.isEmpty = false := by simpa using hd
    change discover txt order pats ps = _
    unfold discover
    rw [hany, if_neg (by simp), hp, h1, q1]
    simp only [Except.bind, he, Bool.false_eq_true, if_false]
    rw [mapM_ok (showKind txt pats) _ (order P) hshow]
    simp only [Except.map, List.map_map]
    rfl
  · rw [List.length_map, List.length_map, (ho P).length_eq, hlen]
  · intro l hl
    exact List.mem_map.mpr ⟨.edge l, (ho P).mem_iff.mpr ((q4 l).mpr hl), rfl⟩
  · intro l hl hl'
    exact List.mem_map.mpr ⟨.vertex l, (ho P).mem_iff.mpr ((q5 l).mpr ⟨hl, hl'⟩), rfl⟩

/-- C108, when a graph can be displayed: exactly if the ends of its edges are vertices of it, and its vertices have the number 1 if there is no edge; otherwise `KeyError`. -/
theorem display_iff (txt : Label σ → List Char) (g : LGraph σ) :
    ((∃ t, displayGraph txt g = .ok t) ↔ (g.edges = [] → 1 ∈ g.verts) ∧ ∀ e ∈ g.edges, e.1 ∈ g.verts ∧ e.2.1 ∈ g.verts) ∧ ((¬ ∃ t, displayGraph txt g = .ok t) → displayGraph txt g = .error "KeyError") := by
  have hnode : ∀ v, v ∉ g.verts → nodeText txt g v = .error "KeyError" := by
    intro v hv
    have : g.nodes.lookup v = none := by
      rw [List.lookup_eq_none_iff]
      intro x hx
      rw [bne_iff_ne]
      rintro rfl
      exact hv (List.mem_map.mpr ⟨x, hx, rfl⟩)
    unfold nodeText
    rw [this]
  have hline : ∀ e, (e.1 ∈ g.verts ∧ e.2.1 ∈ g.verts → ∃ t, edgeLine txt g e = .ok t) ∧ (¬ (e.1 ∈ g.verts ∧ e.2.1 ∈ g.verts) → edgeLine txt g e = .error "KeyError") := by
    intro e
    refine ⟨fun h => ⟨_, edgeLine_ok txt g e h.1 h.2⟩, fun h => ?_⟩
    unfold edgeLine
    by_cases h1 : e.1 ∈ g.verts
    · rw [nodeText_ok txt g _ h1, hnode _ (fun h2 => h ⟨h1, h2⟩)]
    · rw [hnode _ h1]
  have hlines : ∀ es : List (ℕ × ℕ × Label σ), ((∀ e ∈ es, e.1 ∈ g.verts ∧ e.2.1 ∈ g.verts) → ∃ t, es.mapM (edgeLine txt g) = .ok t) ∧ (¬ (∀ e ∈ es, e.1 ∈ g.verts ∧ e.2.1 ∈ g.verts) → es.mapM (edgeLine txt g) = .error "KeyError") := by
    intro es
    induction es with
    | nil => exact ⟨fun _ => ⟨[], rfl⟩, fun h => absurd (by simp) h⟩
    | cons e es ih =>
      rw [List.mapM_cons]
      by_cases he : e.1 ∈ g.verts ∧ e.2.1 ∈ g.verts
      · obtain ⟨t, ht⟩ := (hline e).1 he
        rw [ht]
        refine ⟨fun h => ?_, fun h => ?_⟩
        · obtain ⟨ts, hts⟩ := ih.1 (fun e' h' => h e' (by simp [h']))
          exact ⟨t :: ts, by rw [hts]; rfl⟩
        · rw [ih.2 (fun h' => h (by simpa [he] using h'))]; rfl
      · rw [(hline e).2 he]
        exact ⟨fun h => absurd (h e (by simp)) he, fun _ => rfl⟩
  unfold displayGraph
  by_cases h : g.edges = []
  · rw [if_pos h]
    by_cases h1 : 1 ∈ g.verts
    · rw [nodeText_ok txt g 1 h1]
      exact ⟨⟨fun _ => ⟨fun _ => h1, by simp [h]⟩, fun _ => ⟨_, rfl⟩⟩, fun h' => absurd ⟨_, rfl⟩ h'⟩
    · rw [hnode 1 h1]
      exact ⟨⟨fun ⟨_, h'⟩ => (by cases h'), fun h' => absurd (h'.1 h) h1⟩, fun _ => rfl⟩
  · rw [if_neg h]
    by_cases h1 : ∀ e ∈ g.edges, e.1 ∈ g.verts ∧ e.2.1 ∈ g.verts
    · obtain ⟨t, ht⟩ := (hlines g.edges).1 h1
      rw [ht]
      exact ⟨⟨fun _ => ⟨fun h' => absurd h' h, h1⟩, fun _ => ⟨_, rfl⟩⟩, fun h' => absurd ⟨_, rfl⟩ h'⟩
    · rw [(hlines g.edges).2 h1]
      exact ⟨⟨fun ⟨_, h'⟩ => (by cases h'), fun h' => absurd h'.2 h1⟩, fun _ => rfl⟩

/-- C108, when the summary can be printed: exactly after a fit with a cover that has a piece and in which only singletons are in use. Before the fit, and for a graph without labels, it raises `ValueError`. -/
theorem discover_iff (txt : Label σ → List Char) (order : List (PKind σ) → List (PKind σ)) (ho : ∀ l, (order l).Perm l) (g : DGraph σ) (rows : List (Row σ)) (m m' : Marks σ) (rows' : List (Row σ)) (ps : List (Piece σ))
    (hc : cover g rows m = .ok (m', rows', ps)) (pats : List (LGraph σ)) (hp : pats.length = rows.length) :
    ((∃ out, discoverObj txt order (some (pats, ps)) = .ok out) ↔ ps ≠ [] ∧ ∀ i, ¬ InUse ps (.row i)) ∧ (ps = [] → discoverObj txt order (some (pats, ps)) = .error "ValueError") ∧
      discoverObj txt order none = .error "ValueError" := by
  have hempty : ps = [] → discoverObj txt order (some (pats, ps)) = .error "ValueError" := by
    rintro rfl
    have hany : (List.range pats.length).any (fun i => decide (rowUsage ([] : List (Piece σ)) i ≠ 0)) = false := by
      rw [List.any_eq_false]
      intro i _
      simp [rowUsage]
    change discover txt order pats [] = _
    unfold discover
    rw [hany, if_neg (by simp)]
    rfl
  refine ⟨⟨?_, ?_⟩, hempty, rfl⟩
  · rintro ⟨out, h⟩
    refine ⟨fun h0 => ?_, fun i hi => ?_⟩
    · rw [hempty h0] at h; cases h
    · rw [discover_raises txt order g rows m m' rows' ps hc pats hp i hi] at h; cases h
  · rintro ⟨hne, hno⟩
    obtain ⟨d, L, h, _⟩ := discover_singletons txt order ho g rows m m' rows' ps hc hne pats hp hno
    exact ⟨_, h⟩

/-! ### Witnesses -/

def oneStep : LGraph String := ⟨[(1, .str "A"), (2, .str "A")], [(1, 2, .str "x")]⟩
/-- Two edges in a row. -/
def inRow : LGraph String := ⟨[(1, .str "A"), (2, .str "A"), (3, .str "A")], [(1, 2, .str "x"), (2, 3, .str "x")]⟩
/-- Two edges from one vertex. -/
def inFork : LGraph String := ⟨[(1, .str "A"), (2, .str "A"), (3, .str "A")], [(1, 2, .str "x"), (1, 3, .str "x")]⟩

theorem bareCommon (p : LGraph String) (l : String) (ports : List (ℕ × ℕ)) : false = false → NoCommonEdge p (vertexSingleton l) ports := fun _ => by intro e _ e' he'; simp [vertexSingleton] at he'

theorem oneStep_made : Made false oneStep :=
  .merge ⟨[(1, .str "A"), (2, .none)], [(1, 2, .str "x")]⟩ (vertexSingleton "A") _ [(2, 1)]
    (.merge (edgeSingleton "x") (vertexSingleton "A") _ [(1, 1)] (.edge "x") (.vertex "A") ⟨by decide, by decide, by decide⟩ (bareCommon _ _ _) rfl) (.vertex "A") ⟨by decide, by decide, by decide⟩ (bareCommon _ _ _) rfl

theorem inRow_made : Made false inRow :=
  .merge ⟨[(1, .str "A"), (2, .str "A"), (3, .none)], [(1, 2, .str "x"), (2, 3, .str "x")]⟩ (vertexSingleton "A") _ [(3, 1)]
    (.merge oneStep (edgeSingleton "x") _ [(2, 1)] oneStep_made (.edge "x") ⟨by decide, by decide, by decide⟩ (fun _ => by unfold NoCommonEdge oneStep edgeSingleton; simp) rfl) (.vertex "A") ⟨by decide, by decide, by decide⟩ (bareCommon _ _ _) rfl

theorem inFork_made : Made false inFork :=
  .merge ⟨[(1, .str "A"), (2, .str "A"), (3, .none)], [(1, 2, .str "x"), (1, 3, .str "x")]⟩ (vertexSingleton "A") _ [(3, 1)]
    (.merge oneStep (edgeSingleton "x") _ [(1, 1)] oneStep_made (.edge "x") ⟨by decide, by decide, by decide⟩ (fun _ => by unfold NoCommonEdge oneStep edgeSingleton; simp) rfl) (.vertex "A") ⟨by decide, by decide, by decide⟩ (bareCommon _ _ _) rfl

theorem inRow_linked : Linked inRow := ⟨by simp [inRow], by simp [inRow], by simp [inRow, LGraph.verts]⟩
theorem inFork_linked : Linked inFork := ⟨by simp [inFork], by simp [inFork], by simp [inFork, LGraph.verts]⟩

/-- C108 fails: two patterns of the search, two edges in a row and two edges from one vertex, are displayed by the same text, whatever the texts of the labels are; no map of the vertices takes the edges of the one to edges of the other. -/
theorem display_ambiguous (txt : Label String → List Char) :
    Made false inRow ∧ Made false inFork ∧ (∃ t, displayGraph txt inRow = .ok t ∧ displayGraph txt inFork = .ok t) ∧ ¬ ∃ h : ℕ → ℕ, ∀ e ∈ inRow.edges, (h e.1, h e.2.1, e.2.2) ∈ inFork.edges := by
  refine ⟨inRow_made, inFork_made, ⟨_, rfl, rfl⟩, ?_⟩
  rintro ⟨h, hh⟩
  have h1 := hh (1, 2, .str "x") (by simp [inRow])
  have h2 := hh (2, 3, .str "x") (by simp [inRow])
  simp only [inFork, List.mem_cons, Prod.mk.injEq, List.not_mem_nil, or_false, and_true] at h1 h2
  omega

/-- The text of a label that is a string. -/
def strText : Label String → List Char
  | .str s => s.toList
  | _ => []

/-- The hypotheses of `display_determines_partial` hold for these two patterns. -/
example : ∃ t, displayGraph strText inRow = .ok t ∧ t.count '\n' = 2 ∧ inRow.edges.map (seen strText inRow) = inFork.edges.map (seen strText inFork) := by
  have hc : CleanText strText inRow := by constructor <;> decide +kernel
  have hc' : CleanText strText inFork := by constructor <;> decide +kernel
  obtain ⟨t, h1, h2, h3⟩ := display_determines_partial strText inRow inFork inRow_made inFork_made inRow_linked inFork_linked hc hc'
  refine ⟨t, h1, h2, (h3 ?_).1⟩
  obtain ⟨_, _, ⟨t', k1, k2⟩, _⟩ := display_ambiguous strText
  rw [h1] at k1
  rw [k2, Except.ok.inj k1]

example : displayGraph strText inRow = .ok "A--x-->A\nA--x-->A\n".toList := by decide +kernel

/-- The hypotheses of `display_total` hold for a table with a row. -/
example (txt : Label ℕ → List Char) : ∃ t, displayGraph txt linePat = .ok t := (display_total txt lineData lineData_plain witnessNames witnessNames_ok lineData_apart _ line_table).1 linePat (by simp)

/-- The hypotheses of `discover_raises` hold for the path described by one pattern. -/
example (txt : Label ℕ → List Char) : ∃ ps, discoverObj txt id (some ([linePat], ps)) = .error "AttributeError" := by
  obtain ⟨_, m', rows', ps, h1, h2, _⟩ := only_pattern_lost
  exact ⟨ps, discover_raises txt id pathGraph [pathRow] _ m' rows' ps h1 [linePat] rfl 0 h2⟩

/-- The hypotheses of `discover_singletons` hold for the path without rows. -/
example (txt : Label ℕ → List Char) : ∃ (ps : List (Piece ℕ)) (out : List (Printed ℕ)), discoverObj txt id (some ([], ps)) = .ok out ∧ .pattern (txt (.str 9)) ∈ out ∧ .singleton 9 ∈ out := by
  obtain ⟨m', rows', ps, h1, -⟩ := cover_partial pathGraph (by decide) [] (by simp) Marks.fresh .fresh
  have e1 : (cover pathGraph [] Marks.fresh).toOption.map (fun x => x.2.2) = some [.edge 0 1 1, .edge 1 2 1, .vertex 0 9, .vertex 1 9, .vertex 2 9] := by decide +kernel
  have h0 := h1
  rw [h1] at e1
  have e1 : ps = _ := Option.some.inj e1
  subst e1
  have hv : InUse [(.edge 0 1 1 : Piece ℕ), .edge 1 2 1, .vertex 0 9, .vertex 1 9, .vertex 2 9] (.vertex 9) := ⟨.vertex 0 9, by simp, rfl⟩
  have hne : ¬ InUse [(.edge 0 1 1 : Piece ℕ), .edge 1 2 1, .vertex 0 9, .vertex 1 9, .vertex 2 9] (.edge 9) := by
    rintro ⟨pc, hpc, e⟩
    simp only [List.mem_cons, List.not_mem_nil, or_false] at hpc
    rcases hpc with rfl | rfl | rfl | rfl | rfl <;> simp_all [Piece.kind]
  obtain ⟨d, L, k1, -, k3, -, -, k6⟩ := discover_singletons txt id (fun _ => List.Perm.refl _) pathGraph [] Marks.fresh m' rows' _ h0 (by simp) [] rfl (by
    rintro i ⟨pc, hpc, e⟩
    simp only [List.mem_cons, List.not_mem_nil, or_false] at hpc
    rcases hpc with rfl | rfl | rfl | rfl | rfl <;> cases e)
  refine ⟨_, _, k1, ?_, ?_⟩
  · simp [k6 9 hv hne]
  · simp [(k3 9).mpr (.inr hv)]

end Verif.Graph
