import Verif.Graph.CoverSpec
import Mathlib.Data.List.Nodup
import Mathlib.Tactic.Common

/-!
# The cover of a data graph: lemmas
-/

set_option autoImplicit false
set_option linter.unusedSectionVars false

namespace Verif.Graph

variable {σ : Type} [DecidableEq σ]

theorem mem_edgeLabels (p : DGraph σ) (a b : ℕ) (l : σ) : l ∈ p.edgeLabels a b ↔ (a, b, l) ∈ p.edges := by
  unfold DGraph.edgeLabels
  constructor
  · intro h
    obtain ⟨x, hx, rfl⟩ := List.mem_map.mp h
    rw [List.mem_filter] at hx
    have := hx.2
    simp only [decide_eq_true_eq] at this
    rw [← this.1, ← this.2]
    exact hx.1
  · intro h
    exact List.mem_map.mpr ⟨_, List.mem_filter.mpr ⟨h, by simp⟩, rfl⟩

theorem hasEdge_iff (g : DGraph σ) (u v : ℕ) : g.hasEdge u v = true ↔ ∃ l, (u, v, l) ∈ g.edges := by
  unfold DGraph.hasEdge
  rw [List.any_eq_true]
  constructor
  · rintro ⟨x, hx, h⟩
    simp only [decide_eq_true_eq] at h
    exact ⟨x.2.2, by rw [← h.1, ← h.2]; exact hx⟩
  · rintro ⟨l, h⟩
    exact ⟨_, h, by simp⟩

theorem mem_edgesIn (e : Embedding) (p : DGraph σ) (a b : ℕ) :
    (a, b) ∈ edgesIn e p ↔ (∃ l, (a, b, l) ∈ p.edges) ∧ a ∈ e.map Prod.snd ∧ b ∈ e.map Prod.snd := by
  unfold edgesIn
  rw [List.mem_dedup, List.mem_filter, decide_eq_true_eq]
  apply and_congr_left'
  constructor
  · intro h
    obtain ⟨x, hx, e⟩ := List.mem_map.mp h
    simp only [Prod.mk.injEq] at e
    exact ⟨x.2.2, by rw [← e.1, ← e.2]; exact hx⟩
  · rintro ⟨l, h⟩
    exact List.mem_map.mpr ⟨_, h, rfl⟩

theorem keyOf_eq (e : Embedding) (h : (e.map Prod.snd).Nodup) (u a : ℕ) (hm : (u, a) ∈ e) : keyOf e a = u := by
  unfold keyOf
  have : e.find? (fun x => decide (x.2 = a)) = some (u, a) := by
    induction e with
    | nil => simp at hm
    | cons x t ih =>
      rw [List.map_cons, List.nodup_cons] at h
      rcases List.mem_cons.mp hm with rfl | hm
      · simp
      · have : ¬ x.2 = a := fun e => h.1 (e ▸ List.mem_map_of_mem (f := Prod.snd) hm)
        rw [List.find?_cons_of_neg (by simpa using this)]
        exact ih h.2 hm
  rw [this]; rfl

theorem keyOf_mem (e : Embedding) (h : (e.map Prod.snd).Nodup) (a : ℕ) (ha : a ∈ e.map Prod.snd) : (keyOf e a, a) ∈ e := by
  obtain ⟨x, hx, rfl⟩ := List.mem_map.mp ha
  rw [keyOf_eq e h x.1 x.2 hx]
  exact hx

/-! ## Closed forms -/

theorem markLabels_eq (g : DGraph σ) (u v : ℕ) (ls : List σ) (m : Marks σ) (h : ∀ l ∈ ls, (u, v, l) ∈ g.edges) :
    markLabels g u v ls m = .ok { m with emark := fun x => if x.1 = u ∧ x.2.1 = v ∧ x.2.2 ∈ ls then m.marker else m.emark x } := by
  induction ls generalizing m with
  | nil => simp [markLabels]
  | cons l t ih =>
    rw [markLabels, markEdge, if_pos (h l (List.mem_cons_self ..))]
    show markLabels g u v t _ = _
    rw [ih _ (fun l hl => h l (List.mem_cons_of_mem _ hl))]
    congr 2
    funext x
    obtain ⟨x1, x2, x3⟩ := x
    simp only [Prod.mk.injEq, List.mem_cons]
    by_cases h1 : x1 = u <;> by_cases h2 : x2 = v <;> by_cases h3 : x3 = l <;> by_cases h4 : x3 ∈ t <;> simp [h1, h2, h3, h4]

theorem markEdges_eq (g p : DGraph σ) (e : Embedding) (L : List (ℕ × ℕ)) (m : Marks σ)
    (h : ∀ ab ∈ L, g.hasEdge (keyOf e ab.1) (keyOf e ab.2) = true ∧ ∀ l ∈ p.edgeLabels ab.1 ab.2, (keyOf e ab.1, keyOf e ab.2, l) ∈ g.edges) :
    markEdges g p e L m = .ok { m with
      emark := fun x => if ∃ ab ∈ L, x.1 = keyOf e ab.1 ∧ x.2.1 = keyOf e ab.2 ∧ x.2.2 ∈ p.edgeLabels ab.1 ab.2 then m.marker else m.emark x
      nmark := fun x => if ∃ ab ∈ L, (x.1 = keyOf e ab.1 ∧ x.2 ∈ p.labels ab.1 ∧ x.2 ∈ g.labels x.1) ∨ (x.1 = keyOf e ab.2 ∧ x.2 ∈ p.labels ab.2 ∧ x.2 ∈ g.labels x.1) then m.marker else m.nmark x } := by
  induction L generalizing m with
  | nil => simp [markEdges]
  | cons ab t ih =>
    obtain ⟨a, b⟩ := ab
    have h0 := h (a, b) (List.mem_cons_self ..)
    rw [markEdges, if_pos h0.1, markLabels_eq g _ _ _ _ h0.2]
    show markEdges g p e t _ = _
    rw [ih _ (fun x hx => h x (List.mem_cons_of_mem _ hx))]
    congr 2
    · funext x
      simp only [markNode, List.exists_mem_cons_iff]
      by_cases h1 : ∃ ab ∈ t, x.1 = keyOf e ab.1 ∧ x.2.1 = keyOf e ab.2 ∧ x.2.2 ∈ p.edgeLabels ab.1 ab.2
      · rw [if_pos h1, if_pos (Or.inr h1)]
      · rw [if_neg h1]
        simp only [h1, or_false]
    · funext x
      simp only [markNode, List.exists_mem_cons_iff]
      by_cases h1 : ∃ ab ∈ t, (x.1 = keyOf e ab.1 ∧ x.2 ∈ p.labels ab.1 ∧ x.2 ∈ g.labels x.1) ∨ (x.1 = keyOf e ab.2 ∧ x.2 ∈ p.labels ab.2 ∧ x.2 ∈ g.labels x.1)
      · rw [if_pos h1, if_pos (Or.inr h1)]
      · rw [if_neg h1]
        simp only [h1, or_false]
        by_cases ha : x.1 = keyOf e a ∧ x.2 ∈ p.labels a ∧ x.2 ∈ g.labels x.1
        · have ha' : x.1 = keyOf e a ∧ x.2 ∈ p.labels a ∧ x.2 ∈ g.labels (keyOf e a) := ⟨ha.1, ha.2.1, ha.1 ▸ ha.2.2⟩
          rw [if_pos ha', if_pos (Or.inl ha)]
          simp
        · have ha' : ¬ (x.1 = keyOf e a ∧ x.2 ∈ p.labels a ∧ x.2 ∈ g.labels (keyOf e a)) := fun hh => ha ⟨hh.1, hh.2.1, by rw [hh.1]; exact hh.2.2⟩
          rw [if_neg ha']
          by_cases hb : x.1 = keyOf e b ∧ x.2 ∈ p.labels b ∧ x.2 ∈ g.labels x.1
          · have hb' : x.1 = keyOf e b ∧ x.2 ∈ p.labels b ∧ x.2 ∈ g.labels (keyOf e b) := ⟨hb.1, hb.2.1, hb.1 ▸ hb.2.2⟩
            rw [if_pos hb', if_pos (Or.inr hb)]
          · have hb' : ¬ (x.1 = keyOf e b ∧ x.2 ∈ p.labels b ∧ x.2 ∈ g.labels (keyOf e b)) := fun hh => hb ⟨hh.1, hh.2.1, by rw [hh.1]; exact hh.2.2⟩
            rw [if_neg hb', if_neg (by rintro (hh | hh); exact ha hh; exact hb hh)]

theorem anyMarked_eq (g p : DGraph σ) (m : Marks σ) (e : Embedding) (L : List (ℕ × ℕ)) (h : ∀ ab ∈ L, g.hasEdge (keyOf e ab.1) (keyOf e ab.2) = true) :
    anyMarked g p m e L = .ok (L.any (fun ab => (p.edgeLabels ab.1 ab.2).any (edgeMarked g m (keyOf e ab.1) (keyOf e ab.2)))) := by
  induction L with
  | nil => rfl
  | cons ab t ih =>
    obtain ⟨a, b⟩ := ab
    rw [anyMarked, if_pos (h (a, b) (List.mem_cons_self ..)), ih (fun x hx => h x (List.mem_cons_of_mem _ hx))]
    rfl

/-! ## Steps -/

/-- What a part of the cover does: the marker stays; each edge marked in this part is covered by exactly one new piece and no new piece covers an edge marked before; labels marked in this part are exactly those covered. -/
structure Step (g : DGraph σ) (rows : List (Row σ)) (m m' : Marks σ) (ps : List (Piece σ)) : Prop where
  marker : m'.marker = m.marker
  edges : ∀ x, ps.countP (fun pc => pc.coversEdge rows x) + (if m.emark x = m.marker then 1 else 0) = if m'.emark x = m.marker then 1 else 0
  old : ∀ x, m'.emark x = m.emark x ∨ m'.emark x = m.marker
  real : ∀ x, m'.emark x = m.emark x ∨ x ∈ g.edges
  nold : ∀ x, m'.nmark x = m.nmark x ∨ m'.nmark x = m.marker
  labels : ∀ x, m'.nmark x = m.marker → m.nmark x = m.marker ∨ (∃ pc ∈ ps, pc.embCovers rows x = true) ∨ Piece.vertex x.1 x.2 ∈ ps
  back : ∀ x, ∀ pc ∈ ps, pc.embCovers rows x = true → m'.nmark x = m.marker

theorem Step.refl (g : DGraph σ) (rows : List (Row σ)) (m : Marks σ) : Step g rows m m [] :=
  ⟨rfl, by simp, fun _ => Or.inl rfl, fun _ => Or.inl rfl, fun _ => Or.inl rfl, fun _ h => Or.inl h, by simp⟩

theorem Step.trans {g : DGraph σ} {rows : List (Row σ)} {m m' m'' : Marks σ} {ps qs : List (Piece σ)} (h1 : Step g rows m m' ps) (h2 : Step g rows m' m'' qs) : Step g rows m m'' (ps ++ qs) := by
  refine ⟨h2.marker.trans h1.marker, ?_, ?_, ?_, ?_, ?_, ?_⟩
  · intro x
    have a := h1.edges x
    have b := h2.edges x
    rw [h1.marker] at b
    rw [List.countP_append]
    omega
  · intro x
    rcases h2.old x with h | h
    · rw [h]; exact h1.old x
    · rw [h, h1.marker]; exact Or.inr rfl
  · intro x
    rcases h2.real x with h | h
    · rw [h]; exact h1.real x
    · exact Or.inr h
  · intro x
    rcases h2.nold x with h | h
    · rw [h]; exact h1.nold x
    · rw [h, h1.marker]; exact Or.inr rfl
  · intro x hx
    rw [← h1.marker] at hx
    rcases h2.labels x hx with h | ⟨pc, h, h'⟩ | h
    · rw [h1.marker] at h
      rcases h1.labels x h with h | ⟨pc, h, h'⟩ | h
      · exact Or.inl h
      · exact Or.inr (Or.inl ⟨pc, List.mem_append_left _ h, h'⟩)
      · exact Or.inr (Or.inr (List.mem_append_left _ h))
    · exact Or.inr (Or.inl ⟨pc, List.mem_append_right _ h, h'⟩)
    · exact Or.inr (Or.inr (List.mem_append_right _ h))
  · intro x pc hpc hc
    rcases List.mem_append.mp hpc with h | h
    · have := h1.back x pc h hc
      rcases h2.nold x with h' | h'
      · rw [h', this]
      · rw [h', h1.marker]
    · have := h2.back x pc h hc
      rwa [h1.marker] at this

/-- Marks after using one embedding of a pattern with edges. -/
theorem markEmb_step (g : DGraph σ) (rows : List (Row σ)) (i : ℕ) (r : Row σ) (hr : rows[i]? = some r) (hrow : RowOk g r) (hedges : r.pattern.edges ≠ []) (e : Embedding)
    (he : IsEmbedding g r.pattern e) (m : Marks σ) : embMarked g r.pattern m e = .ok true ∨
    (embMarked g r.pattern m e = .ok false ∧ ∃ m', markEmb g r.pattern m e = .ok m' ∧ ∀ ports, Step g rows m m' [.emb i e ports]) := by
  have hkey : ∀ a b l, (a, b, l) ∈ r.pattern.edges → (keyOf e a, a) ∈ e ∧ (keyOf e b, b) ∈ e := fun a b l h =>
    ⟨keyOf_mem e he.values a (he.total a b l h).1, keyOf_mem e he.values b (he.total a b l h).2⟩
  have hhas : ∀ ab ∈ edgesIn e r.pattern, g.hasEdge (keyOf e ab.1) (keyOf e ab.2) = true := by
    intro ab hab
    obtain ⟨⟨l, hl⟩, _⟩ := (mem_edgesIn e r.pattern ab.1 ab.2).mp hab
    have := he.edges _ _ _ hl _ _ (hkey _ _ _ hl).1 (hkey _ _ _ hl).2
    rw [hasEdge_iff]
    split at this
    · exact this
    · exact ⟨l, this⟩
  have hin : ∀ a b l, (a, b, l) ∈ r.pattern.edges → (a, b) ∈ edgesIn e r.pattern := fun a b l h =>
    (mem_edgesIn ..).mpr ⟨⟨l, h⟩, he.total a b l h⟩
  have hne : edgesIn e r.pattern ≠ [] := by
    obtain ⟨⟨a, b, l⟩, hx⟩ := List.exists_mem_of_ne_nil _ hedges
    exact List.ne_nil_of_mem (hin a b l hx)
  rw [embMarked, if_neg hne, anyMarked_eq g r.pattern m e _ hhas]
  cases hb : (edgesIn e r.pattern).any (fun ab => (r.pattern.edgeLabels ab.1 ab.2).any (edgeMarked g m (keyOf e ab.1) (keyOf e ab.2))) with
  | true => exact Or.inl rfl
  | false =>
    refine Or.inr ⟨rfl, ?_⟩
    have hun : ∀ a b l, (a, b, l) ∈ r.pattern.edges → edgeMarked g m (keyOf e a) (keyOf e b) l = false := by
      intro a b l h
      rw [List.any_eq_false] at hb
      have := hb (a, b) (hin a b l h)
      rw [Bool.not_eq_true, List.any_eq_false] at this
      simpa using this l ((mem_edgeLabels ..).mpr h)
    have hmem : ∀ a b l, (a, b, l) ∈ r.pattern.edges → (keyOf e a, keyOf e b, l) ∈ g.edges := by
      intro a b l h
      have h1 := hun a b l h
      have h2 := he.edges _ _ _ h _ _ (hkey _ _ _ h).1 (hkey _ _ _ h).2
      unfold edgeMarked at h1
      by_cases hm : g.multi
      · by_contra hc
        simp [hm, hc] at h1
      · simpa [hm] using h2
    have hunm : ∀ a b l, (a, b, l) ∈ r.pattern.edges → m.emark (keyOf e a, keyOf e b, l) ≠ m.marker := by
      intro a b l h
      have h1 := hun a b l h
      unfold edgeMarked at h1
      have := hmem a b l h
      simpa [this] using h1
    have heq := markEdges_eq g r.pattern e (edgesIn e r.pattern) m (fun ab hab => ⟨hhas ab hab, fun l hl => hmem _ _ _ ((mem_edgeLabels ..).mp hl)⟩)
    refine ⟨_, heq, fun ports => ?_⟩
    have hcov : ∀ x : ℕ × ℕ × σ, (∃ ab ∈ edgesIn e r.pattern, x.1 = keyOf e ab.1 ∧ x.2.1 = keyOf e ab.2 ∧ x.2.2 ∈ r.pattern.edgeLabels ab.1 ab.2) ↔
        (Piece.emb (σ := σ) i e ports).coversEdge rows x = true := by
      intro x
      simp only [Piece.coversEdge, hr, List.any_eq_true, decide_eq_true_eq]
      constructor
      · rintro ⟨⟨a, b⟩, _, h1, h2, h3⟩
        have h3 := (mem_edgeLabels ..).mp h3
        refine ⟨_, h3, rfl, ?_, ?_⟩
        · rw [h1]; exact (hkey _ _ _ h3).1
        · rw [h2]; exact (hkey _ _ _ h3).2
      · rintro ⟨⟨a, b, l⟩, h, h1, h2, h3⟩
        exact ⟨(a, b), hin a b l h, (keyOf_eq e he.values _ _ h2).symm, (keyOf_eq e he.values _ _ h3).symm, (mem_edgeLabels ..).mpr (h1 ▸ h)⟩
    refine ⟨rfl, ?_, ?_, ?_, ?_, ?_, ?_⟩
    · intro x
      simp only [List.countP_cons, List.countP_nil, Nat.zero_add]
      by_cases hc : (Piece.emb (σ := σ) i e ports).coversEdge rows x = true
      · have h1 := (hcov x).mpr hc
        obtain ⟨⟨a, b⟩, _, h2, h3, h4⟩ := h1
        have h5 := hunm a b x.2.2 ((mem_edgeLabels ..).mp h4)
        rw [← h2, ← h3] at h5
        have h6 := (hcov x).mpr hc
        simp only [hc, h5, h6, if_true, if_false]
      · have h6 := mt (hcov x).mp hc
        rw [if_neg hc, Nat.zero_add]
        simp only [h6, if_false]
    · intro x
      by_cases h : ∃ ab ∈ edgesIn e r.pattern, x.1 = keyOf e ab.1 ∧ x.2.1 = keyOf e ab.2 ∧ x.2.2 ∈ r.pattern.edgeLabels ab.1 ab.2
      · exact Or.inr (if_pos h)
      · exact Or.inl (if_neg h)
    · intro x
      by_cases h : ∃ ab ∈ edgesIn e r.pattern, x.1 = keyOf e ab.1 ∧ x.2.1 = keyOf e ab.2 ∧ x.2.2 ∈ r.pattern.edgeLabels ab.1 ab.2
      · obtain ⟨⟨a, b⟩, _, h2, h3, h4⟩ := h
        have := hmem a b x.2.2 ((mem_edgeLabels ..).mp h4)
        rw [← h2, ← h3] at this
        exact Or.inr this
      · exact Or.inl (if_neg h)
    · intro x
      simp only
      split
      · exact Or.inr rfl
      · exact Or.inl rfl
    · intro x hx
      simp only at hx
      split at hx
      · rename_i h
        refine Or.inr (Or.inl ⟨_, List.mem_singleton_self _, ?_⟩)
        simp only [Piece.embCovers, hr, List.any_eq_true, decide_eq_true_eq]
        obtain ⟨⟨a, b⟩, hab, h⟩ := h
        obtain ⟨⟨l, hl⟩, _⟩ := (mem_edgesIn ..).mp hab
        rcases h with h | h
        · exact ⟨_, (hkey _ _ _ hl).1, h.1.symm, h.2.1⟩
        · exact ⟨_, (hkey _ _ _ hl).2, h.1.symm, h.2.1⟩
      · exact Or.inl hx
    · intro x pc hpc hc
      rw [List.mem_singleton] at hpc
      subst hpc
      simp only [Piece.embCovers, hr, List.any_eq_true, decide_eq_true_eq] at hc
      obtain ⟨⟨v, a⟩, hy, hv, hl⟩ := hc
      simp only at hv hl ⊢
      obtain ⟨b, l, hbl⟩ := hrow.connected hedges a (List.ne_nil_of_mem hl)
      rw [if_pos]
      have hg : x.2 ∈ g.labels x.1 := by rw [← hv]; exact he.labels v a hy _ hl
      have hk : x.1 = keyOf e a := by rw [keyOf_eq e he.values _ _ hy, hv]
      rcases hbl with h | h
      · exact ⟨(a, b), hin _ _ _ h, Or.inl ⟨hk, hl, hg⟩⟩
      · exact ⟨(b, a), hin _ _ _ h, Or.inr ⟨hk, hl, hg⟩⟩

theorem coverEmbs_step (g : DGraph σ) (rows : List (Row σ)) (i : ℕ) (r : Row σ) (hr : rows[i]? = some r) (hrow : RowOk g r) (hedges : r.pattern.edges ≠ []) (es : List Embedding)
    (hes : ∀ e ∈ es, IsEmbedding g r.pattern e) (m : Marks σ) : ∃ m' ps, coverEmbs g r.pattern i es m = .ok (m', ps) ∧ Step g rows m m' ps := by
  induction es generalizing m with
  | nil => exact ⟨m, [], rfl, Step.refl g rows m⟩
  | cons e t ih =>
    have ht := fun e' h => hes e' (List.mem_cons_of_mem _ h)
    rcases markEmb_step g rows i r hr hrow hedges e (hes e (List.mem_cons_self ..)) m with h | ⟨h, m1, hm1, hs⟩
    · obtain ⟨m', ps, h1, h2⟩ := ih ht m
      exact ⟨m', ps, by rw [coverEmbs, h]; exact h1, h2⟩
    · obtain ⟨m', ps, h1, h2⟩ := ih ht m1
      refine ⟨m', .emb i e (searchPort g r.pattern m1 e) :: ps, ?_, (hs _).trans h2⟩
      rw [coverEmbs, h]
      show (markEmb g r.pattern m e).bind _ = _
      rw [hm1]
      show (coverEmbs g r.pattern i t m1).map _ = _
      rw [h1]; rfl

theorem coverVerts_mono (g p : DGraph σ) (i : ℕ) (e : Embedding) (L : List (ℕ × ℕ)) (m m' : Marks σ) (ps : List (Piece σ)) (h : coverVerts g p i e L m = .ok (m', ps)) :
    ∀ x, m.nmark x = m.marker → m'.nmark x = m.marker := by
  induction L generalizing m ps with
  | nil =>
    simp only [coverVerts, Except.ok.injEq, Prod.mk.injEq] at h
    rw [← h.1]
    exact fun _ h => h
  | cons z L ih =>
    obtain ⟨z1, z2⟩ := z
    rw [coverVerts] at h
    split at h
    · cases h
    · split at h
      · cases h
      · split at h
        · exact ih m ps h
        · cases hq : coverVerts g p i e L (markNode g m z1 (p.labels z2)) with
          | error s => rw [hq] at h; cases h
          | ok q =>
            rw [hq] at h
            obtain ⟨q1, q2⟩ := q
            have h := Except.ok.inj h
            simp only [Prod.mk.injEq] at h
            obtain ⟨rfl, _⟩ := h
            intro x hx
            refine ih _ _ hq x ?_
            simp only [markNode]
            split
            · rfl
            · exact hx

theorem coverVerts_marks (g p : DGraph σ) (i : ℕ) (e : Embedding) (he : IsEmbedding g p e) (L : List (ℕ × ℕ)) (m m' : Marks σ) (ps : List (Piece σ)) (hs : L ⊆ e)
    (h : coverVerts g p i e L m = .ok (m', ps)) : ∀ x ∈ L, ∀ l ∈ p.labels x.2, m'.nmark (x.1, l) = m.marker := by
  induction L generalizing m ps with
  | nil => intro x hx; simp at hx
  | cons z L ih =>
    obtain ⟨z1, z2⟩ := z
    have hz : (z1, z2) ∈ e := hs (List.mem_cons_self ..)
    have hL : L ⊆ e := fun y hy => hs (List.mem_cons_of_mem _ hy)
    rw [coverVerts] at h
    split at h
    · cases h
    · split at h
      · cases h
      · split at h
        · rename_i h3
          intro x hx
          rcases List.mem_cons.mp hx with rfl | hx
          · rw [List.all_eq_true] at h3
            exact fun l hl => coverVerts_mono _ _ _ _ _ _ _ _ h _ (by simpa using h3 l hl)
          · exact ih m ps hL h x hx
        · cases hq : coverVerts g p i e L (markNode g m z1 (p.labels z2)) with
          | error s => rw [hq] at h; cases h
          | ok q =>
            rw [hq] at h
            obtain ⟨q1, q2⟩ := q
            have h := Except.ok.inj h
            simp only [Prod.mk.injEq] at h
            obtain ⟨rfl, _⟩ := h
            intro x hx
            rcases List.mem_cons.mp hx with rfl | hx
            · intro l hl
              refine coverVerts_mono _ _ _ _ _ _ _ _ hq _ ?_
              simp only [markNode]
              rw [if_pos ⟨trivial, hl, he.labels z1 z2 hz l hl⟩]
            · exact ih _ _ hL hq x hx

/-- The vertices of an embedding of a pattern without edge. The labels of the vertices handled are marked at the end. -/
theorem coverVerts_step (g : DGraph σ) (rows : List (Row σ)) (i : ℕ) (r : Row σ) (hr : rows[i]? = some r) (hedges : r.pattern.edges = []) (e : Embedding) (he : IsEmbedding g r.pattern e)
    (hl : ∀ x ∈ e, r.pattern.labels x.2 ≠ []) (L : List (ℕ × ℕ)) (hL : L ⊆ e) (m : Marks σ) (hm : ∀ x ∈ e, x ∈ L ∨ ∀ l ∈ r.pattern.labels x.2, m.nmark (x.1, l) = m.marker) :
    ∃ m' ps, coverVerts g r.pattern i e L m = .ok (m', ps) ∧ Step g rows m m' ps := by
  induction L generalizing m with
  | nil => exact ⟨m, [], rfl, Step.refl g rows m⟩
  | cons x t ih =>
    obtain ⟨v, a⟩ := x
    have hva : (v, a) ∈ e := hL (List.mem_cons_self ..)
    have ht : t ⊆ e := fun y hy => hL (List.mem_cons_of_mem _ hy)
    have hnone : ¬ ((r.pattern.labels a).any (fun l => decide (l ∉ g.labels v)) = true) := by
      rw [List.any_eq_true]
      rintro ⟨l, h1, h2⟩
      exact (by simpa using h2 : l ∉ g.labels v) (he.labels v a hva l h1)
    by_cases hall : (r.pattern.labels a).all (fun l => decide (m.nmark (v, l) = m.marker)) = true
    · obtain ⟨m', ps, h1, h2⟩ := ih ht m (by
        intro x hx
        rcases hm x hx with h | h
        · rcases List.mem_cons.mp h with rfl | h
          · rw [List.all_eq_true] at hall
            exact Or.inr (fun l hl => by simpa using hall l hl)
          · exact Or.inl h
        · exact Or.inr h)
      exact ⟨m', ps, by rw [coverVerts, if_neg (hl _ hva), if_neg hnone, if_pos hall]; exact h1, h2⟩
    · have hmark : ∀ l ∈ r.pattern.labels a, (markNode g m v (r.pattern.labels a)).nmark (v, l) = m.marker := by
        intro l h
        simp only [markNode]
        rw [if_pos ⟨trivial, h, he.labels v a hva l h⟩]
      obtain ⟨m', ps, h1, h2⟩ := ih ht (markNode g m v (r.pattern.labels a)) (by
        intro x hx
        rcases hm x hx with h | h
        · rcases List.mem_cons.mp h with rfl | h
          · exact Or.inr hmark
          · exact Or.inl h
        · refine Or.inr (fun l hl => ?_)
          simp only [markNode]
          split
          · rfl
          · exact h l hl)
      refine ⟨m', .emb i e (searchPort g r.pattern m e) :: ps, by rw [coverVerts, if_neg (hl _ hva), if_neg hnone, if_neg hall, h1]; rfl, ?_⟩
      -- every vertex of the embedding ends up marked
      have hend : ∀ x ∈ e, ∀ l ∈ r.pattern.labels x.2, m'.nmark (x.1, l) = m.marker := by
        intro x hx l hl'
        rcases hm x hx with h | h
        · rcases List.mem_cons.mp h with rfl | h
          · have := hmark l hl'
            rcases h2.nold (v, l) with h' | h'
            · rw [h', this]
            · exact h'
          · exact coverVerts_marks g r.pattern i e he t _ _ _ ht h1 x h l hl'
        · have h3 : (markNode g m v (r.pattern.labels a)).nmark (x.1, l) = m.marker := by
            simp only [markNode]
            split
            · rfl
            · exact h l hl'
          rcases h2.nold (x.1, l) with h' | h'
          · rw [h', h3]
          · exact h'
      have hno : ∀ x, (Piece.emb (σ := σ) i e (searchPort g r.pattern m e)).coversEdge rows x = false := by
        intro x
        simp [Piece.coversEdge, hr, hedges]
      refine ⟨h2.marker, ?_, h2.old, h2.real, ?_, ?_, ?_⟩
      · intro x
        rw [List.countP_cons, if_neg (by rw [hno]; simp)]
        exact h2.edges x
      · intro x
        rcases h2.nold x with h | h
        · rw [h]
          simp only [markNode]
          split
          · exact Or.inr rfl
          · exact Or.inl rfl
        · exact Or.inr h
      · intro x hx
        rcases h2.labels x hx with h | ⟨pc, h, h'⟩ | h
        · simp only [markNode] at h
          split at h
          · rename_i hc
            refine Or.inr (Or.inl ⟨_, List.mem_cons_self .., ?_⟩)
            simp only [Piece.embCovers, hr, List.any_eq_true, decide_eq_true_eq]
            exact ⟨(v, a), hva, hc.1.symm, hc.2.1⟩
          · exact Or.inl h
        · exact Or.inr (Or.inl ⟨pc, List.mem_cons_of_mem _ h, h'⟩)
        · exact Or.inr (Or.inr (List.mem_cons_of_mem _ h))
      · intro x pc hpc hc
        rcases List.mem_cons.mp hpc with rfl | hpc
        · simp only [Piece.embCovers, hr, List.any_eq_true, decide_eq_true_eq] at hc
          obtain ⟨y, hy, h3, h4⟩ := hc
          have := hend y hy x.2 h4
          rwa [h3] at this
        · exact h2.back x pc hpc hc

theorem coverNodes_step (g : DGraph σ) (rows : List (Row σ)) (i : ℕ) (r : Row σ) (hr : rows[i]? = some r) (hedges : r.pattern.edges = []) (es : List Embedding)
    (hes : ∀ e ∈ es, IsEmbedding g r.pattern e) (hl : ∀ e ∈ es, ∀ x ∈ e, r.pattern.labels x.2 ≠ []) (m : Marks σ) :
    ∃ m' ps, coverNodes g r.pattern i es m = .ok (m', ps) ∧ Step g rows m m' ps := by
  induction es generalizing m with
  | nil => exact ⟨m, [], rfl, Step.refl g rows m⟩
  | cons e t ih =>
    obtain ⟨m1, ps1, h1, h2⟩ := coverVerts_step g rows i r hr hedges e (hes e (List.mem_cons_self ..)) (hl e (List.mem_cons_self ..)) e (fun _ h => h) m (fun x hx => Or.inl hx)
    obtain ⟨m2, ps2, h3, h4⟩ := ih (fun e' h => hes e' (List.mem_cons_of_mem _ h)) (fun e' h => hl e' (List.mem_cons_of_mem _ h)) m1
    refine ⟨m2, ps1 ++ ps2, ?_, h2.trans h4⟩
    rw [coverNodes, h1]
    show (coverNodes g r.pattern i t m1).map _ = _
    rw [h3]; rfl

theorem rowCover_step (g : DGraph σ) (rows : List (Row σ)) (i : ℕ) (r : Row σ) (hr : rows[i]? = some r) (hrow : RowOk g r) (m : Marks σ) :
    ∃ m' ps, rowCover g i r m = .ok (m', ps) ∧ Step g rows m m' ps := by
  unfold rowCover
  by_cases h : r.pattern.edges = []
  · rw [if_neg (by simpa using h)]
    exact coverNodes_step g rows i r hr h _ hrow.embs (hrow.labelled h) m
  · rw [if_pos h]
    exact coverEmbs_step g rows i r hr hrow h _ hrow.embs m

theorem coverRows_step (g : DGraph σ) (rows : List (Row σ)) (hrows : ∀ r ∈ rows, RowOk g r) (L : List (Row σ)) (i : ℕ) (hL : L = rows.drop i) (m : Marks σ) :
    ∃ m' L' ps, coverRows g i L m = .ok (m', L', ps) ∧ Step g rows m m' ps ∧ L'.map Row.pattern = L.map Row.pattern ∧ L'.map Row.embeddings = L.map Row.embeddings := by
  induction L generalizing i m with
  | nil => exact ⟨m, [], [], rfl, Step.refl g rows m, rfl, rfl⟩
  | cons r t ih =>
    have hi : rows[i]? = some r := by
      have : (rows.drop i)[0]? = some r := by rw [← hL]; rfl
      simpa using this
    have ht : t = rows.drop (i + 1) := by
      have : (rows.drop i).tail = t := by rw [← hL]; rfl
      rw [← this, List.tail_drop]
    obtain ⟨m1, ps1, h1, h2⟩ := rowCover_step g rows i r hi (hrows r (List.mem_of_getElem? hi)) m
    obtain ⟨m2, L2, ps2, h3, h4, h5, h6⟩ := ih (i + 1) ht m1
    refine ⟨m2, { r with used := r.used ++ ps1.filterMap Piece.entry? } :: L2, ps1 ++ ps2, ?_, h2.trans h4, by simp [h5], by simp [h6]⟩
    rw [coverRows, h1]
    show (coverRows g (i + 1) t m1).map _ = _
    rw [h3]; rfl

/-! ## Singletons -/

theorem singleEdges_step (g : DGraph σ) (rows : List (Row σ)) (L : List (ℕ × ℕ × σ)) (hL : L ⊆ g.edges) (m : Marks σ) :
    Step g rows m (singleEdges g L m).1 (singleEdges g L m).2 ∧ (∀ x ∈ L, (singleEdges g L m).1.emark x = m.marker) ∧
    (singleEdges g L m).1.nmark = m.nmark ∧ ∀ pc ∈ (singleEdges g L m).2, ∃ u v l, pc = .edge u v l := by
  induction L generalizing m with
  | nil => exact ⟨Step.refl g rows m, by simp, rfl, by simp [singleEdges]⟩
  | cons x t ih =>
    obtain ⟨u, v, l⟩ := x
    have hm : (u, v, l) ∈ g.edges := hL (List.mem_cons_self ..)
    have hem : edgeMarked g m u v l = decide (m.emark (u, v, l) = m.marker) := by simp [edgeMarked, hm]
    have ht : t ⊆ g.edges := fun y hy => hL (List.mem_cons_of_mem _ hy)
    rw [singleEdges, hem]
    by_cases h : m.emark (u, v, l) = m.marker
    · rw [if_pos (by simpa using h)]
      obtain ⟨h1, h2, h3, h4⟩ := ih ht m
      refine ⟨h1, ?_, h3, h4⟩
      intro x hx
      rcases List.mem_cons.mp hx with rfl | hx
      · rcases h1.old (u, v, l) with h' | h'
        · rw [h', h]
        · exact h'
      · exact h2 x hx
    · rw [if_neg (by simpa using h)]
      obtain ⟨h1, h2, h3, h4⟩ := ih ht { m with emark := fun x => if x = (u, v, l) then m.marker else m.emark x }
      refine ⟨?_, ?_, h3, ?_⟩
      · have h0 : Step g rows m { m with emark := fun x => if x = (u, v, l) then m.marker else m.emark x } [.edge u v l] := by
          refine ⟨rfl, ?_, ?_, ?_, fun _ => Or.inl rfl, fun x hx => Or.inl hx, ?_⟩
          · intro x
            simp only [List.countP_cons, List.countP_nil, Nat.zero_add, Piece.coversEdge, decide_eq_true_eq]
            by_cases hx : x = (u, v, l)
            · subst hx; simp [h]
            · simp [hx]
          · intro x
            simp only
            split
            · exact Or.inr rfl
            · exact Or.inl rfl
          · intro x
            by_cases hx : x = (u, v, l)
            · rw [hx]; exact Or.inr hm
            · exact Or.inl (if_neg hx)
          · intro x pc hpc hc
            rw [List.mem_singleton] at hpc; subst hpc
            simp [Piece.embCovers] at hc
        exact h0.trans h1
      · intro x hx
        rcases List.mem_cons.mp hx with rfl | hx
        · rcases h1.old (u, v, l) with h' | h'
          · exact h'.trans (if_pos rfl)
          · exact h'
        · exact h2 x hx
      · intro pc hpc
        rcases List.mem_cons.mp hpc with rfl | hpc
        · exact ⟨u, v, l, rfl⟩
        · exact h4 pc hpc

/-- What the vertex loops do. -/
structure NStep (m m' : Marks σ) (ps : List (Piece σ)) : Prop where
  marker : m'.marker = m.marker
  emark : m'.emark = m.emark
  verts : ∀ pc ∈ ps, ∃ v l, pc = .vertex v l
  count : ∀ x : ℕ × σ, ps.countP (fun pc => decide (pc = .vertex x.1 x.2)) + (if m.nmark x = m.marker then 1 else 0) = if m'.nmark x = m.marker then 1 else 0
  old : ∀ x, m'.nmark x = m.nmark x ∨ m'.nmark x = m.marker

theorem NStep.trans {m m' m'' : Marks σ} {ps qs : List (Piece σ)} (h1 : NStep m m' ps) (h2 : NStep m' m'' qs) : NStep m m'' (ps ++ qs) := by
  refine ⟨h2.marker.trans h1.marker, h2.emark.trans h1.emark, ?_, ?_, ?_⟩
  · intro pc hpc
    rcases List.mem_append.mp hpc with h | h
    · exact h1.verts pc h
    · exact h2.verts pc h
  · intro x
    have a := h1.count x
    have b := h2.count x
    rw [h1.marker] at b
    rw [List.countP_append]
    omega
  · intro x
    rcases h2.old x with h | h
    · rw [h]; exact h1.old x
    · rw [h, h1.marker]; exact Or.inr rfl

theorem singleLabels_step (v : ℕ) (ls : List σ) (m : Marks σ) : NStep m (singleLabels v ls m).1 (singleLabels v ls m).2 ∧
    ∀ l ∈ ls, (singleLabels v ls m).1.nmark (v, l) = m.marker := by
  induction ls generalizing m with
  | nil => exact ⟨⟨rfl, rfl, by simp [singleLabels], fun _ => (by simp only [singleLabels, List.countP_nil, Nat.zero_add]; rfl), fun _ => Or.inl rfl⟩, by simp⟩
  | cons l t ih =>
    rw [singleLabels]
    by_cases h : m.nmark (v, l) = m.marker
    · rw [if_pos h]
      obtain ⟨h1, h2⟩ := ih m
      refine ⟨h1, ?_⟩
      intro l' hl'
      rcases List.mem_cons.mp hl' with rfl | hl'
      · rcases h1.old (v, l') with h' | h'
        · rw [h', h]
        · exact h'
      · exact h2 l' hl'
    · rw [if_neg h]
      obtain ⟨h1, h2⟩ := ih { m with nmark := fun x => if x = (v, l) then m.marker else m.nmark x }
      have h0 : NStep m { m with nmark := fun x => if x = (v, l) then m.marker else m.nmark x } [.vertex v l] := by
        refine ⟨rfl, rfl, by simp, ?_, ?_⟩
        · intro x
          obtain ⟨x1, x2⟩ := x
          simp only [List.countP_cons, List.countP_nil, Nat.zero_add, decide_eq_true_eq, Piece.vertex.injEq, Prod.mk.injEq]
          by_cases hx : x1 = v ∧ x2 = l
          · obtain ⟨rfl, rfl⟩ := hx; simp [h]
          · have : ¬ (v = x1 ∧ l = x2) := fun hh => hx ⟨hh.1.symm, hh.2.symm⟩
            simp [hx, this]
        · intro x
          simp only
          split
          · exact Or.inr rfl
          · exact Or.inl rfl
      refine ⟨h0.trans h1, ?_⟩
      intro l' hl'
      rcases List.mem_cons.mp hl' with rfl | hl'
      · rcases h1.old (v, l') with h' | h'
        · exact h'.trans (if_pos rfl)
        · exact h'
      · exact h2 l' hl'

theorem singleNodes_step (L : List (ℕ × List σ)) (m : Marks σ) : NStep m (singleNodes L m).1 (singleNodes L m).2 ∧
    ∀ x ∈ L, ∀ l ∈ x.2, (singleNodes L m).1.nmark (x.1, l) = m.marker := by
  induction L generalizing m with
  | nil => exact ⟨⟨rfl, rfl, by simp [singleNodes], fun _ => (by simp only [singleNodes, List.countP_nil, Nat.zero_add]; rfl), fun _ => Or.inl rfl⟩, by simp⟩
  | cons x t ih =>
    obtain ⟨v, ls⟩ := x
    obtain ⟨h1, h2⟩ := singleLabels_step v ls m
    obtain ⟨h3, h4⟩ := ih (singleLabels v ls m).1
    refine ⟨h1.trans h3, ?_⟩
    intro x hx l hl
    rcases List.mem_cons.mp hx with rfl | hx
    · rcases h3.old (v, l) with h | h
      · exact h.trans (h2 l hl)
      · exact h.trans h1.marker
    · exact (h4 x hx l hl).trans h1.marker

theorem NStep.step {m m' : Marks σ} {ps : List (Piece σ)} (g : DGraph σ) (rows : List (Row σ)) (h : NStep m m' ps) : Step g rows m m' ps := by
  refine ⟨h.marker, ?_, ?_, fun x => Or.inl (by rw [h.emark]), h.old, ?_, ?_⟩
  · intro x
    have : ps.countP (fun pc => pc.coversEdge rows x) = 0 := by
      rw [List.countP_eq_zero]
      intro pc hpc
      obtain ⟨v, l, rfl⟩ := h.verts pc hpc
      simp [Piece.coversEdge]
    rw [this, h.emark, Nat.zero_add]
  · intro x; rw [h.emark]; exact Or.inl rfl
  · intro x hx
    have := h.count x
    by_cases hm : m.nmark x = m.marker
    · exact Or.inl hm
    · rw [if_neg hm, if_pos hx] at this
      have : 0 < ps.countP (fun pc => decide (pc = .vertex x.1 x.2)) := by omega
      obtain ⟨pc, h1, h2⟩ := List.countP_pos_iff.mp this
      simp only [decide_eq_true_eq] at h2
      exact Or.inr (Or.inr (h2 ▸ h1))
  · intro x pc hpc hc
    obtain ⟨v, l, rfl⟩ := h.verts pc hpc
    simp [Piece.embCovers] at hc

theorem singleLabels_real (v : ℕ) (ls : List σ) (m : Marks σ) (w : ℕ) (l : σ) (h : Piece.vertex w l ∈ (singleLabels v ls m).2) : w = v ∧ l ∈ ls := by
  induction ls generalizing m with
  | nil => simp [singleLabels] at h
  | cons l' t ih =>
    rw [singleLabels] at h
    split at h
    · exact ⟨(ih m h).1, List.mem_cons_of_mem _ (ih m h).2⟩
    · rcases List.mem_cons.mp h with h | h
      · simp only [Piece.vertex.injEq] at h
        exact ⟨h.1, by rw [h.2]; exact List.mem_cons_self ..⟩
      · exact ⟨(ih _ h).1, List.mem_cons_of_mem _ (ih _ h).2⟩

theorem singleNodes_real (L : List (ℕ × List σ)) (m : Marks σ) (v : ℕ) (l : σ) (h : Piece.vertex v l ∈ (singleNodes L m).2) : ∃ ls, (v, ls) ∈ L ∧ l ∈ ls := by
  induction L generalizing m with
  | nil => simp [singleNodes] at h
  | cons x t ih =>
    obtain ⟨w, ls⟩ := x
    rcases List.mem_append.mp (show _ ∈ (singleLabels w ls m).2 ++ _ from h) with h | h
    · obtain ⟨rfl, h2⟩ := singleLabels_real _ _ _ _ _ h
      exact ⟨ls, List.mem_cons_self .., h2⟩
    · obtain ⟨ls', h1, h2⟩ := ih _ h
      exact ⟨ls', List.mem_cons_of_mem _ h1, h2⟩

/-- The rows produce embedding pieces only. -/
theorem coverRows_embs (g : DGraph σ) (i : ℕ) (rows : List (Row σ)) (m m' : Marks σ) (rows' : List (Row σ)) (ps : List (Piece σ)) (h : coverRows g i rows m = .ok (m', rows', ps)) :
    ∀ pc ∈ ps, ∃ j e ports, pc = .emb j e ports := by
  have hE : ∀ (p : DGraph σ) i es m q, coverEmbs g p i es m = .ok q → ∀ pc ∈ q.2, ∃ j e ports, pc = Piece.emb j e ports := by
    intro p i es
    induction es with
    | nil => intro m q h; rw [← Except.ok.inj h]; simp
    | cons e t ih =>
      intro m q h
      rw [coverEmbs] at h
      cases h1 : embMarked g p m e with
      | error s => rw [h1] at h; cases h
      | ok b =>
        rw [h1] at h
        cases b with
        | true => exact ih m q h
        | false =>
          have h : (markEmb g p m e).bind _ = _ := h
          cases h2 : markEmb g p m e with
          | error s => rw [h2] at h; cases h
          | ok m1 =>
            rw [h2] at h
            have h : (coverEmbs g p i t m1).map _ = _ := h
            cases h3 : coverEmbs g p i t m1 with
            | error s => rw [h3] at h; cases h
            | ok q1 =>
              rw [h3] at h
              rw [← Except.ok.inj h]
              intro pc hpc
              rcases List.mem_cons.mp hpc with rfl | hpc
              · exact ⟨_, _, _, rfl⟩
              · exact ih m1 q1 h3 pc hpc
  have hV : ∀ (p : DGraph σ) i e L m q, coverVerts g p i e L m = .ok q → ∀ pc ∈ q.2, ∃ j e ports, pc = Piece.emb j e ports := by
    intro p i e L
    induction L with
    | nil => intro m q h; rw [← Except.ok.inj h]; simp
    | cons x t ih =>
      obtain ⟨v, a⟩ := x
      intro m q h
      rw [coverVerts] at h
      split at h
      · cases h
      · split at h
        · cases h
        · split at h
          · exact ih m q h
          · cases h3 : coverVerts g p i e t (markNode g m v (p.labels a)) with
            | error s => rw [h3] at h; cases h
            | ok q1 =>
              rw [h3] at h
              rw [← Except.ok.inj h]
              intro pc hpc
              rcases List.mem_cons.mp hpc with rfl | hpc
              · exact ⟨_, _, _, rfl⟩
              · exact ih _ q1 h3 pc hpc
  have hN : ∀ (p : DGraph σ) i es m q, coverNodes g p i es m = .ok q → ∀ pc ∈ q.2, ∃ j e ports, pc = Piece.emb j e ports := by
    intro p i es
    induction es with
    | nil => intro m q h; rw [← Except.ok.inj h]; simp
    | cons e t ih =>
      intro m q h
      rw [coverNodes] at h
      cases h1 : coverVerts g p i e e m with
      | error s => rw [h1] at h; cases h
      | ok q1 =>
        rw [h1] at h
        have h : (coverNodes g p i t q1.1).map _ = _ := h
        cases h3 : coverNodes g p i t q1.1 with
        | error s => rw [h3] at h; cases h
        | ok q2 =>
          rw [h3] at h
          rw [← Except.ok.inj h]
          intro pc hpc
          rcases List.mem_append.mp hpc with hpc | hpc
          · exact hV _ _ _ _ _ _ h1 pc hpc
          · exact ih _ q2 h3 pc hpc
  induction rows generalizing i m m' rows' ps with
  | nil =>
    have := Except.ok.inj h
    simp only [Prod.mk.injEq] at this
    rw [← this.2.2]; simp
  | cons r t ih =>
    rw [coverRows] at h
    cases h1 : rowCover g i r m with
    | error s => rw [h1] at h; cases h
    | ok q =>
      rw [h1] at h
      have h : (coverRows g (i + 1) t q.1).map _ = _ := h
      cases h2 : coverRows g (i + 1) t q.1 with
      | error s => rw [h2] at h; cases h
      | ok q2 =>
        rw [h2] at h
        have := Except.ok.inj h
        simp only [Prod.mk.injEq] at this
        rw [← this.2.2]
        intro pc hpc
        rcases List.mem_append.mp hpc with hpc | hpc
        · unfold rowCover at h1
          split at h1
          · exact hE _ _ _ _ _ h1 pc hpc
          · exact hN _ _ _ _ _ h1 pc hpc
        · exact ih _ _ _ _ _ h2 pc hpc

end Verif.Graph
