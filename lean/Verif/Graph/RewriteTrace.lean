import Verif.Graph.RewriteLemmas
import Verif.Graph.CoverProps
import Mathlib.Data.List.Perm.Subperm
import Mathlib.Data.List.Nodup

/-!
# The pieces of a cover, and reading the rewritten graph: lemmas
-/

set_option autoImplicit false
set_option linter.unusedSectionVars false

namespace Verif.Graph

variable {σ : Type} [DecidableEq σ]

/-! ## Where the pieces of a cover come from -/

theorem Bounded.mono {m m' : Marks σ} (h : Bounded m m') (x : ℕ × σ) (hx : m.nmark x = m.marker) : m'.nmark x = m.marker := by
  rcases h.nold x with e | e
  · rw [e, hx]
  · exact e

theorem coverEmbs_trace (g p : DGraph σ) (i : ℕ) (es : List Embedding) (m : Marks σ) (r : Marks σ × List (Piece σ)) (h : coverEmbs g p i es m = .ok r) :
    ∀ pc ∈ r.2, ∃ e ∈ es, ∃ mk : Marks σ, pc = .emb i e (searchPort g p mk e) ∧ mk.marker = m.marker ∧ Bounded mk r.1 := by
  induction es generalizing m r with
  | nil => rw [← Except.ok.inj h]; simp
  | cons e t ih =>
    obtain ⟨b, _, h2⟩ := bind_ok h
    cases b with
    | true =>
      intro pc hpc
      obtain ⟨e', he', hh⟩ := ih m r h2 pc hpc
      exact ⟨e', List.mem_cons_of_mem _ he', hh⟩
    | false =>
      obtain ⟨m1, h3, h4⟩ := bind_ok (show (markEmb g p m e).bind _ = _ from h2)
      obtain ⟨r1, h5, rfl⟩ := map_ok h4
      have hm1 := (bounded_markEdges _ _ _ _ _ _ h3).marker
      intro pc hpc
      rcases List.mem_cons.1 hpc with rfl | hpc
      · exact ⟨e, List.mem_cons_self .., m1, rfl, hm1, bounded_coverEmbs _ _ _ _ _ r1 h5⟩
      · obtain ⟨e', he', mk, h6, h7, h8⟩ := ih m1 r1 h5 pc hpc
        exact ⟨e', List.mem_cons_of_mem _ he', mk, h6, h7.trans hm1, h8⟩

theorem coverVerts_trace (g p : DGraph σ) (i : ℕ) (v a : ℕ) (m : Marks σ) (r : Marks σ × List (Piece σ)) (h : coverVerts g p i [(v, a)] [(v, a)] m = .ok r) :
    ∀ pc ∈ r.2, pc = .emb i [(v, a)] [(v, a)] ∧ ∃ l ∈ p.labels a, l ∈ g.labels v ∧ m.nmark (v, l) ≠ m.marker := by
  rw [coverVerts] at h
  split at h
  · cases h
  · split at h
    · cases h
    · rename_i _ hin
      split at h
      · rw [coverVerts] at h
        rw [← Except.ok.inj h]
        simp
      · rename_i hall
        obtain ⟨r1, h5, rfl⟩ := map_ok h
        rw [coverVerts] at h5
        rw [← Except.ok.inj h5]
        have hex : ∃ l ∈ p.labels a, l ∈ g.labels v ∧ m.nmark (v, l) ≠ m.marker := by
          rw [List.all_eq_true] at hall
          push Not at hall
          obtain ⟨l, hl, hm⟩ := hall
          rw [Bool.not_eq_true, List.any_eq_false] at hin
          have := hin l hl
          simp only [decide_eq_true_eq, Decidable.not_not] at this hm
          exact ⟨l, hl, this, by simpa using hm⟩
        intro pc hpc
        simp only [List.mem_singleton] at hpc
        subst hpc
        refine ⟨?_, hex⟩
        congr 1
        obtain ⟨l, _, hl, hm⟩ := hex
        have : allLabelsMarked g m v = false := by
          unfold allLabelsMarked
          rw [List.all_eq_false]
          exact ⟨l, hl, by simpa using hm⟩
        simp [searchPort, this]

theorem coverNodes_trace (g p : DGraph σ) (i : ℕ) (es : List Embedding) (hes : ∀ e ∈ es, ∃ x, e = [x]) (m : Marks σ) (r : Marks σ × List (Piece σ)) (h : coverNodes g p i es m = .ok r) :
    ∀ pc ∈ r.2, ∃ v a, [(v, a)] ∈ es ∧ pc = .emb i [(v, a)] [(v, a)] ∧ ∃ l ∈ p.labels a, l ∈ g.labels v ∧ m.nmark (v, l) ≠ m.marker := by
  induction es generalizing m r with
  | nil => rw [← Except.ok.inj h]; simp
  | cons e t ih =>
    obtain ⟨r1, h1, h2⟩ := bind_ok h
    obtain ⟨r2, h3, rfl⟩ := map_ok h2
    obtain ⟨⟨v, a⟩, rfl⟩ := hes e (List.mem_cons_self ..)
    have hb := bounded_coverVerts _ _ _ _ _ _ _ h1
    intro pc hpc
    rcases List.mem_append.1 hpc with hpc | hpc
    · obtain ⟨h4, h5⟩ := coverVerts_trace g p i v a m r1 h1 pc hpc
      exact ⟨v, a, List.mem_cons_self .., h4, h5⟩
    · obtain ⟨v', a', h4, h5, l, h6, h7, h8⟩ := ih (fun e he => hes e (List.mem_cons_of_mem _ he)) r1.1 r2 h3 pc hpc
      exact ⟨v', a', List.mem_cons_of_mem _ h4, h5, l, h6, h7, fun hc => h8 (by rw [hb.mono _ hc, hb.marker])⟩

theorem coverRows_append (g : DGraph σ) (A B : List (Row σ)) (i : ℕ) (m : Marks σ) (r : Marks σ × List (Row σ) × List (Piece σ)) (h : coverRows g i (A ++ B) m = .ok r) :
    ∃ r1 r2, coverRows g i A m = .ok r1 ∧ coverRows g (i + A.length) B r1.1 = .ok r2 ∧ r.1 = r2.1 ∧ r.2.2 = r1.2.2 ++ r2.2.2 := by
  induction A generalizing i m r with
  | nil => exact ⟨(m, [], []), r, rfl, h, rfl, rfl⟩
  | cons x t ih =>
    obtain ⟨y, h1, h2⟩ := bind_ok h
    obtain ⟨z, h3, rfl⟩ := map_ok h2
    obtain ⟨r1, r2, h4, h5, h6, h7⟩ := ih (i + 1) y.1 z h3
    refine ⟨(r1.1, { x with used := x.used ++ y.2.filterMap Piece.entry? } :: r1.2.1, y.2 ++ r1.2.2), r2, ?_, ?_, h6, ?_⟩
    · rw [coverRows, h1]
      show (coverRows g (i + 1) t y.1).map _ = _
      rw [h4]; rfl
    · rw [List.length_cons, show i + (t.length + 1) = i + 1 + t.length by omega]
      exact h5
    · simp only [h7, List.append_assoc]

theorem coverRows_traceA (g : DGraph σ) (L : List (Row σ)) (hL : ∀ r ∈ L, r.pattern.edges ≠ []) (i : ℕ) (m : Marks σ) (r : Marks σ × List (Row σ) × List (Piece σ)) (h : coverRows g i L m = .ok r) :
    ∀ pc ∈ r.2.2, ∃ (j : ℕ) (row : Row σ), L[j]? = some row ∧ ∃ e ∈ row.embeddings, ∃ mk : Marks σ, pc = .emb (i + j) e (searchPort g row.pattern mk e) ∧ mk.marker = m.marker ∧ Bounded mk r.1 := by
  induction L generalizing i m r with
  | nil => rw [← Except.ok.inj h]; simp
  | cons x t ih =>
    obtain ⟨y, h1, h2⟩ := bind_ok h
    obtain ⟨z, h3, rfl⟩ := map_ok h2
    unfold rowCover at h1
    rw [if_pos (hL x (List.mem_cons_self ..))] at h1
    have hb := bounded_coverEmbs _ _ _ _ _ _ h1
    have hb' := bounded_coverRows _ _ _ _ _ h3
    intro pc hpc
    rcases List.mem_append.1 hpc with hpc | hpc
    · obtain ⟨e, he, mk, h4, h5, h6⟩ := coverEmbs_trace _ _ _ _ _ _ h1 pc hpc
      exact ⟨0, x, rfl, e, he, mk, h4, h5, h6.trans hb'⟩
    · obtain ⟨j, row, h4, e, he, mk, h5, h6, h7⟩ := ih (fun r hr => hL r (List.mem_cons_of_mem _ hr)) (i + 1) y.1 z h3 pc hpc
      exact ⟨j + 1, row, h4, e, he, mk, by rw [h5]; congr 1; omega, h6.trans hb.marker, h7⟩

theorem coverRows_traceB (g : DGraph σ) (L : List (Row σ)) (hL : ∀ r ∈ L, r.pattern.edges = [] ∧ ∀ e ∈ r.embeddings, ∃ x, e = [x]) (i : ℕ) (m : Marks σ) (r : Marks σ × List (Row σ) × List (Piece σ))
    (h : coverRows g i L m = .ok r) :
    ∀ pc ∈ r.2.2, ∃ (j : ℕ) (row : Row σ), L[j]? = some row ∧ ∃ v a, [(v, a)] ∈ row.embeddings ∧ pc = .emb (i + j) [(v, a)] [(v, a)] ∧ ∃ l ∈ row.pattern.labels a, l ∈ g.labels v ∧ m.nmark (v, l) ≠ m.marker := by
  induction L generalizing i m r with
  | nil => rw [← Except.ok.inj h]; simp
  | cons x t ih =>
    obtain ⟨y, h1, h2⟩ := bind_ok h
    obtain ⟨z, h3, rfl⟩ := map_ok h2
    unfold rowCover at h1
    rw [if_neg (by simpa using (hL x (List.mem_cons_self ..)).1)] at h1
    have hb := bounded_coverNodes _ _ _ _ _ _ h1
    intro pc hpc
    rcases List.mem_append.1 hpc with hpc | hpc
    · obtain ⟨v, a, h4, h5, h6⟩ := coverNodes_trace _ _ _ _ (hL x (List.mem_cons_self ..)).2 _ _ h1 pc hpc
      exact ⟨0, x, rfl, v, a, h4, h5, h6⟩
    · obtain ⟨j, row, h4, v, a, h5, h6, l, h7, h8, h9⟩ := ih (fun r hr => hL r (List.mem_cons_of_mem _ hr)) (i + 1) y.1 z h3 pc hpc
      exact ⟨j + 1, row, h4, v, a, h5, by rw [h6]; congr 1; omega, l, h7, h8, fun hc => h9 (by rw [hb.mono _ hc, hb.marker])⟩

/-! ## Counting edges at a vertex -/

theorem inj_into_length {α β : Type} [DecidableEq β] (A : List α) (B : List β) (f : α → β) (hA : A.Nodup) (hf : ∀ x ∈ A, ∀ y ∈ A, f x = f y → x = y) (hB : ∀ x ∈ A, f x ∈ B) :
    A.length ≤ B.length ∧ (A.length = B.length → ∀ b ∈ B, ∃ a ∈ A, f a = b) := by
  have hn : (A.map f).Nodup := by
    rw [List.nodup_map_iff_inj_on hA]
    exact hf
  have hs : (A.map f).Subperm B := List.subperm_of_subset hn (by
    intro b hb
    obtain ⟨a, ha, rfl⟩ := List.mem_map.1 hb
    exact hB a ha)
  have hl := hs.length_le
  rw [List.length_map] at hl
  refine ⟨hl, fun he b hb => ?_⟩
  have hp : (A.map f).Perm B := hs.perm_of_length_le (by rw [List.length_map]; exact Nat.le_of_eq he.symm)
  obtain ⟨a, ha, e⟩ := List.mem_map.1 (hp.mem_iff.2 hb)
  exact ⟨a, ha, e⟩

/-- A vertex with as many edges as its pattern vertex has no other edges than those of the pattern. -/
theorem degree_all (g p : DGraph σ) (e : Embedding) (he : IsEmbedding g p e) (hp : p.edges.Nodup)
    (himg : ∀ a b l, (a, b, l) ∈ p.edges → ∀ u v, (u, a) ∈ e → (v, b) ∈ e → (u, v, l) ∈ g.edges) (v a : ℕ) (hva : (v, a) ∈ e) (hdeg : g.degree v = p.degree a) :
    (∀ w l, (v, w, l) ∈ g.edges → ∃ b, (a, b, l) ∈ p.edges ∧ (w, b) ∈ e) ∧ (∀ w l, (w, v, l) ∈ g.edges → ∃ b, (b, a, l) ∈ p.edges ∧ (w, b) ∈ e) := by
  have hkey : ∀ a b l, (a, b, l) ∈ p.edges → (keyOf e a, a) ∈ e ∧ (keyOf e b, b) ∈ e := fun a b l h =>
    ⟨keyOf_mem e he.values a (he.total a b l h).1, keyOf_mem e he.values b (he.total a b l h).2⟩
  have hinj : ∀ u b c, (u, b) ∈ e → (u, c) ∈ e → b = c := by
    intro u b c h1 h2
    have := List.inj_on_of_nodup_map he.keys h1 h2 rfl
    exact (Prod.mk.inj this).2
  obtain ⟨A, hA⟩ : ∃ A, A = p.edges.filter (fun x => decide (x.1 = a)) := ⟨_, rfl⟩
  obtain ⟨A', hA'⟩ : ∃ A, A = p.edges.filter (fun x => decide (x.2.1 = a)) := ⟨_, rfl⟩
  have h1 := inj_into_length A (g.edges.filter (fun x => decide (x.1 = v))) (fun x => (v, keyOf e x.2.1, x.2.2)) (hA ▸ hp.filter _) (by
    rintro ⟨a1, b1, l1⟩ hx ⟨a2, b2, l2⟩ hy hxy
    rw [hA, List.mem_filter, decide_eq_true_eq] at hx hy
    simp only [Prod.mk.injEq, true_and] at hxy hx hy ⊢
    refine ⟨hx.2.trans hy.2.symm, ?_, hxy.2⟩
    have k1 := (hkey _ _ _ hx.1).2
    have k2 := (hkey _ _ _ hy.1).2
    rw [← hxy.1] at k2
    exact hinj _ _ _ k1 k2) (by
    rintro ⟨a1, b1, l1⟩ hx
    rw [hA, List.mem_filter, decide_eq_true_eq] at hx
    rw [List.mem_filter, decide_eq_true_eq]
    obtain ⟨hx1, hx2⟩ := hx
    simp only at hx1 hx2
    subst hx2
    exact ⟨himg _ _ _ hx1 _ _ hva (hkey _ _ _ hx1).2, rfl⟩)
  have h2 := inj_into_length A' (g.edges.filter (fun x => decide (x.2.1 = v))) (fun x => (keyOf e x.1, v, x.2.2)) (hA' ▸ hp.filter _) (by
    rintro ⟨a1, b1, l1⟩ hx ⟨a2, b2, l2⟩ hy hxy
    rw [hA', List.mem_filter, decide_eq_true_eq] at hx hy
    simp only [Prod.mk.injEq, true_and] at hxy hx hy ⊢
    refine ⟨?_, hx.2.trans hy.2.symm, hxy.2⟩
    have k1 := (hkey _ _ _ hx.1).1
    have k2 := (hkey _ _ _ hy.1).1
    rw [← hxy.1] at k2
    exact hinj _ _ _ k1 k2) (by
    rintro ⟨a1, b1, l1⟩ hx
    rw [hA', List.mem_filter, decide_eq_true_eq] at hx
    rw [List.mem_filter, decide_eq_true_eq]
    obtain ⟨hx1, hx2⟩ := hx
    simp only at hx1 hx2
    subst hx2
    exact ⟨himg _ _ _ hx1 _ _ (hkey _ _ _ hx1).1 hva, rfl⟩)
  unfold DGraph.degree at hdeg
  rw [← hA, ← hA'] at hdeg
  constructor
  · intro w l hw
    obtain ⟨⟨a1, b1, l1⟩, hx, hxe⟩ := h1.2 (by omega) (v, w, l) (by rw [List.mem_filter]; exact ⟨hw, by simp⟩)
    rw [hA, List.mem_filter, decide_eq_true_eq] at hx
    obtain ⟨hx1, hx2⟩ := hx
    simp only at hx1 hx2
    subst hx2
    simp only [Prod.mk.injEq, true_and] at hxe
    obtain ⟨rfl, rfl⟩ := hxe
    exact ⟨b1, hx1, (hkey _ _ _ hx1).2⟩
  · intro w l hw
    obtain ⟨⟨a1, b1, l1⟩, hx, hxe⟩ := h2.2 (by omega) (w, v, l) (by rw [List.mem_filter]; exact ⟨hw, by simp⟩)
    rw [hA', List.mem_filter, decide_eq_true_eq] at hx
    obtain ⟨hx1, hx2⟩ := hx
    simp only at hx1 hx2
    subst hx2
    simp only [Prod.mk.injEq, true_and] at hxe
    obtain ⟨rfl, rfl⟩ := hxe
    exact ⟨a1, hx1, (hkey _ _ _ hx1).1⟩

end Verif.Graph
