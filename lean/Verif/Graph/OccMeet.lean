import Verif.Graph.OccPieces

/-!
# The patterns tested by GraphMDL: two pieces that meet
-/

set_option autoImplicit false
set_option linter.unusedSectionVars false

namespace Verif.Graph

variable {σ : Type} [DecidableEq σ]

theorem PieceFor.key {d : LGraph σ} {rows : List (Row σ)} {pc : Piece σ} {p : LGraph σ} (h : PieceFor d rows pc p) (v a : ℕ) (hva : (v, a) ∈ pc.verts) : keyOf pc.verts a = v ∧ a ∈ p.verts := by
  have ha : a ∈ pc.verts.map Prod.snd := List.mem_map.2 ⟨_, hva, rfl⟩
  have := keyOf_mem pc.verts h.values a ha
  exact ⟨(Prod.mk.inj (List.inj_on_of_nodup_map h.values this hva rfl)).1, (h.verts a).1 ha⟩

theorem PieceFor.mem {d : LGraph σ} {rows : List (Row σ)} {pc : Piece σ} {p : LGraph σ} (h : PieceFor d rows pc p) (a : ℕ) (ha : a ∈ p.verts) : (keyOf pc.verts a, a) ∈ pc.verts :=
  keyOf_mem pc.verts h.values a ((h.verts a).2 ha)

/-- Every edge of the data is described by one piece. -/
def Once (rows : List (Row σ)) (L : List (ℕ × Piece σ)) : Prop := ∀ x y pc qc z, (x, pc) ∈ L → (y, qc) ∈ L → x ≠ y → pc.coversEdge rows z = true → qc.coversEdge rows z = true → False

theorem once_of {g : DGraph σ} (hg : g.edges.Nodup) {rows : List (Row σ)} {L : List (ℕ × Piece σ)} (h : ∀ x, (L.map Prod.snd).countP (fun pc => pc.coversEdge rows x) = g.edges.count x) : Once rows L := by
  intro x y pc qc z hx hy hne h1 h2
  have h3 := two_countP L (fun pc => pc.coversEdge rows z) x y pc qc hx hy hne h1 h2
  rw [h z] at h3
  have := (List.nodup_iff_count_le_one.1 hg) z
  omega

/-- A vertex of two pieces with edges is a port of both. -/
theorem shared_kept {d : LGraph σ} {rows : List (Row σ)} {L : List (ℕ × Piece σ)} (hL : Once rows L) {x y : ℕ} {pc qc : Piece σ} {p q : LGraph σ} (hx : (x, pc) ∈ L) (hy : (y, qc) ∈ L) (hne : x ≠ y)
    (hp : PieceFor d rows pc p) (hq : PieceFor d rows qc q) (he : p.edges ≠ []) (hf : q.edges ≠ []) (v a b : ℕ) (ha : (v, a) ∈ pc.verts) (hb : (v, b) ∈ qc.verts) : (v, a) ∈ pc.kept := by
  by_contra hno
  obtain ⟨hout, hin⟩ := hp.port he v a ha hno
  obtain ⟨hkey, hbv⟩ := hq.key v b hb
  obtain ⟨⟨s, t, k⟩, h1, h2⟩ := hq.linked.touched hf b hbv
  obtain ⟨l, hk⟩ := hq.linked.str _ h1
  simp only at hk h2
  subst hk
  have hpat := made_patterns false q hq.made
  obtain ⟨h3, h4, -⟩ := hpat.ends _ h1
  have h5 := hq.covers s t l h1 _ _ (hq.mem s h3) (hq.mem t h4)
  have h6 := hq.occ.edges _ h1
  simp only at h6
  rcases h2 with rfl | rfl
  · rw [hkey] at h5 h6
    exact hL _ _ _ _ _ hx hy hne (hout _ _ h6) h5
  · rw [hkey] at h5 h6
    exact hL _ _ _ _ _ hx hy hne (hin _ _ h6) h5

/-- Two pieces that meet share exactly the vertices that are ports of both. -/
theorem meet_exact {d : LGraph σ} {rows : List (Row σ)} {L : List (ℕ × Piece σ)} (hL : Once rows L) {x y : ℕ} {pc qc : Piece σ} {p q : LGraph σ} (hx : (x, pc) ∈ L) (hy : (y, qc) ∈ L) (hne : x ≠ y)
    (hp : PieceFor d rows pc p) (hq : PieceFor d rows qc q) (v0 a0 b0 : ℕ) (ha0 : (v0, a0) ∈ pc.kept) (hb0 : (v0, b0) ∈ qc.kept) (a b : ℕ) (ha : a ∈ p.verts) (hb : b ∈ q.verts) :
    keyOf pc.verts a = keyOf qc.verts b ↔ ∃ v, (v, a) ∈ pc.kept ∧ (v, b) ∈ qc.kept := by
  constructor
  · intro hv
    have h1 := hp.mem a ha
    have h2 := hq.mem b hb
    rw [← hv] at h2
    obtain ⟨v, hve⟩ : ∃ v, v = keyOf pc.verts a := ⟨_, rfl⟩
    rw [← hve] at h1 h2
    refine ⟨v, ?_⟩
    by_cases he : p.edges = []
    · have hvp := bare_verts hp.linked he
      obtain ⟨h3, h4⟩ := hp.key v0 a0 (hp.kept _ ha0)
      rw [hvp, List.mem_singleton] at ha h4
      subst ha
      subst h4
      have : v0 = v := by rw [← h3, hve]
      subst this
      have := (Prod.mk.inj (List.inj_on_of_nodup_map hq.keys (hq.kept _ hb0) h2 rfl)).2
      subst this
      exact ⟨ha0, hb0⟩
    · by_cases hf : q.edges = []
      · have hvq := bare_verts hq.linked hf
        obtain ⟨h3, h4⟩ := hq.key v0 b0 (hq.kept _ hb0)
        rw [hvq, List.mem_singleton] at hb h4
        subst hb
        subst h4
        have : v0 = v := by rw [← h3, hve, hv]
        subst this
        have := (Prod.mk.inj (List.inj_on_of_nodup_map hp.keys (hp.kept _ ha0) h1 rfl)).2
        subst this
        exact ⟨ha0, hb0⟩
      · exact ⟨shared_kept hL hx hy hne hp hq he hf v a b h1 h2, shared_kept hL hy hx (Ne.symm hne) hq hp hf he v b a h2 h1⟩
  · rintro ⟨v, h1, h2⟩
    rw [(hp.key v a (hp.kept _ h1)).1, (hq.key v b (hq.kept _ h2)).1]

/-- Where two nodes of the rewritten graph meet. -/
theorem meet_iff {nm : Names σ} (hnm : nm.Ok) {rg : RGraph σ} {L : List (ℕ × Piece σ)} (hR : Rep nm rg (entries nm L)) (hport : ∀ (v i : ℕ) (n : RNode σ), rg.nodes[i]? = some n → n.label = nm.vertex v → n.isPattern = false)
    {x y : ℕ} {pc qc : Piece σ} (hx : (x, pc) ∈ L) (hy : (y, qc) ∈ L) (a b : ℕ) : (∃ p, rg.Meet x y p a b) ↔ ∃ v, (v, a) ∈ pc.kept ∧ (v, b) ∈ qc.kept := by
  have hnd := entries_nodup hR
  constructor
  · rintro ⟨p, -, h1, h2⟩
    obtain ⟨t, ht, e, v, h3, h4, h5⟩ := (hR.edges _ _ _).1 h1
    obtain ⟨⟨x', pc'⟩, h6, rfl⟩ := List.mem_map.1 ht
    simp only at e h3
    subst e
    obtain rfl := mem_unique hnd h6 hx
    obtain ⟨t, ht, e, w, k3, k4, k5⟩ := (hR.edges _ _ _).1 h2
    obtain ⟨⟨y', qc'⟩, k6, rfl⟩ := List.mem_map.1 ht
    simp only at e k3
    subst e
    obtain rfl := mem_unique hnd k6 hy
    obtain rfl := port_inj hnm _ _ _ _ h5 k5
    exact ⟨v, h3, k3⟩
  · rintro ⟨v, h1, h2⟩
    obtain ⟨i, hi⟩ := hR.has _ (List.mem_map.2 ⟨_, hx, rfl⟩) _ h1
    simp only at hi
    obtain ⟨hlt, hl, -⟩ := List.findIdx?_eq_some_iff_getElem.1 hi
    have hl := of_decide_eq_true hl
    refine ⟨i + 1, ⟨rg.nodes[i], by omega, by simp [hlt], hport v i _ (by simp [hlt]) hl⟩, ?_, ?_⟩
    · exact (hR.edges _ _ _).2 ⟨_, List.mem_map.2 ⟨_, hx, rfl⟩, rfl, v, h1, by omega, by simpa using hi⟩
    · exact (hR.edges _ _ _).2 ⟨_, List.mem_map.2 ⟨_, hy, rfl⟩, rfl, v, h2, by omega, by simpa using hi⟩

end Verif.Graph
