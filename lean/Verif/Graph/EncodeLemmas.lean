import Verif.Graph.EncodeSpec
import Verif.Graph.EncodeSum
import Verif.Graph.CodeProps

/-!
# Description of patterns: lemmas
-/

set_option autoImplicit false
set_option linter.unusedSectionVars false

namespace Verif.Graph

variable {σ : Type} [DecidableEq σ]

/-! ## Counts and label codes -/

theorem countVertex_eq (g : LGraph σ) (hg : g.Hashable) : ∃ ks : List σ, ks.Nodup ∧ (∀ s, s ∈ ks ↔ s ∈ g.vertexNames) ∧ countVertex g = .ok (ks.map (fun k => (k, g.vertexNames.count k))) := by
  have h := counter_names (g.nodes.map Prod.snd) (by intro l hl; obtain ⟨n, hn, rfl⟩ := List.mem_map.mp hl; exact hg.1 n hn) []
  obtain ⟨ks, h1, h2, h3⟩ := foldl_bump_eq g.vertexNames
  refine ⟨ks, h1, h2, ?_⟩
  rw [vertexNames_eq, h3] at h
  exact h

theorem countEdge_eq (g : LGraph σ) (hg : g.Hashable) : ∃ ks : List σ, ks.Nodup ∧ (∀ s, s ∈ ks ↔ s ∈ g.edgeNames) ∧ countEdge g = .ok (ks.map (fun k => (k, g.edgeNames.count k))) := by
  have h := counter_names (g.edges.map (fun e => e.2.2)) (by intro l hl; obtain ⟨n, hn, rfl⟩ := List.mem_map.mp hl; exact hg.2 n hn) []
  obtain ⟨ks, h1, h2, h3⟩ := foldl_bump_eq g.edgeNames
  refine ⟨ks, h1, h2, ?_⟩
  rw [edgeNames_eq, h3] at h
  exact h

theorem total_pos {g : LGraph σ} {l : σ} (h : l ∈ g.vertexNames ∨ l ∈ g.edgeNames) : 0 < g.total := by
  unfold LGraph.total
  by_cases hv : l ∈ g.vertexNames
  · have := List.length_pos_of_mem hv; omega
  · have : l ∈ g.edgeNames.filter (fun s => decide (s ∉ g.vertexNames)) := List.mem_filter.mpr ⟨h.resolve_left hv, decide_eq_true hv⟩
    have := List.length_pos_of_mem this; omega

/-- The code length of a label that occurs `k` times. -/
noncomputable def labelLen (M k : ℕ) : ℝ := Real.logb 2 M - Real.logb 2 k

theorem codesOf_ok (M : ℕ) (ks names : List σ) (hk : ∀ s ∈ ks, s ∈ names) (hM : ∀ s ∈ ks, 0 < M) :
    codesOf M (ks.map (fun k => (k, names.count k))) = .ok (ks.map (fun k => (k, labelLen M (names.count k)))) := by
  unfold codesOf
  rw [mapM_ok _ (fun x : σ × ℕ => (x.1, labelLen M x.2)) _ ?_, List.map_map]
  · rfl
  · intro x hx
    obtain ⟨k, hk', rfl⟩ := List.mem_map.mp hx
    have h1 : 0 < names.count k := List.count_pos_iff.mpr (hk k hk')
    have h2 := hM k hk'
    simp only
    rw [log2_ok (by exact_mod_cast h1) (by exact_mod_cast h2)]
    rfl

theorem labelCodes_ok (g : LGraph σ) (hg : g.Hashable) : ∃ vs es : List σ, vs.Nodup ∧ (∀ s, s ∈ vs ↔ s ∈ g.vertexNames) ∧ es.Nodup ∧ (∀ s, s ∈ es ↔ s ∈ g.edgeNames) ∧
    labelCodes g = .ok ⟨vs.map (fun l => (l, labelLen g.total (g.vertexNames.count l))), es.map (fun l => (l, labelLen g.total (g.edgeNames.count l)))⟩ := by
  obtain ⟨vs, v1, v2, v3⟩ := countVertex_eq g hg
  obtain ⟨es, e1, e2, e3⟩ := countEdge_eq g hg
  refine ⟨vs, es, v1, v2, e1, e2, ?_⟩
  have hT : totalLabel g = .ok g.total := total_label_exact g hg
  unfold labelCodes
  rw [hT, v3, e3]
  simp only [Except.bind]
  rw [codesOf_ok g.total vs _ (fun s hs => (v2 s).mp hs) (fun s hs => total_pos (.inl ((v2 s).mp hs))), codesOf_ok g.total es _ (fun s hs => (e2 s).mp hs) (fun s hs => total_pos (.inr ((e2 s).mp hs)))]
  rfl

theorem lookup_map {β : Type} (ks : List σ) (f : σ → β) (l : σ) (h : l ∈ ks) : (ks.map (fun k => (k, f k))).lookup l = some (f l) := by
  induction ks with
  | nil => simp at h
  | cons a t ih =>
    rw [List.map_cons, List.lookup_cons]
    by_cases e : l = a
    · subst e; simp
    · rw [beq_false_of_ne e]
      exact ih ((List.mem_cons.mp h).resolve_left e)

theorem logBinomial_ok (n k : ℕ) (h : k ≤ n) : logBinomial n k = .ok (Real.logb 2 (n.choose k)) := by
  unfold logBinomial
  rw [binomial_exact n k h]
  have : ¬ ((n.choose k : ℚ) ≤ 0) := by rw [not_le]; exact_mod_cast Nat.choose_pos h
  simp only [Except.bind]
  rw [if_neg this]
  simp

theorem describeLabels_ok (u : ℕ → ℕ) (hu : ∀ x : ℕ, universalInt0 x = .ok (u x)) (ks : List σ) (c : σ → ℝ) (N : ℕ) (k : σ → ℕ) (ls : List σ) (hl : ∀ l ∈ ls, l ∈ ks) (hk : ∀ l ∈ ls, k l ≤ N) :
    describeLabels (ks.map (fun l => (l, c l))) N (ls.map (fun l => (l, k l))) = .ok ((ls.map (fun l => c l + u (k l) + Real.logb 2 (N.choose (k l)))).sum) := by
  induction ls with
  | nil => rfl
  | cons a t ih =>
    rw [List.map_cons, describeLabels, lookup_map ks c a (hl a (List.mem_cons_self ..))]
    simp only
    rw [hu, logBinomial_ok N (k a) (hk a (List.mem_cons_self ..)), ih (fun l h => hl l (List.mem_cons_of_mem _ h)) (fun l h => hk l (List.mem_cons_of_mem _ h))]
    rfl

/-! ## Places of the labels -/

theorem mem_vset (p : LGraph σ) (l : σ) (v : ℕ) : v ∈ vset p l ↔ p.HasV v l := by
  unfold vset LGraph.HasV
  rw [List.mem_toFinset, List.mem_map]
  simp only [List.mem_filter, decide_eq_true_eq]
  exact ⟨fun ⟨n, h1, h2⟩ => ⟨n, h1.1, h2, h1.2⟩, fun ⟨n, h1, h2, h3⟩ => ⟨n, ⟨h1, h3⟩, h2⟩⟩

theorem mem_eset (p : LGraph σ) (l : σ) (x : ℕ × ℕ) : x ∈ eset p l ↔ p.HasE x.1 x.2 l := by
  unfold eset LGraph.HasE
  rw [List.mem_toFinset, List.mem_map]
  simp only [List.mem_filter, decide_eq_true_eq]
  exact ⟨fun ⟨n, h1, h2⟩ => ⟨n, h1.1, by rw [← h2], by rw [← h2], h1.2⟩, fun ⟨n, h1, h2, h3, h4⟩ => ⟨n, ⟨h1, h4⟩, Prod.ext h2 h3⟩⟩

theorem count_flat {α : Type} (L : List α) (f : α → List σ) (hf : ∀ x ∈ L, (f x).Nodup) (l : σ) : (L.flatMap f).count l = (L.filter (fun x => decide (l ∈ f x))).length := by
  induction L with
  | nil => rfl
  | cons a t ih =>
    rw [List.flatMap_cons, List.count_append, ih (fun x hx => hf x (List.mem_cons_of_mem _ hx)), List.filter_cons]
    by_cases h : l ∈ f a
    · rw [if_pos (decide_eq_true h), List.length_cons, List.count_eq_one_of_mem (hf a (List.mem_cons_self ..)) h]; omega
    · rw [if_neg (by simpa using h), List.count_eq_zero_of_not_mem h]; omega

theorem card_vset {p : LGraph σ} (hp : Tidy p) (l : σ) : (vset p l).card = p.vertexNames.count l := by
  unfold vset LGraph.vertexNames
  rw [count_flat p.nodes _ hp.vonce l, List.toFinset_card_of_nodup, List.length_map]
  have h : p.verts.Nodup := by rw [hp.verts]; exact List.nodup_range'
  exact h.sublist (List.filter_sublist.map _)

theorem card_eset {p : LGraph σ} (hp : Tidy p) (l : σ) : (eset p l).card = p.edgeNames.count l := by
  obtain ⟨h1, h2⟩ := List.nodup_flatMap.mp hp.eonce
  unfold eset LGraph.edgeNames
  rw [count_flat p.edges _ (fun e he => (h1 e he).of_map) l, List.toFinset_card_of_nodup, List.length_map]
  rw [List.Nodup, List.pairwise_map]
  have h3 : (p.edges.filter (fun e => decide (l ∈ e.2.2.names))).Pairwise (fun e e' => (fun e : ℕ × ℕ × Label σ => e.2.2.names.map (fun l => (e.1, e.2.1, l))) e |>.Disjoint ((fun e : ℕ × ℕ × Label σ => e.2.2.names.map (fun l => (e.1, e.2.1, l))) e')) :=
    h2.sublist List.filter_sublist
  refine h3.imp_of_mem (fun {e e'} he he' hd heq => ?_)
  rw [List.mem_filter, decide_eq_true_eq] at he he'
  have e1 : e.1 = e'.1 := (Prod.mk.inj heq).1
  have e2 : e.2.1 = e'.2.1 := (Prod.mk.inj heq).2
  exact hd (a := (e.1, e.2.1, l)) (List.mem_map.mpr ⟨l, he.2, rfl⟩) (List.mem_map.mpr ⟨l, he'.2, by rw [e1, e2]⟩)

theorem tidy_mem {p : LGraph σ} (hp : Tidy p) (v : ℕ) : v ∈ p.verts ↔ v ∈ Finset.Icc 1 p.nodes.length := by
  rw [hp.verts, List.mem_range'_1, Finset.mem_Icc]; omega

theorem vset_sub {p : LGraph σ} (hp : Tidy p) (l : σ) : vset p l ⊆ Finset.Icc 1 p.nodes.length := by
  intro v hv
  obtain ⟨n, h1, rfl, -⟩ := (mem_vset p l v).mp hv
  exact (tidy_mem hp _).mp (List.mem_map.mpr ⟨n, h1, rfl⟩)

theorem eset_sub {p : LGraph σ} (hp : Tidy p) (l : σ) : eset p l ⊆ Finset.Icc 1 p.nodes.length ×ˢ Finset.Icc 1 p.nodes.length := by
  intro x hx
  obtain ⟨e, h1, h2, h3, -⟩ := (mem_eset p l x).mp hx
  have := hp.ends e h1
  rw [Finset.mem_product, ← tidy_mem hp, ← tidy_mem hp, ← h2, ← h3]
  exact this

theorem count_vertex_le {p : LGraph σ} (hp : Tidy p) (l : σ) : p.vertexNames.count l ≤ p.nodes.length := by
  rw [← card_vset hp]
  exact le_trans (Finset.card_le_card (vset_sub hp l)) (by simp)

theorem count_edge_le {p : LGraph σ} (hp : Tidy p) (l : σ) : p.edgeNames.count l ≤ p.nodes.length ^ 2 := by
  rw [← card_eset hp]
  exact le_trans (Finset.card_le_card (eset_sub hp l)) (by rw [Finset.card_product, sq]; simp)

/-! ## The value of `encode` -/

theorem encode_ok (u : ℕ → ℕ) (hu : ∀ x : ℕ, universalInt0 x = .ok (u x)) (g : LGraph σ) (hg : g.Hashable) (t : LabelTable σ) (ht : labelCodes g = .ok t) (hT : t.vertex.length + t.edge.length ≠ 0)
    (p : LGraph σ) (hh : p.Hashable) (hd : FromData g p) (hv : ∀ l, p.vertexNames.count l ≤ p.nodes.length) (he : ∀ l, p.edgeNames.count l ≤ p.nodes.length ^ 2) :
    encode t p = .ok (∑ l ∈ p.vertexNames.toFinset, (labelLen g.total (g.vertexNames.count l) + u (p.vertexNames.count l) + Real.logb 2 (p.nodes.length.choose (p.vertexNames.count l)))
      + ∑ l ∈ p.edgeNames.toFinset, (labelLen g.total (g.edgeNames.count l) + u (p.edgeNames.count l) + Real.logb 2 ((p.nodes.length ^ 2).choose (p.edgeNames.count l)))
      + Real.logb 2 (t.vertex.length + t.edge.length) + u p.nodes.length) := by
  obtain ⟨vs, es, v1, v2, e1, e2, h⟩ := labelCodes_ok g hg
  rw [ht] at h
  obtain rfl := Except.ok.inj h
  obtain ⟨pv, pv1, pv2, pv3⟩ := countVertex_eq p hh
  obtain ⟨pe, pe1, pe2, pe3⟩ := countEdge_eq p hh
  unfold encode
  rw [pv3, pe3]
  simp only [Except.bind]
  rw [if_neg hT, hu, describeLabels_ok u hu vs _ _ _ pv (fun l hl => (v2 l).mpr (hd.1 l ((pv2 l).mp hl))) (fun l _ => hv l),
    describeLabels_ok u hu es _ _ _ pe (fun l hl => (e2 l).mpr (hd.2 l ((pe2 l).mp hl))) (fun l _ => he l)]
  have f1 : p.vertexNames.toFinset = pv.toFinset := by ext l; rw [List.mem_toFinset, List.mem_toFinset, pv2]
  have f2 : p.edgeNames.toFinset = pe.toFinset := by ext l; rw [List.mem_toFinset, List.mem_toFinset, pe2]
  rw [f1, f2, List.sum_toFinset _ pv1, List.sum_toFinset _ pe1]
  rfl

end Verif.Graph
