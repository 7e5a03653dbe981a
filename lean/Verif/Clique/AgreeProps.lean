import Verif.Clique.Props
import Mathlib.Data.Finset.Max
import Mathlib.Data.List.Perm.Lattice
import Mathlib.Data.Finset.Powerset

/-!
# The two clique enumerations against each other (C179)
-/

set_option autoImplicit false
set_option linter.unusedSectionVars false

namespace Verif.Clique

variable {V : Type*} [DecidableEq V]

/-- Each clique of a finite graph is included in a maximal one. -/
theorem exists_maxClique (vs : Finset V) (adj : V → V → Prop) (C : Finset V) (h : IsClique vs adj C) :
    ∃ M, MaxClique vs adj M ∧ C ⊆ M := by
  classical
  obtain ⟨M, hM, hmax⟩ := (vs.powerset.filter (fun X => IsClique vs adj X ∧ C ⊆ X)).exists_max_image Finset.card
    ⟨C, by simp only [Finset.mem_filter, Finset.mem_powerset]; exact ⟨h.1, h, subset_rfl⟩⟩
  simp only [Finset.mem_filter, Finset.mem_powerset] at hM hmax
  refine ⟨M, ⟨hM.2.1, fun C' hC' hs => ?_⟩, hM.2.2⟩
  exact (Finset.eq_of_subset_of_card_le hs (hmax C' ⟨hC'.1, hC', hM.2.2.trans hs⟩)).symm

/-- C179, agreement: on one graph, `bron_kerbosch` and `bronKerbosch3Plus` find the same cliques, up to their order. -/
theorem enumerations_agree (G : List (V × List V)) (hG : (G.map Prod.fst).Nodup) (graph : V → Finset V)
    (hgr : ∀ u v, v ∈ graph u ↔ ∃ l, (u, l) ∈ G ∧ v ∈ l)
    (hs : Simple (G.map Prod.fst).toFinset (fun u v => ∃ l, (u, l) ∈ G ∧ v ∈ l))
    (enum : List V → Finset V → List V) (he : EnumOk enum) (n m : ℕ) (hn : G.length < n) (hm : G.length < m) :
    ∃ out collect, bronKerbosch n G [] [] = some out ∧
      bronKerbosch3Plus graph enum m [] (G.map Prod.fst).toFinset ∅ ∅ = some collect ∧ (out.map List.toFinset).Perm collect := by
  have hadj : (fun u v => v ∈ graph u) = (fun u v => ∃ l, (u, l) ∈ G ∧ v ∈ l) := by
    funext u v; exact propext (hgr u v)
  have hc : (G.map Prod.fst).toFinset.card < m := by
    rw [List.toFinset_card_of_nodup hG, List.length_map]; exact hm
  obtain ⟨out, h1, _, h2, h3⟩ := bronKerbosch_correct G hG hs n hn
  obtain ⟨collect, k1, k2, k3⟩ := bronKerbosch3Plus_correct _ graph (by rw [hadj]; exact hs) enum he m hc
  refine ⟨out, collect, h1, k1, (List.perm_ext_iff_of_nodup h2 k2).2 (fun C => ?_)⟩
  rw [h3, k3, hadj]
  rfl

/-- C179, order: the order of the vertices and of their neighbours in the `dict` decides on nothing but the order of the cliques. -/
theorem bronKerbosch_order (G H : List (V × List V)) (hG : (G.map Prod.fst).Nodup) (hH : (H.map Prod.fst).Nodup)
    (hv : ∀ u, u ∈ G.map Prod.fst ↔ u ∈ H.map Prod.fst)
    (ha : ∀ u v, (∃ l, (u, l) ∈ G ∧ v ∈ l) ↔ ∃ l, (u, l) ∈ H ∧ v ∈ l)
    (hs : Simple (G.map Prod.fst).toFinset (fun u v => ∃ l, (u, l) ∈ G ∧ v ∈ l)) (n : ℕ) (hn : G.length < n) (hm : H.length < n) :
    ∃ out out', bronKerbosch n G [] [] = some out ∧ bronKerbosch n H [] [] = some out' ∧
      (out.map List.toFinset).Perm (out'.map List.toFinset) := by
  have hadj : (fun u v => ∃ l, (u, l) ∈ G ∧ v ∈ l) = (fun u v => ∃ l, (u, l) ∈ H ∧ v ∈ l) := by
    funext u v; exact propext (ha u v)
  have hvs : (G.map Prod.fst).toFinset = (H.map Prod.fst).toFinset := by
    ext u; rw [List.mem_toFinset, List.mem_toFinset]; exact hv u
  obtain ⟨out, h1, _, h2, h3⟩ := bronKerbosch_correct G hG hs n hn
  obtain ⟨out', k1, _, k2, k3⟩ := bronKerbosch_correct H hH (by rw [← hadj, ← hvs]; exact hs) n hm
  refine ⟨out, out', h1, k1, (List.perm_ext_iff_of_nodup h2 k2).2 (fun C => ?_)⟩
  rw [h3, k3, hadj, hvs]

/-- C179, cover: three or more vertices that are pairwise adjacent are together in some yielded clique, and only such sets are; so there is
nothing in the result exactly if the graph has no triangle. -/
theorem bronKerbosch_cover (G : List (V × List V)) (hG : (G.map Prod.fst).Nodup)
    (hs : Simple (G.map Prod.fst).toFinset (fun u v => ∃ l, (u, l) ∈ G ∧ v ∈ l)) (n : ℕ) (hn : G.length < n) :
    ∃ out, bronKerbosch n G [] [] = some out ∧
      (∀ T : Finset V, 3 ≤ T.card → ((∃ l ∈ out, ∀ v ∈ T, v ∈ l) ↔
        (∀ v ∈ T, v ∈ G.map Prod.fst) ∧ ∀ u ∈ T, ∀ v ∈ T, u ≠ v → ∃ l, (u, l) ∈ G ∧ v ∈ l)) ∧
      (out = [] ↔ ∀ T : Finset V, T.card = 3 → (∀ v ∈ T, v ∈ G.map Prod.fst) →
        ∃ u ∈ T, ∃ v ∈ T, u ≠ v ∧ ∀ l, (u, l) ∈ G → v ∉ l) := by
  obtain ⟨out, h1, _, _, h3⟩ := bronKerbosch_correct G hG hs n hn
  have key : ∀ T : Finset V, 3 ≤ T.card → ((∃ l ∈ out, ∀ v ∈ T, v ∈ l) ↔
        (∀ v ∈ T, v ∈ G.map Prod.fst) ∧ ∀ u ∈ T, ∀ v ∈ T, u ≠ v → ∃ l, (u, l) ∈ G ∧ v ∈ l) := by
    intro T hT
    constructor
    · rintro ⟨l, hl, hsub⟩
      have hc := ((h3 l.toFinset).1 (List.mem_map_of_mem hl)).1.1
      exact ⟨fun v hv => List.mem_toFinset.1 (hc.1 (List.mem_toFinset.2 (hsub v hv))),
        fun u hu v hv hne => hc.2 u (List.mem_toFinset.2 (hsub u hu)) v (List.mem_toFinset.2 (hsub v hv)) hne⟩
    · rintro ⟨hv, hadj⟩
      obtain ⟨M, hM, hsub⟩ := exists_maxClique (G.map Prod.fst).toFinset (fun u v => ∃ l, (u, l) ∈ G ∧ v ∈ l) T
        ⟨fun v h => List.mem_toFinset.2 (hv v h), hadj⟩
      obtain ⟨l, hl, he⟩ := List.mem_map.1 ((h3 M).2 ⟨hM, hT.trans (Finset.card_le_card hsub)⟩)
      exact ⟨l, hl, fun v h => List.mem_toFinset.1 (by rw [he]; exact hsub h)⟩
  refine ⟨out, h1, key, ?_, ?_⟩
  · intro ho T hT hv
    by_contra hcon
    push Not at hcon
    obtain ⟨l, hl, _⟩ := (key T hT.ge).2 ⟨hv, fun u hu v hv' hne => hcon u hu v hv' hne⟩
    rw [ho] at hl
    simp at hl
  · intro h
    rcases out with _ | ⟨l, out⟩
    · rfl
    exfalso
    have hl := (h3 l.toFinset).1 (by simp)
    obtain ⟨T, hT, hc⟩ := Finset.exists_subset_card_eq hl.2
    obtain ⟨u, hu, v, hv, hne, hno⟩ := h T hc (fun v hv => List.mem_toFinset.1 (hl.1.1.1 (hT hv)))
    obtain ⟨l', h4, h5⟩ := hl.1.1.2 u (hT hu) v (hT hv) hne
    exact hno l' h4 h5

/-- Two triangles with a common edge, in two orders; a square has no triangle. -/
example : (bronKerbosch 5 [(1, [2, 3]), (2, [1, 3, 4]), (3, [2, 1, 4]), (4, [2, 3])] [] []).map (List.map List.toFinset) = some [{1, 2, 3}, {2, 3, 4}] ∧
    (bronKerbosch 5 [(4, [3, 2]), (3, [2, 1, 4]), (2, [4, 1, 3]), (1, [2, 3])] [] []).map (List.map List.toFinset) = some [{4, 3, 2}, {3, 2, 1}] ∧
    bronKerbosch 5 [(1, [2, 4]), (2, [1, 3]), (3, [2, 4]), (4, [1, 3])] [] [] = some [] := by decide +kernel

/-- The first of these graphs meets the hypotheses. -/
example : Simple ({1, 2, 3, 4} : Finset ℕ)
    (fun u v => ∃ l, (u, l) ∈ [(1, [2, 3]), (2, [1, 3, 4]), (3, [2, 1, 4]), (4, [2, 3])] ∧ v ∈ l) :=
  ⟨by simp, by simp⟩

end Verif.Clique
