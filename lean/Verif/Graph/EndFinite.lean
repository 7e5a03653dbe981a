import Verif.Graph.EndModel
import Verif.Graph.EndPieces
import Verif.Graph.DescSums
import Mathlib.Data.Set.Finite.Lattice
import Mathlib.Data.Set.Finite.List

/-!
# The search of GraphMDL ends: tables have finitely many lengths
-/

set_option autoImplicit false
set_option linter.unusedSectionVars false

namespace Verif.Graph

variable {σ : Type} [DecidableEq σ]

/-! ## Finite sets of lists -/

theorem finite_lists {α : Type} (s : Set α) (hs : s.Finite) (n : ℕ) : {l : List α | l.length ≤ n ∧ ∀ x ∈ l, x ∈ s}.Finite := by
  induction n with
  | zero =>
    refine (Set.finite_singleton ([] : List α)).subset ?_
    rintro l ⟨h, -⟩
    exact List.eq_nil_of_length_eq_zero (Nat.le_zero.mp h)
  | succ n ih =>
    refine ((Set.finite_singleton ([] : List α)).union (Set.Finite.image2 List.cons hs ih)).subset ?_
    rintro l ⟨h1, h2⟩
    cases l with
    | nil => exact Or.inl rfl
    | cons a t => exact Or.inr ⟨a, h2 a List.mem_cons_self, t, ⟨by simpa using h1, fun x hx => h2 x (List.mem_cons_of_mem _ hx)⟩, rfl⟩

theorem nodup_length_le {α : Type} [DecidableEq α] (l k : List α) (h : l.Nodup) (hs : l ⊆ k) : l.length ≤ k.length := (List.subperm_of_subset h hs).length_le

/-! ## The patterns that occur -/

/-- A data graph without parallel edges whose edges are labelled by strings. -/
structure StringData (d : LGraph σ) : Prop where
  verts : d.verts.Nodup
  simple : (d.edges.map (fun e => (e.1, e.2.1))).Nodup
  str : ∀ e ∈ d.edges, ∃ l, e.2.2 = .str l

theorem found_occurs {d p : LGraph σ} (hd : StringData d) {N : ℕ} (hp : Tame N p) (h : ℕ → ℕ) (hf : Found false d p h) : Occurs d p h := by
  refine ⟨hf.verts, hf.inj, fun a ha l hl => ?_, fun e he => ?_⟩
  · rw [namesAt_eq] at hl ⊢
    exact ((nodeMatch_iff _ _).1 (hf.nodes a ha)).1 l hl
  · obtain ⟨u, v, l⟩ := e
    obtain ⟨hu, hv⟩ := hp.ends _ he
    have hsing : ∀ {L : List (Label σ)} {l : Label σ}, L.length ≤ 1 → l ∈ L → L = [l] := by
      intro L l hl hm
      match L, hl, hm with
      | [x], _, hm => rw [List.mem_singleton.1 hm]
      | _ :: _ :: _, hl, _ => simp at hl
    have hpl : p.edgeData u v = [l] := hsing (edgeData_le_one p hp.simple u v) ((mem_edgeData p u v l).2 he)
    have h1 := hf.number u hu v hv
    rw [hpl, List.length_singleton] at h1
    obtain ⟨k, hk⟩ := List.exists_mem_of_length_pos (show 0 < (d.edgeData (h u) (h v)).length by omega)
    have hdl := hsing (edgeData_le_one d hd.simple (h u) (h v)) hk
    have h2 := hf.edges u hu v hv (by rw [hpl]; simp)
    have hk' := (mem_edgeData d _ _ k).1 hk
    obtain ⟨k', hk''⟩ := hd.str _ hk'
    simp only at hk''
    have hl := hp.labelled _ he
    simp only at hl
    rw [hpl, hdl] at h2
    simp only [edgesMatch, edgeMatch, Bool.false_eq_true, if_false, List.head?_cons, hk'', ne_eq, reduceCtorEq, not_false_eq_true, hl, and_self, if_true, Except.ok.injEq, decide_eq_true_eq] at h2
    rw [← h2, ← hk'']
    exact hk'

theorem lookup_of_mem {nodes : List (ℕ × Label σ)} (h : (nodes.map Prod.fst).Nodup) {v : ℕ} {l : Label σ} (hm : (v, l) ∈ nodes) : nodes.lookup v = some l := by
  obtain ⟨k, hk⟩ := lookup_isSome_of_mem nodes v (List.mem_map.2 ⟨_, hm, rfl⟩)
  rw [hk]
  have := List.inj_on_of_nodup_map h (lookup_mem hk) hm rfl
  rw [(Prod.mk.inj this).2]

theorem Occurs.length_le {d p : LGraph σ} {N : ℕ} (hp : Tame N p) {h : ℕ → ℕ} (ho : Occurs d p h) : p.nodes.length ≤ d.nodes.length := by
  have h1 : (p.verts.map h).Nodup := (List.nodup_map_iff_inj_on hp.nodes.verts).2 (fun a ha b hb hab => ho.inj a ha b hb hab)
  have h2 : p.verts.map h ⊆ d.verts := by
    intro v hv
    obtain ⟨a, ha, rfl⟩ := List.mem_map.1 hv
    exact ho.verts a ha
  have := nodup_length_le _ _ h1 h2
  simpa [LGraph.verts] using this

theorem Occurs.edges_le {d p : LGraph σ} {N : ℕ} (hp : Tame N p) {h : ℕ → ℕ} (ho : Occurs d p h) : p.edges.length ≤ d.edges.length := by
  have h0 : p.edges.Nodup := List.Nodup.of_map _ hp.simple
  have h1 : (p.edges.map (fun e => (h e.1, h e.2.1, e.2.2))).Nodup := by
    refine (List.nodup_map_iff_inj_on h0).2 ?_
    intro e he e' he' hee
    simp only [Prod.mk.injEq] at hee
    have ha := ho.inj _ (hp.ends e he).1 _ (hp.ends e' he').1 hee.1
    have hb := ho.inj _ (hp.ends e he).2 _ (hp.ends e' he').2 hee.2.1
    exact Prod.ext ha (Prod.ext hb hee.2.2)
  have h2 : p.edges.map (fun e => (h e.1, h e.2.1, e.2.2)) ⊆ d.edges := by
    intro v hv
    obtain ⟨e, he, rfl⟩ := List.mem_map.1 hv
    exact ho.edges e he
  have := nodup_length_le _ _ h1 h2
  simpa using this

theorem Occurs.small {d p : LGraph σ} {N : ℕ} (hN : d.nodes.length ≤ N) (hp : Tame N p) {h : ℕ → ℕ} (ho : Occurs d p h) : ∀ v ∈ p.verts, v ≤ N := by
  intro v hv
  have := ho.length_le hp
  rcases hp.nodes.bound v hv with h1 | h1 <;> omega

/-- The patterns that occur in the data. -/
def Occurring (N : ℕ) (d : LGraph σ) : Set (LGraph σ) := {p | Tame N p ∧ ∃ h, Occurs d p h}

theorem occurring_finite (N : ℕ) (d : LGraph σ) (hN : d.nodes.length ≤ N) : (Occurring N d).Finite := by
  obtain ⟨A, hA⟩ : ∃ A : List σ, A = d.view.labelPairs.map Prod.snd := ⟨_, rfl⟩
  have hAfin : {x | x ∈ A}.Finite := List.finite_toSet A
  have hlists := finite_lists {x | x ∈ A} hAfin A.length
  have hlab : (({Label.none} : Set (Label σ)) ∪ Label.str '' {x | x ∈ A} ∪ Label.tuple '' {l | l.length ≤ A.length ∧ ∀ x ∈ l, x ∈ {x | x ∈ A}} ∪ Label.list '' {l | l.length ≤ A.length ∧ ∀ x ∈ l, x ∈ {x | x ∈ A}}).Finite :=
    (((Set.finite_singleton _).union (hAfin.image _)).union (hlists.image _)).union (hlists.image _)
  have hnum : {v : ℕ | v ≤ N}.Finite := Set.finite_le_nat N
  have hnodes := finite_lists _ (hnum.prod hlab) d.nodes.length
  have hel : {l | l ∈ d.edges.map (fun e => e.2.2)}.Finite := List.finite_toSet _
  have hedges := finite_lists _ (hnum.prod (hnum.prod hel)) d.edges.length
  refine (Set.Finite.image2 LGraph.mk hnodes hedges).subset ?_
  rintro ⟨nodes, edges⟩ ⟨hp, h, ho⟩
  have hsmall := ho.small hN hp
  refine ⟨nodes, ⟨ho.length_le hp, ?_⟩, edges, ⟨ho.edges_le hp, ?_⟩, rfl⟩
  · rintro ⟨v, l⟩ hvl
    have hv : v ∈ (⟨nodes, edges⟩ : LGraph σ).verts := List.mem_map.2 ⟨_, hvl, rfl⟩
    refine ⟨hsmall v hv, ?_⟩
    have hnames : ∀ x ∈ l.names, x ∈ A := by
      intro x hx
      have h1 : x ∈ (⟨nodes, edges⟩ : LGraph σ).namesAt v := by
        unfold LGraph.namesAt
        rw [lookup_of_mem hp.nodes.verts hvl]
        exact hx
      have h2 := ho.labels v hv x h1
      rw [← view_labels] at h2
      rw [hA]
      exact List.mem_map.2 ⟨_, labels_pairs _ _ _ h2, rfl⟩
    have hnd := hp.nodes.labels _ hvl
    simp only at hnd
    cases l with
    | none => exact Or.inl (Or.inl (Or.inl rfl))
    | str s => exact Or.inl (Or.inl (Or.inr ⟨s, hnames s (by simp [Label.names]), rfl⟩))
    | tuple k => exact Or.inl (Or.inr ⟨k, ⟨nodup_length_le k A hnd hnames, hnames⟩, rfl⟩)
    | list k => exact Or.inr ⟨k, ⟨nodup_length_le k A hnd hnames, hnames⟩, rfl⟩
  · rintro ⟨a, b, l⟩ he
    obtain ⟨h1, h2⟩ := hp.ends _ he
    exact ⟨hsmall a h1, hsmall b h2, List.mem_map.2 ⟨_, ho.edges _ he, rfl⟩⟩

end Verif.Graph
