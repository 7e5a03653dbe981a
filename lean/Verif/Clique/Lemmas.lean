import Verif.Clique.Spec
import Verif.Clique.Model

set_option autoImplicit false
set_option linter.unusedSectionVars false

namespace Verif.Clique

variable {V : Type*} [DecidableEq V]

/-- The invariant of the recursion. -/
structure Inv (vs : Finset V) (adj : V → V → Prop) (P R X : Finset V) : Prop where
  clique : IsClique vs adj R
  common : ∀ v, v ∈ P ∨ v ∈ X ↔ v ∈ vs ∧ ∀ u ∈ R, adj u v
  disj : Disjoint P X

theorem Inv.not_mem {vs : Finset V} {adj : V → V → Prop} {P R X : Finset V} (hs : Simple vs adj) (h : Inv vs adj P R X)
    (v : V) (hv : v ∈ P ∨ v ∈ X) : v ∉ R := by
  intro hR
  obtain ⟨h1, h2⟩ := (h.common v).1 hv
  exact hs.irrefl v h1 (h2 v hR)

theorem Inv.step {vs : Finset V} {graph : V → Finset V} {P R X : Finset V}
    (hs : Simple vs (fun u v => v ∈ graph u)) (h : Inv vs (fun u v => v ∈ graph u) P R X) (v : V) (hv : v ∈ P) :
    Inv vs (fun u v => v ∈ graph u) (P ∩ graph v) (R ∪ {v}) (X ∩ graph v) := by
  obtain ⟨h1, h2⟩ := (h.common v).1 (Or.inl hv)
  refine ⟨⟨?_, ?_⟩, ?_, ?_⟩
  · intro x hx
    rcases Finset.mem_union.1 hx with hx | hx
    · exact h.clique.1 hx
    · rw [Finset.mem_singleton.1 hx]; exact h1
  · intro a ha b hb hab
    rcases Finset.mem_union.1 ha with ha | ha <;> rcases Finset.mem_union.1 hb with hb | hb
    · exact h.clique.2 a ha b hb hab
    · rw [Finset.mem_singleton.1 hb]; exact h2 a ha
    · rw [Finset.mem_singleton.1 ha]; exact hs.symm b (h.clique.1 hb) v h1 (h2 b hb)
    · rw [Finset.mem_singleton.1 ha, Finset.mem_singleton.1 hb] at hab; exact absurd rfl hab
  · intro x
    have := h.common x
    simp only [Finset.mem_inter, Finset.mem_union, Finset.mem_singleton]
    constructor
    · intro hx
      have hx2 : x ∈ P ∨ x ∈ X := hx.imp And.left And.left
      refine ⟨(this.1 hx2).1, fun u hu => ?_⟩
      rcases hu with hu | rfl
      · exact (this.1 hx2).2 u hu
      · exact hx.elim And.right And.right
    · rintro ⟨hx, hu⟩
      have := this.2 ⟨hx, fun u hR => hu u (Or.inl hR)⟩
      exact this.imp (fun h => ⟨h, hu v (Or.inr rfl)⟩) (fun h => ⟨h, hu v (Or.inr rfl)⟩)
  · exact h.disj.mono Finset.inter_subset_left Finset.inter_subset_left

theorem Inv.move {vs : Finset V} {adj : V → V → Prop} {P R X : Finset V} (h : Inv vs adj P R X) (v : V) (hv : v ∈ P) :
    Inv vs adj (P.erase v) R (insert v X) := by
  refine ⟨h.clique, fun x => ?_, ?_⟩
  · rw [← h.common x, Finset.mem_erase, Finset.mem_insert]
    by_cases hx : x = v
    · subst hx; simp [hv]
    · simp [hx]
  · rw [Finset.disjoint_left]
    intro x hx hx2
    rw [Finset.mem_erase] at hx
    rcases Finset.mem_insert.1 hx2 with rfl | hx2
    · exact hx.1 rfl
    · exact Finset.disjoint_left.1 h.disj hx.2 hx2

theorem IsClique.insert {vs : Finset V} {adj : V → V → Prop} (hs : Simple vs adj) {C : Finset V} (hC : IsClique vs adj C) (v : V)
    (hv : v ∈ vs) (h : ∀ u ∈ C, adj u v) : IsClique vs adj (insert v C) := by
  refine ⟨Finset.insert_subset hv hC.1, fun a ha b hb hab => ?_⟩
  rcases Finset.mem_insert.1 ha with h1 | h1 <;> rcases Finset.mem_insert.1 hb with h2 | h2
  · exact absurd (h1.trans h2.symm) hab
  · rw [h1]; exact hs.symm b (hC.1 h2) v hv (h b h2)
  · rw [h2]; exact h a h1
  · exact hC.2 a h1 b h2 hab

theorem not_max_of_common {vs : Finset V} {adj : V → V → Prop} (hs : Simple vs adj) {P R X : Finset V}
    (h : Inv vs adj P R X) (v : V) (hv : v ∈ P ∨ v ∈ X) : ¬ MaxClique vs adj R := by
  intro hm
  obtain ⟨h1, h2⟩ := (h.common v).1 hv
  have := hm.2 _ (hm.1.insert hs v h1 h2) (Finset.subset_insert _ _)
  exact h.not_mem hs v hv (by rw [← this]; exact Finset.mem_insert_self _ _)

theorem bk3Loop_spec {vs : Finset V} (graph : V → Finset V) (hs : Simple vs (fun u v => v ∈ graph u)) (R : Finset V)
    (next : V → Finset V → Finset V → Option (List (Finset V))) (m : ℕ)
    (hnext : ∀ v P X, v ∈ P → P.card ≤ m → Inv vs (fun u v => v ∈ graph u) P R X →
      ∃ out, next v P X = some out ∧ out.Nodup ∧ ∀ C, C ∈ out ↔
        MaxClique vs (fun u v => v ∈ graph u) C ∧ 2 < C.card ∧ R ∪ {v} ⊆ C ∧ C \ (R ∪ {v}) ⊆ P ∩ graph v)
    (l : List V) (hl : l.Nodup) (P X : Finset V) (hP : ∀ v, v ∈ l ↔ v ∈ P) (hm : P.card ≤ m)
    (hinv : Inv vs (fun u v => v ∈ graph u) P R X) :
    ∃ out, bk3Loop next l P X = some out ∧ out.Nodup ∧ ∀ C, C ∈ out ↔
      MaxClique vs (fun u v => v ∈ graph u) C ∧ 2 < C.card ∧ R ⊆ C ∧ C \ R ⊆ P ∧ C ≠ R := by
  induction l generalizing P X with
  | nil =>
    refine ⟨[], rfl, List.nodup_nil, fun C => ⟨fun h => absurd h (by simp), ?_⟩⟩
    rintro ⟨_, _, h1, h2, h3⟩
    exfalso
    apply h3
    refine Finset.Subset.antisymm (fun x hx => ?_) h1
    by_contra hR
    have := (hP x).2 (h2 (Finset.mem_sdiff.2 ⟨hx, hR⟩))
    exact absurd this (by simp)
  | cons v l ih =>
    have hvP : v ∈ P := (hP v).1 List.mem_cons_self
    have hvR : v ∉ R := hinv.not_mem hs v (Or.inl hvP)
    rw [List.nodup_cons] at hl
    obtain ⟨o1, h1, n1, c1⟩ := hnext v P X hvP hm hinv
    obtain ⟨o2, h2, n2, c2⟩ := ih hl.2 (P.erase v) (insert v X)
      (fun x => by
        rw [Finset.mem_erase, ← hP x, List.mem_cons]
        constructor
        · intro hx; exact ⟨fun h => hl.1 (h ▸ hx), Or.inr hx⟩
        · rintro ⟨h1, h2⟩; exact h2.resolve_left h1)
      ((Finset.card_erase_le).trans hm) (hinv.move v hvP)
    have key1 : ∀ C ∈ o1, v ∈ C := fun C hC => ((c1 C).1 hC).2.2.1 (Finset.mem_union_right _ (Finset.mem_singleton_self v))
    have key2 : ∀ C ∈ o2, v ∉ C := fun C hC hv =>
      absurd (((c2 C).1 hC).2.2.2.1 (Finset.mem_sdiff.2 ⟨hv, hvR⟩)) (Finset.notMem_erase v P)
    refine ⟨o1 ++ o2, ?_, ?_, ?_⟩
    · unfold bk3Loop
      rw [h1]
      simp only
      rw [h2]
    · rw [List.nodup_append]
      refine ⟨n1, n2, fun a ha b hb hab => ?_⟩
      subst hab
      exact key2 a hb (key1 a ha)
    · intro C
      rw [List.mem_append]
      constructor
      · rintro (hC | hC)
        · obtain ⟨g1, g2, g3, g4⟩ := (c1 C).1 hC
          refine ⟨g1, g2, Finset.union_subset_left g3, fun x hx => ?_, fun h => hvR (h ▸ key1 C hC)⟩
          rw [Finset.mem_sdiff] at hx
          by_cases hxv : x = v
          · rw [hxv]; exact hvP
          · exact (Finset.mem_inter.1 (g4 (Finset.mem_sdiff.2 ⟨hx.1, fun h => by
              rcases Finset.mem_union.1 h with h | h
              · exact hx.2 h
              · exact hxv (Finset.mem_singleton.1 h)⟩))).1
        · obtain ⟨g1, g2, g3, g4, g5⟩ := (c2 C).1 hC
          exact ⟨g1, g2, g3, g4.trans (Finset.erase_subset _ _), g5⟩
      · rintro ⟨g1, g2, g3, g4, g5⟩
        by_cases hvC : v ∈ C
        · left
          refine (c1 C).2 ⟨g1, g2, Finset.union_subset g3 (by simpa using hvC), fun x hx => ?_⟩
          rw [Finset.mem_sdiff, Finset.mem_union, Finset.mem_singleton] at hx
          rw [Finset.mem_inter]
          refine ⟨g4 (Finset.mem_sdiff.2 ⟨hx.1, fun h => hx.2 (Or.inl h)⟩), ?_⟩
          exact g1.1.2 v hvC x hx.1 (fun h => hx.2 (Or.inr h.symm))
        · right
          refine (c2 C).2 ⟨g1, g2, g3, fun x hx => ?_, g5⟩
          rw [Finset.mem_erase]
          exact ⟨fun h => hvC (h ▸ (Finset.mem_sdiff.1 hx).1), g4 hx⟩

theorem bk3_spec {vs : Finset V} (graph : V → Finset V) (hs : Simple vs (fun u v => v ∈ graph u))
    (enum : List V → Finset V → List V)
    (he : ∀ path P, P ⊆ vs → (enum path P).Nodup ∧ ∀ v, v ∈ enum path P ↔ v ∈ P) (n : ℕ) (path : List V) (P R X : Finset V) (hn : P.card < n)
    (hinv : Inv vs (fun u v => v ∈ graph u) P R X) :
    ∃ out, bronKerbosch3Plus graph enum n path P R X = some out ∧ out.Nodup ∧ ∀ C, C ∈ out ↔
      MaxClique vs (fun u v => v ∈ graph u) C ∧ 2 < C.card ∧ R ⊆ C ∧ C \ R ⊆ P := by
  induction n generalizing path P R X with
  | zero => omega
  | succ n ih =>
    unfold bronKerbosch3Plus
    by_cases hc : P.card = 0 ∧ X.card = 0
    · rw [if_pos hc]
      rw [Finset.card_eq_zero, Finset.card_eq_zero] at hc
      obtain ⟨rfl, rfl⟩ := hc
      have hmax : MaxClique vs (fun u v => v ∈ graph u) R := by
        refine ⟨hinv.clique, fun C' hC' hsub => Finset.Subset.antisymm (fun x hx => ?_) hsub⟩
        by_contra hR
        have := (hinv.common x).2 ⟨hC'.1 hx, fun u hu => hC'.2 u (hsub hu) x hx (fun h => hR (h ▸ hu))⟩
        simp at this
      have hback : ∀ C, R ⊆ C → C \ R ⊆ ∅ → C = R := by
        intro C h1 h2
        rw [Finset.subset_empty, Finset.sdiff_eq_empty_iff_subset] at h2
        exact Finset.Subset.antisymm h2 h1
      refine ⟨_, rfl, ?_, fun C => ?_⟩
      · split <;> simp
      · split
        · next h =>
          rw [List.mem_singleton]
          constructor
          · rintro rfl; exact ⟨hmax, h, Finset.Subset.refl _, by simp⟩
          · rintro ⟨_, _, h1, h2⟩; exact hback C h1 h2
        · next h =>
          constructor
          · intro h2; cases h2
          · rintro ⟨_, h0, h1, h2⟩
            rw [hback C h1 h2] at h0
            exact absurd h0 h
    · rw [if_neg hc]
      have hex : ∃ v, v ∈ P ∨ v ∈ X := by
        by_contra hno
        apply hc
        rw [Finset.card_eq_zero, Finset.card_eq_zero, Finset.eq_empty_iff_forall_notMem, Finset.eq_empty_iff_forall_notMem]
        exact ⟨fun x hx => hno ⟨x, Or.inl hx⟩, fun x hx => hno ⟨x, Or.inr hx⟩⟩
      obtain ⟨w, hw⟩ := hex
      have hPs : P ⊆ vs := fun x hx => ((hinv.common x).1 (Or.inl hx)).1
      obtain ⟨out, h1, h2, h3⟩ := bk3Loop_spec graph hs R
        (fun v P X => bronKerbosch3Plus graph enum n (v :: path) (P ∩ graph v) (R ∪ {v}) (X ∩ graph v)) P.card
        (fun v P' X' hv hle hinv' => ih (v :: path) (P' ∩ graph v) (R ∪ {v}) (X' ∩ graph v)
          (by
            have : (P' ∩ graph v).card < P'.card := by
              apply Finset.card_lt_card
              refine ⟨Finset.inter_subset_left, fun h => ?_⟩
              exact hs.irrefl v ((hinv'.common v).1 (Or.inl hv)).1 (Finset.mem_inter.1 (h hv)).2
            omega) (hinv'.step hs v hv))
        (enum path P) (he path P hPs).1 P X (he path P hPs).2 le_rfl hinv
      refine ⟨out, h1, h2, fun C => ?_⟩
      rw [h3]
      constructor
      · rintro ⟨a, b, c, d, _⟩; exact ⟨a, b, c, d⟩
      · rintro ⟨a, b, c, d⟩
        refine ⟨a, b, c, d, ?_⟩
        rintro rfl
        exact not_max_of_common hs hinv w hw a

/-! ### `bron_kerbosch` is an instance of the other algorithm -/

/-- The neighbours of a node in a `dict`. -/
def nbs (G : List (V × List V)) (v : V) : Finset V :=
  match G.find? (fun e => e.1 = v) with
  | some e => e.2.toFinset
  | none => ∅

theorem nbs_of_mem {G : List (V × List V)} (hG : (G.map Prod.fst).Nodup) {e : V × List V} (he : e ∈ G) :
    nbs G e.1 = e.2.toFinset := by
  unfold nbs
  cases hf : G.find? (fun x => x.1 = e.1) with
  | none => exact absurd (List.find?_eq_none.1 hf e he) (by simp)
  | some x =>
    have h1 : x.1 = e.1 := by simpa using List.find?_some hf
    have h2 := List.inj_on_of_nodup_map hG (List.mem_of_find?_eq_some hf) he h1
    rw [h2]

theorem keys_filter (l : List (V × List V)) (nb : List V) :
    ((l.filter (fun e => e.1 ∈ nb)).map Prod.fst) = (l.map Prod.fst).filter (fun v => v ∈ nb) := by
  rw [List.filter_map]
  rfl

theorem bkLoop_eq (G : List (V × List V)) (hG : (G.map Prod.fst).Nodup) (clique : List V) (n : ℕ)
    (enum : List V → Finset V → List V) (path : List V)
    (ih : ∀ cands clique excl path, cands.Sublist G → (∀ e ∈ excl, e ∈ G) → clique.Nodup → (∀ v ∈ cands.map Prod.fst, v ∉ clique) →
      (bronKerbosch n cands clique excl).map (List.map List.toFinset) =
        bronKerbosch3Plus (nbs G) enum n path (cands.map Prod.fst).toFinset clique.toFinset (excl.map Prod.fst).toFinset)
    (hirr : ∀ e ∈ G, e.1 ∉ e.2)
    (cands excl : List (V × List V)) (hc : cands.Sublist G) (he : ∀ e ∈ excl, e ∈ G) (hcl : clique.Nodup)
    (hdis : ∀ v ∈ cands.map Prod.fst, v ∉ clique) :
    (bkLoop (bronKerbosch n) clique cands excl).map (List.map List.toFinset) =
      bk3Loop (fun v P X => bronKerbosch3Plus (nbs G) enum n (v :: path) (P ∩ nbs G v) (clique.toFinset ∪ {v}) (X ∩ nbs G v))
        (cands.map Prod.fst) (cands.map Prod.fst).toFinset (excl.map Prod.fst).toFinset := by
  induction cands generalizing excl with
  | nil => rfl
  | cons e rest ih2 =>
    obtain ⟨node, nb⟩ := e
    have hmem : (node, nb) ∈ G := hc.subset List.mem_cons_self
    have hnode : node ∉ clique := hdis node (by simp)
    have hcf : clique.filter (fun x => x ≠ node) = clique := by
      rw [List.filter_eq_self]
      intro x hx
      exact decide_eq_true (fun h => hnode (h ▸ hx))
    have hfilt : ∀ l : List (V × List V), (((l.filter (fun e => e.1 ∈ nb)).map Prod.fst)).toFinset =
        (l.map Prod.fst).toFinset ∩ nbs G node := by
      intro l
      rw [keys_filter, nbs_of_mem hG hmem]
      ext x
      simp
    have h1 := ih (((node, nb) :: rest).filter (fun e => e.1 ∈ nb)) (node :: clique) (excl.filter (fun e => e.1 ∈ nb)) (node :: path)
      (List.filter_sublist.trans hc) (fun e h => he e (List.mem_filter.1 h).1) (List.nodup_cons.2 ⟨hnode, hcl⟩)
      (fun v hv => by
        rw [keys_filter, List.mem_filter] at hv
        rw [List.mem_cons]
        rintro (rfl | h)
        · exact hirr _ hmem (by simpa using hv.2)
        · exact hdis v hv.1 h)
    rw [hfilt, hfilt, List.toFinset_cons (a := node) (l := clique), Finset.insert_eq, Finset.union_comm] at h1
    have hrest : rest.Sublist G := (List.sublist_cons_self _ _).trans hc
    have hnr : node ∉ rest.map Prod.fst := (List.nodup_cons.1 ((hG.sublist (hc.map Prod.fst)) : ((node, nb) :: rest).map Prod.fst |>.Nodup)).1
    have h2 := ih2 (excl ++ [(node, nb)]) hrest
      (fun e h => by
        rcases List.mem_append.1 h with h | h
        · exact he e h
        · rw [List.mem_singleton.1 h]; exact hmem)
      (fun v hv => hdis v (List.mem_cons_of_mem _ hv))
    have e1 : ((((node, nb) :: rest).map Prod.fst).toFinset).erase node = (rest.map Prod.fst).toFinset := by
      rw [List.map_cons, List.toFinset_cons, Finset.erase_insert]
      simpa using hnr
    have e2 : insert node (excl.map Prod.fst).toFinset = ((excl ++ [(node, nb)]).map Prod.fst).toFinset := by
      ext x; simp
    unfold bkLoop
    rw [List.map_cons]
    unfold bk3Loop
    rw [hcf, ← List.map_cons (f := Prod.fst) (a := (node, nb)), e1, e2, ← h1, ← h2]
    cases bronKerbosch n (((node, nb) :: rest).filter (fun e => e.1 ∈ nb)) (node :: clique) (excl.filter (fun e => e.1 ∈ nb)) with
    | none => rfl
    | some r1 =>
      simp only [Option.map_some]
      cases bkLoop (bronKerbosch n) clique rest (excl ++ [(node, nb)]) with
      | none => rfl
      | some r2 => simp

theorem bronKerbosch_eq (G : List (V × List V)) (hG : (G.map Prod.fst).Nodup) (hirr : ∀ e ∈ G, e.1 ∉ e.2) (n : ℕ)
    (cands : List (V × List V)) (clique : List V) (excl : List (V × List V)) (path : List V) (hc : cands.Sublist G)
    (he : ∀ e ∈ excl, e ∈ G) (hcl : clique.Nodup) (hdis : ∀ v ∈ cands.map Prod.fst, v ∉ clique) :
    (bronKerbosch n cands clique excl).map (List.map List.toFinset) =
      bronKerbosch3Plus (nbs G) (fun _ P => (G.map Prod.fst).filter (fun v => v ∈ P)) n path (cands.map Prod.fst).toFinset
        clique.toFinset (excl.map Prod.fst).toFinset := by
  induction n generalizing cands clique excl path with
  | zero => rfl
  | succ n ih =>
    have hcard : ∀ l : List (V × List V), (l.map Prod.fst).toFinset.card = 0 ↔ l = [] := by
      intro l; simp
    have horder : (G.map Prod.fst).filter (fun v => v ∈ (cands.map Prod.fst).toFinset) = cands.map Prod.fst := by
      have hsub : (cands.map Prod.fst).Sublist (G.map Prod.fst) := hc.map _
      generalize cands.map Prod.fst = l at hsub
      generalize G.map Prod.fst = L at hsub hG
      clear ih hcard
      induction hsub with
      | slnil => rfl
      | cons a h ih =>
        rw [List.nodup_cons] at hG
        rw [List.filter_cons_of_neg, ih hG.2]
        simp only [List.mem_toFinset, decide_eq_true_eq]
        exact fun h2 => hG.1 (h.subset h2)
      | cons_cons a h ih =>
        rw [List.nodup_cons] at hG
        rw [List.filter_cons_of_pos (by simp)]
        congr 1
        refine Eq.trans (List.filter_congr fun x hx => ?_) (ih hG.2)
        have : x ≠ a := fun h => hG.1 (h ▸ hx)
        simp [this]
    unfold bronKerbosch bronKerbosch3Plus
    rw [List.toFinset_card_of_nodup hcl]
    by_cases h0 : cands = [] ∧ excl = []
    · obtain ⟨rfl, rfl⟩ := h0
      by_cases h2 : 2 < clique.length
      · rw [if_pos ⟨rfl, rfl, h2⟩, if_pos (by simp), if_pos h2]; rfl
      · rw [if_neg (fun h => h2 h.2.2), if_pos (by simp), if_neg h2]; rfl
    · rw [if_neg (fun h => h0 ⟨h.1, h.2.1⟩), if_neg (fun h => h0 ⟨(hcard _).1 h.1, (hcard _).1 h.2⟩)]
      rw [bkLoop_eq G hG clique n _ path (fun c cl ex p h1 h2 h3 h4 => ih c cl ex p h1 h2 h3 h4) hirr cands excl hc he hcl hdis]
      rw [horder]

theorem bronKerbosch_nodup (n : ℕ) (cands : List (V × List V)) (clique : List V) (excl : List (V × List V)) (hcl : clique.Nodup)
    (out : List (List V)) (h : bronKerbosch n cands clique excl = some out) : ∀ l ∈ out, l.Nodup := by
  induction n generalizing cands clique excl out with
  | zero => cases h
  | succ n ih =>
    unfold bronKerbosch at h
    split at h
    · simp only [Option.some.injEq] at h
      subst h
      simpa using hcl
    · next hc =>
      clear hc
      induction cands generalizing excl out with
      | nil =>
        simp only [bkLoop, Option.some.injEq] at h
        subst h
        simp
      | cons e rest ih2 =>
        obtain ⟨node, nb⟩ := e
        unfold bkLoop at h
        have hn : (node :: clique.filter (fun x => x ≠ node)).Nodup :=
          List.nodup_cons.2 ⟨by simp, hcl.filter _⟩
        cases h1 : bronKerbosch n (((node, nb) :: rest).filter (fun e => e.1 ∈ nb)) (node :: clique.filter (fun x => x ≠ node))
          (excl.filter (fun e => e.1 ∈ nb)) with
        | none => rw [h1] at h; cases h
        | some r1 =>
          rw [h1] at h
          simp only at h
          cases h2 : bkLoop (bronKerbosch n) clique rest (excl ++ [(node, nb)]) with
          | none => rw [h2] at h; cases h
          | some r2 =>
            rw [h2] at h
            simp only [Option.some.injEq] at h
            subst h
            intro l hl
            rcases List.mem_append.1 hl with hl | hl
            · exact ih _ _ _ hn _ h1 l hl
            · exact ih2 _ _ h2 l hl

end Verif.Clique
