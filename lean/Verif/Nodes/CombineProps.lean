import Verif.Nodes.Combine
import Verif.Nodes.BuildProps

/-!
# The dictionaries of combined candidates (C94)
-/

set_option autoImplicit false
set_option linter.unusedSectionVars false

namespace Verif.Nodes

open Verif.PTree

variable {α : Type}

/-- Nodes under a node 0, put under another node. -/
theorem reparented {nodes : NodeDict α} {G : NForest α} {q q' : Option ℕ} (hk : Keyed nodes) (hn : G.ids.Nodup) (hm : ∀ x, x ∈ nodes ↔ x ∈ G.entries q) {ch : List (ℕ × ℤ)}
    (hch : ch.map Prod.fst = G.kids.map Prod.fst) :
    ∃ nodes', setParents q' ch nodes = .ok nodes' ∧ Keyed nodes' ∧ (∀ x, x ∈ nodes' ↔ x ∈ G.entries q') ∧ ∀ k, k ∈ nodes'.map Prod.fst ↔ k ∈ G.ids := by
  have hkeys : ∀ k, k ∈ nodes.map Prod.fst ↔ k ∈ G.ids := by
    intro k
    rw [← G.entries_keys q]
    simp only [List.mem_map]
    exact ⟨fun ⟨x, hx, e⟩ => ⟨x, (hm x).mp hx, e⟩, fun ⟨x, hx, e⟩ => ⟨x, (hm x).mpr hx, e⟩⟩
  obtain ⟨ns, h1, h2, h3⟩ := setParents_spec q' ch hk (by
    intro c hc
    rw [hkeys]
    exact G.kids_ids _ (hch ▸ List.mem_map_of_mem hc))
  refine ⟨ns, h1, by unfold Keyed; rw [h2]; exact hk, ?_, by rw [h2]; exact hkeys⟩
  intro x
  rw [h3 x, hch, G.mem_reparent q q' x hn]
  simp only [hm]

theorem concatLoop_spec (rp : Option (ℕ × ℤ)) : ∀ (parts : List (Source α × Forest α × List (List ℤ))) (prev : Option (List (List ℤ))) (o : ℕ) (tree : NodeDict α) (A : NForest α),
    (∀ x ∈ parts, x.1.Has x.2.1) → Describes tree (.node 0 rp A) → RootFirst tree → (∀ k ∈ A.ids, k ≤ o) →
    (Concat.concatCh (parts.map Prod.snd) prev = none ∧ ∃ e, concatLoop (parts.map (fun x => (x.1, x.2.2))) prev o tree = .error e) ∨
    ∃ H d G, Concat.concatCh (parts.map Prod.snd) prev = some H ∧ concatLoop (parts.map (fun x => (x.1, x.2.2))) prev o tree = .ok d ∧
      Describes d (.node 0 rp (A.append G)) ∧ RootFirst d ∧ G.plain = some H := by
  intro parts
  induction parts with
  | nil =>
    intro prev o tree A _ hd hr _
    exact Or.inr ⟨.nil, tree, .nil, rfl, rfl, by rw [NForest.append_nil]; exact hd, hr, rfl⟩
  | cons y parts ih =>
    intro prev o tree A hs hd hr hA
    obtain ⟨s, F, bo⟩ := y
    obtain ⟨nodes, n, G, h1, h2, h3, h4, h5, h6⟩ := Source.split_spec (hs (s, F, bo) (by simp)) o
    simp only [List.map_cons, concatLoop, h1, Except.bind]
    rcases linkFirst_spec prev bo G h2 (parts.map Prod.snd) with ⟨e, h7, h8⟩ | ⟨G', F', h7, h8, h9, h10, h11, h12⟩
    · exact Or.inl ⟨h8, e, by rw [h7]⟩
    · rw [h7]
      simp only
      have hroot : (0, Node.inner none rp A.kids) ∈ tree := (hd.same _).mpr (by simp [NTree.entries])
      have hmod := modifyKey_ok (f := Node.extend G'.kids) hd.keys hroot rfl
      rw [hmod]
      simp only
      obtain ⟨ns, h13, h14, h15, h16⟩ := reparented (q' := some 0) h3 h5 h4 h11
      rw [h13]
      simp only
      have hk1 : Keyed (put tree 0 (.inner none rp (A.kids ++ G'.kids))) := Keyed.put hd.keys _ _
      obtain ⟨hu1, hu2⟩ := update_spec hk1 ns h14
      have hAn := hd.ids
      simp only [NTree.ids, List.nodup_cons] at hAn
      have hD : Describes (update (put tree 0 (.inner none rp (A.kids ++ G'.kids))) ns) (.node 0 rp (A.append G')) := by
        refine ⟨hu1, ?_, ?_, rp, _, rfl⟩
        · simp only [NTree.ids, NForest.append_ids, h9, List.nodup_cons, List.mem_append, not_or, List.nodup_append]
          refine ⟨⟨hAn.1, fun h0 => ?_⟩, hAn.2, h5, ?_⟩
          · have := (h6 0 h0).1; omega
          · intro a ha b hb e
            have := hA a ha
            have := (h6 b hb).1
            omega
        · intro x
          rw [hu2 x, mem_put hd.keys, h15 x, h16, hd.same]
          simp only [NTree.entries, NForest.append_kids, NForest.append_entries, h10, List.mem_cons, List.mem_append]
          constructor
          · rintro (e | ⟨e | ⟨e | e, n⟩, m⟩)
            · exact Or.inr (Or.inr e)
            · exact Or.inl e
            · exact absurd (by rw [e]) n
            · exact Or.inr (Or.inl e)
          · rintro (e | e | e)
            · refine Or.inr ⟨Or.inl e, fun m => ?_⟩
              have := (h6 _ m).1
              simp only [e] at this; omega
            · have hx := NForest.mem_ids e
              refine Or.inr ⟨Or.inr ⟨Or.inr e, fun m => hAn.1 (m ▸ hx)⟩, fun m => ?_⟩
              have := (h6 _ m).1
              have := hA _ hx
              omega
            · exact Or.inl e
      rw [Nat.add_sub_cancel]
      rcases ih (some bo) (o + n) (update (put tree 0 (.inner none rp (A.kids ++ G'.kids))) ns) (A.append G') (fun x hx => hs x (List.mem_cons_of_mem _ hx)) hD ((hr.put _ _).update _) (by
        intro k hk
        rw [NForest.append_ids, h9, List.mem_append] at hk
        rcases hk with hk | hk
        · have := hA k hk; omega
        · exact (h6 k hk).2) with ⟨h17, e, h18⟩ | ⟨H, d, K, h17, h18, h19, h20, h21⟩
      · exact Or.inl ⟨by rw [h12, h17]; rfl, e, h18⟩
      · refine Or.inr ⟨Concat.append F' H, d, G'.append K, by rw [h12, h17]; rfl, h18, ?_, h20, NForest.append_plain _ _ _ _ h8 h21⟩
        rw [← NForest.append_assoc]; exact h19

/-- C94, concatenation: the dictionary built from candidates describes the tree whose children are those of the candidates, each with its distance to the previous one; it raises exactly when a distance
is missing. -/
theorem concatTree_spec (parts : List (Source α × Forest α × List (List ℤ))) (hs : ∀ x ∈ parts, x.1.Has x.2.1) (p0 : ℤ) (r0 : ℕ) :
    (Concat.concatCh (parts.map Prod.snd) none = none ∧ ∃ e, concatTree (parts.map (fun x => (x.1, x.2.2))) p0 r0 = .error e) ∨
    ∃ H d t, Concat.concatCh (parts.map Prod.snd) none = some H ∧ concatTree (parts.map (fun x => (x.1, x.2.2))) p0 r0 = .ok d ∧
      Describes d t ∧ RootFirst d ∧ t.plain = some (.node r0 p0 H) := by
  have hd : Describes ([(0, .inner none (some (r0, p0)) [])] : NodeDict α) (.node 0 (some (r0, p0)) .nil) :=
    ⟨by simp, by simp [NTree.ids, NForest.ids], fun x => by simp [NTree.entries, NForest.entries, NForest.kids], _, _, rfl⟩
  rcases concatLoop_spec (some (r0, p0)) parts none 0 _ .nil hs hd (by simp [RootFirst]) (by simp [NForest.ids]) with h | ⟨H, d, G, h1, h2, h3, h4, h5⟩
  · exact Or.inl h
  · exact Or.inr ⟨H, d, _, h1, h2, h3, h4, by simp [NForest.append, NTree.plain, h5]⟩

end Verif.Nodes
