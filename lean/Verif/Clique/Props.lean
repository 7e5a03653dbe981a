import Verif.Clique.Lemmas

/-! # Properties of the clique enumerations (C10, C11) -/

set_option autoImplicit false
set_option linter.unusedSectionVars false

namespace Verif.Clique

variable {V : Type*} [DecidableEq V]

/-- C10. On the adjacency `dict` of an undirected graph without loops, `bron_kerbosch` terminates and yields every maximal clique of at
least three vertices exactly once, each as a list of distinct vertices, and nothing else. -/
theorem bronKerbosch_correct (G : List (V × List V)) (hG : (G.map Prod.fst).Nodup)
    (hs : Simple (G.map Prod.fst).toFinset (fun u v => ∃ l, (u, l) ∈ G ∧ v ∈ l)) (n : ℕ) (hn : G.length < n) :
    ∃ out, bronKerbosch n G [] [] = some out ∧ (∀ l ∈ out, l.Nodup) ∧ (out.map List.toFinset).Nodup ∧
      ∀ C, C ∈ out.map List.toFinset ↔
        MaxClique (G.map Prod.fst).toFinset (fun u v => ∃ l, (u, l) ∈ G ∧ v ∈ l) C ∧ 3 ≤ C.card := by
  have hadj : (fun u v => ∃ l, (u, l) ∈ G ∧ v ∈ l) = (fun u v => v ∈ nbs G u) := by
    funext u v
    apply propext
    constructor
    · rintro ⟨l, h1, h2⟩
      rw [nbs_of_mem hG h1]
      simpa using h2
    · intro h
      unfold nbs at h
      cases hf : G.find? (fun e => e.1 = u) with
      | none => rw [hf] at h; simp at h
      | some e =>
        rw [hf] at h
        have h1 : e.1 = u := by simpa using List.find?_some hf
        exact ⟨e.2, by rw [← h1]; exact List.mem_of_find?_eq_some hf, by simpa using h⟩
  have hirr : ∀ e ∈ G, e.1 ∉ e.2 := fun e he h =>
    hs.irrefl e.1 (List.mem_toFinset.2 (List.mem_map.2 ⟨e, he, rfl⟩)) ⟨e.2, he, h⟩
  have heq := bronKerbosch_eq G hG hirr n G [] [] [] (List.Sublist.refl _) (by simp) List.nodup_nil (by simp)
  rw [hadj] at hs ⊢
  obtain ⟨o, h1, h2, h3⟩ := bk3_spec (nbs G) hs (fun _ P => (G.map Prod.fst).filter (fun v => v ∈ P))
    (fun path P hP => ⟨hG.filter _, fun v => by
      rw [List.mem_filter, decide_eq_true_eq]
      exact ⟨fun h => h.2, fun h => ⟨List.mem_toFinset.1 (hP h), h⟩⟩⟩) n []
    (G.map Prod.fst).toFinset ∅ ∅ (by rw [List.toFinset_card_of_nodup hG, List.length_map]; exact hn)
    ⟨⟨by simp, by simp⟩, by simp, by simp⟩
  simp only [List.map_nil, List.toFinset_nil] at heq
  rw [h1] at heq
  cases hb : bronKerbosch n G [] [] with
  | none => rw [hb] at heq; cases heq
  | some out =>
    rw [hb, Option.map_some, Option.some.injEq] at heq
    refine ⟨out, rfl, bronKerbosch_nodup n G [] [] List.nodup_nil out hb, by rw [heq]; exact h2, fun C => ?_⟩
    rw [heq, h3]
    constructor
    · rintro ⟨a, b, _⟩; exact ⟨a, b⟩
    · rintro ⟨a, b⟩; exact ⟨a, b, by simp, fun x hx => a.1.1 (Finset.mem_sdiff.1 hx).1⟩

/-- A triangle with a pendant vertex. -/
example : bronKerbosch 10 [(1, [2, 3, 4]), (2, [1, 3]), (3, [2, 1]), (4, [1])] [] [] = some [[3, 2, 1]] := by decide

/-- The graph of the previous example meets the hypotheses of the theorem. -/
example : Simple ({1, 2, 3, 4} : Finset ℕ)
    (fun u v => ∃ l, (u, l) ∈ [(1, [2, 3, 4]), (2, [1, 3]), (3, [2, 1]), (4, [1])] ∧ v ∈ l) :=
  ⟨by simp, by simp⟩

/-- C11. Run on all the vertices of an undirected graph without loops, `bronKerbosch3Plus` terminates and collects every maximal clique
with more than two vertices exactly once and nothing else, for all iteration orders of the vertex sets. -/
theorem bronKerbosch3Plus_correct (vs : Finset V) (graph : V → Finset V) (hs : Simple vs (fun u v => v ∈ graph u))
    (enum : List V → Finset V → List V) (he : EnumOk enum) (n : ℕ) (hn : vs.card < n) :
    ∃ collect, bronKerbosch3Plus graph enum n [] vs ∅ ∅ = some collect ∧ collect.Nodup ∧
      ∀ C, C ∈ collect ↔ MaxClique vs (fun u v => v ∈ graph u) C ∧ 2 < C.card := by
  obtain ⟨out, h1, h2, h3⟩ := bk3_spec graph hs enum (fun path P _ => he path P) n [] vs ∅ ∅ hn ⟨⟨by simp, by simp⟩, by simp, by simp⟩
  refine ⟨out, h1, h2, fun C => ?_⟩
  rw [h3]
  constructor
  · rintro ⟨a, b, _⟩; exact ⟨a, b⟩
  · rintro ⟨a, b⟩; exact ⟨a, b, by simp, fun x hx => a.1.1 (Finset.mem_sdiff.1 hx).1⟩

example : (bronKerbosch3Plus (fun v : ℕ => if v = 1 then {2, 3, 4} else if v = 4 then {1} else if v = 2 then {1, 3} else {1, 2})
    (fun _ P => [4, 1, 3, 2].filter (fun v => v ∈ P)) 5 [] {1, 2, 3, 4} ∅ ∅) = some [{1, 3, 2}] := by decide

end Verif.Clique
