import Verif.Nodes.BuildEvents

/-!
# Renaming the events of a pattern (C93)
-/

set_option autoImplicit false
set_option linter.unusedSectionVars false

namespace Verif.Nodes

open Verif.PTree

variable {α β : Type}

mutual
/-- The tree with other events. -/
def NTree.mapEv (g : α → β) : NTree α → NTree β
  | .leaf id ev => .leaf id (g ev)
  | .node id rp ch => .node id rp (ch.mapEv g)
/-- The children with other events. -/
def NForest.mapEv (g : α → β) : NForest α → NForest β
  | .nil => .nil
  | .cons d t rest => .cons d (t.mapEv g) (rest.mapEv g)
end

mutual
/-- The events at the leaves. -/
def NTree.events : NTree α → List α
  | .leaf _ ev => [ev]
  | .node _ _ ch => ch.events
/-- The events at the leaves of the children. -/
def NForest.events : NForest α → List α
  | .nil => []
  | .cons _ t rest => t.events ++ rest.events
end

/-- The node with another event. -/
def Node.mapEv (g : α → β) : Node α → Node β
  | .leaf q ev => .leaf q (g ev)
  | .inner q rp ch => .inner q rp ch

theorem mapEvents_ok (f : α → Option β) (g : α → β) : ∀ (d : NodeDict α), (∀ k q ev, (k, Node.leaf q ev) ∈ d → f ev = some (g ev)) → mapEvents f d = .ok (d.map (fun x => (x.1, x.2.mapEv g)))
  | [], _ => rfl
  | (k, .leaf q ev) :: d, h => by
    have h1 := h k q ev (by simp)
    have h2 := mapEvents_ok f g d (fun k q ev hm => h k q ev (by simp [hm]))
    simp only [mapEvents, h1, h2]
    rfl
  | (k, .inner q rp ch) :: d, h => by
    have h2 := mapEvents_ok f g d (fun k q ev hm => h k q ev (by simp [hm]))
    simp only [mapEvents, h2]
    rfl

theorem mapEvents_error (f : α → Option β) {k : ℕ} {q : Option ℕ} {ev : α} (hf : f ev = none) : ∀ (d : NodeDict α), (k, Node.leaf q ev) ∈ d → ∃ e, mapEvents f d = .error e
  | [], h => by simp at h
  | (k', .leaf q' ev') :: d, h => by
    rcases List.mem_cons.mp h with e | e
    · simp only [Prod.mk.injEq, Node.leaf.injEq] at e
      rw [e.2.2] at hf
      exact ⟨"IndexError", by simp only [mapEvents, hf]⟩
    · obtain ⟨er, he⟩ := mapEvents_error f hf d e
      simp only [mapEvents, he]
      split
      · exact ⟨_, rfl⟩
      · exact ⟨_, rfl⟩
  | (k', .inner q' rp ch) :: d, h => by
    rcases List.mem_cons.mp h with e | e
    · simp at e
    · obtain ⟨er, he⟩ := mapEvents_error f hf d e
      exact ⟨er, by simp only [mapEvents, he]; rfl⟩

mutual
theorem NTree.mapEv_ids (g : α → β) : ∀ (t : NTree α), (t.mapEv g).ids = t.ids
  | .leaf _ _ => rfl
  | .node _ _ ch => by simp [NTree.mapEv, NTree.ids, ch.mapEv_ids g]
theorem NForest.mapEv_ids (g : α → β) : ∀ (F : NForest α), (F.mapEv g).ids = F.ids
  | .nil => rfl
  | .cons _ t rest => by simp [NForest.mapEv, NForest.ids, t.mapEv_ids g, rest.mapEv_ids g]
end

theorem NTree.mapEv_id (g : α → β) (t : NTree α) : (t.mapEv g).id = t.id := by cases t <;> rfl

theorem NForest.mapEv_kids (g : α → β) : ∀ (F : NForest α), (F.mapEv g).kids = F.kids
  | .nil => rfl
  | .cons _ t rest => by simp [NForest.mapEv, NForest.kids, t.mapEv_id g, rest.mapEv_kids g]

mutual
theorem NTree.mapEv_entries (g : α → β) : ∀ (t : NTree α) (q : Option ℕ), (t.mapEv g).entries q = (t.entries q).map (fun x => (x.1, x.2.mapEv g))
  | .leaf _ _, _ => rfl
  | .node _ _ ch, _ => by simp [NTree.mapEv, NTree.entries, ch.mapEv_entries g, ch.mapEv_kids g, Node.mapEv]
theorem NForest.mapEv_entries (g : α → β) : ∀ (F : NForest α) (q : Option ℕ), (F.mapEv g).entries q = (F.entries q).map (fun x => (x.1, x.2.mapEv g))
  | .nil, _ => rfl
  | .cons _ t rest, _ => by simp [NForest.mapEv, NForest.entries, t.mapEv_entries g, rest.mapEv_entries g]
end

mutual
theorem NTree.leaf_events : ∀ (t : NTree α) (q : Option ℕ) (ev : α), ev ∈ t.events ↔ ∃ k q', (k, Node.leaf q' ev) ∈ t.entries q
  | .leaf id e, q, ev => by simp [NTree.events, NTree.entries]
  | .node id rp ch, q, ev => by simp [NTree.events, NTree.entries, ch.leaf_events (some id) ev]
theorem NForest.leaf_events : ∀ (F : NForest α) (q : Option ℕ) (ev : α), ev ∈ F.events ↔ ∃ k q', (k, Node.leaf q' ev) ∈ F.entries q
  | .nil, q, ev => by simp [NForest.events, NForest.entries]
  | .cons _ t rest, q, ev => by
    simp only [NForest.events, NForest.entries, List.mem_append, t.leaf_events q ev, rest.leaf_events q ev]
    constructor
    · rintro (⟨k, q', h⟩ | ⟨k, q', h⟩)
      · exact ⟨k, q', Or.inl h⟩
      · exact ⟨k, q', Or.inr h⟩
    · rintro ⟨k, q', h | h⟩
      · exact Or.inl ⟨k, q', h⟩
      · exact Or.inr ⟨k, q', h⟩
end

mutual
theorem NTree.mapEv_plain (g : α → β) : ∀ (t : NTree α) (T : PTree.Tree α), t.plain = some T → ∃ T', (t.mapEv g).plain = some T' ∧ ∀ time, gen T' time = (gen T time).map (fun x => (x.1, g x.2))
  | .leaf _ ev, T, h => by
    simp only [NTree.plain, Option.some.injEq] at h
    subst h
    exact ⟨.leaf (g ev), rfl, fun time => by simp [gen]⟩
  | .node _ none _, T, h => by simp [NTree.plain] at h
  | .node _ (some rp) ch, T, h => by
    simp only [NTree.plain, Option.map_eq_some_iff] at h
    obtain ⟨F, hF, rfl⟩ := h
    obtain ⟨F', h1, h2⟩ := ch.mapEv_plain g F hF
    exact ⟨.node rp.1 rp.2 F', by simp [NTree.mapEv, NTree.plain, h1], fun time => by simp [gen, h2, List.map_flatMap]⟩
theorem NForest.mapEv_plain (g : α → β) : ∀ (F : NForest α) (G : Forest α), F.plain = some G → ∃ G', (F.mapEv g).plain = some G' ∧ ∀ time, genF G' time = (genF G time).map (fun x => (x.1, g x.2))
  | .nil, G, h => by
    simp only [NForest.plain, Option.some.injEq] at h
    subst h
    exact ⟨.nil, rfl, fun time => by simp [genF]⟩
  | .cons d t rest, G, h => by
    simp only [NForest.plain, Option.bind_eq_some_iff, Option.map_eq_some_iff] at h
    obtain ⟨T, hT, R, hR, rfl⟩ := h
    obtain ⟨T', h1, h2⟩ := t.mapEv_plain g T hT
    obtain ⟨R', h3, h4⟩ := rest.mapEv_plain g R hR
    exact ⟨.cons d T' R', by simp [NForest.mapEv, NForest.plain, h1, h3], fun time => by simp [genF, h2, h4]⟩
end

/-- Renaming the events by a table that has them all: the same times, the events renamed; a missing one raises. -/
theorem map_events {P : PatObj α} {t : NTree α} {T : PTree.Tree α} (h : P.Is t) (hT : t.plain = some T) (f : α → Option β) :
    (∀ g : α → β, (∀ ev ∈ t.events, f ev = some (g ev)) → ∃ d t' T', mapEvents f P.nodes = .ok d ∧ (PatObj.mk d P.nextId).Is t' ∧ t'.plain = some T' ∧
      ∀ time, gen T' time = (gen T time).map (fun x => (x.1, g x.2))) ∧
    (∀ ev ∈ t.events, f ev = none → ∃ e, mapEvents f P.nodes = .error e) := by
  constructor
  · intro g hg
    obtain ⟨T', h1, h2⟩ := t.mapEv_plain g T hT
    refine ⟨_, t.mapEv g, T', mapEvents_ok f g P.nodes ?_, ⟨⟨?_, ?_, ?_, ?_⟩, ?_⟩, h1, h2⟩
    · intro k q ev hm
      exact hg ev ((t.leaf_events none ev).mpr ⟨k, q, (h.nodes.same _).mp hm⟩)
    · simp only [List.map_map]
      exact h.nodes.keys
    · rw [t.mapEv_ids]; exact h.nodes.ids
    · intro x
      simp only [t.mapEv_entries, List.mem_map, h.nodes.same]
    · obtain ⟨rp, ch, e⟩ := h.nodes.root
      subst e
      exact ⟨rp, ch.mapEv g, rfl⟩
    · rw [t.mapEv_ids]; exact h.fresh
  · intro ev hev hf
    obtain ⟨k, q, hm⟩ := (t.leaf_events none ev).mp hev
    exact mapEvents_error f hf P.nodes ((h.nodes.same _).mpr hm)

/-- A concrete case: a table of two names. -/
example : mapEvents (fun n => ["x", "y"][n]?) (PatObj.cycle 1 3 10).nodes = .ok [(1, .leaf (some 0) "y"), (0, .inner none (some (3, 10)) [(1, 0)])] := rfl

end Verif.Nodes
