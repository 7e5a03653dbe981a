import Verif.Draw.Spec
import Verif.Nodes.BuildLemmas
import Verif.Display.Lemmas
import Mathlib.Tactic.Common

/-!
# Lemmas on drawings
-/

set_option autoImplicit false
set_option linter.unusedSectionVars false

namespace Verif.Draw

open Verif.Nodes Verif.Display Verif.Text

/-! ### The statements of a tree -/

/-- Dotted edges into a node. -/
def into (id : ℕ) (g : List (Option ℕ × List Char)) : List Stmt := g.map (fun x => .edge x.1 id (some x.2))

mutual
/-- The statements for a tree in the unit of the data. -/
def stmts (s : Style) (t0 : Option ℤ) (parent : Option ℕ) (g : List (Option ℕ × List Char)) : NTree ℕ → List Stmt
  | .leaf id ev => .node id (s.name ev) false :: .edge parent id none :: into id g
  | .node id rp ch => .node id (s.box t0 (rp.getD (0, 0)).1 (rp.getD (0, 0)).2) true :: ((match parent with
    | some q => .edge (some q) id none :: into id g
    | none => []) ++ stmtsF s id none ch)
/-- The statements for children. -/
def stmtsF (s : Style) (q : ℕ) (before : Option ℕ) : NForest ℕ → List Stmt
  | .nil => []
  | .cons d t rest => stmts s none (some q) (s.gapOf before d) t ++ stmtsF s q (some t.id) rest
end

variable {s : Style}

theorem labels_append (A B : List Stmt) (a : ℕ) : labels (A ++ B) a = labels A a ++ labels B a := List.filterMap_append
theorem targets_append (A B : List Stmt) (a : ℕ) : targets (A ++ B) a = targets A a ++ targets B a := List.filterMap_append
theorem dotted_append (A B : List Stmt) (a : ℕ) : dotted (A ++ B) a = dotted A a ++ dotted B a := List.filterMap_append

theorem labels_node (b : ℕ) (w : List Char) (sh : Bool) (L : List Stmt) (a : ℕ) : labels (.node b w sh :: L) a = (if b = a then [(w, sh)] else []) ++ labels L a := by
  by_cases h : b = a <;> simp [labels, h]
theorem targets_node (b : ℕ) (w : List Char) (sh : Bool) (L : List Stmt) (a : ℕ) : targets (.node b w sh :: L) a = targets L a := by simp [targets]
theorem dotted_node (b : ℕ) (w : List Char) (sh : Bool) (L : List Stmt) (a : ℕ) : dotted (.node b w sh :: L) a = dotted L a := by simp [dotted]
theorem labels_edge (q : Option ℕ) (c : ℕ) (w : Option (List Char)) (L : List Stmt) (a : ℕ) : labels (.edge q c w :: L) a = labels L a := by simp [labels]
theorem dotted_solid (q : Option ℕ) (c : ℕ) (L : List Stmt) (a : ℕ) : dotted (.edge q c none :: L) a = dotted L a := by simp [dotted]
theorem targets_solid (q : Option ℕ) (c : ℕ) (L : List Stmt) (a : ℕ) : targets (.edge q c none :: L) a = (if q = some a then [c] else []) ++ targets L a := by
  cases q with
  | none => simp [targets]
  | some b => by_cases h : b = a <;> simp [targets, h]

theorem labels_into (id : ℕ) (g : List (Option ℕ × List Char)) (a : ℕ) : labels (into id g) a = [] := by
  induction g with
  | nil => rfl
  | cons x g ih => simpa [into, labels] using ih
theorem targets_into (id : ℕ) (g : List (Option ℕ × List Char)) (a : ℕ) : targets (into id g) a = [] := by
  simp only [targets, into, List.filterMap_eq_nil_iff, List.mem_map]
  rintro st ⟨x, _, rfl⟩
  obtain ⟨q, w⟩ := x
  cases q <;> rfl
theorem dotted_into (id : ℕ) (g : List (Option ℕ × List Char)) (a : ℕ) : dotted (into id g) a = if id = a then g else [] := by
  induction g with
  | nil => simp [into, dotted]
  | cons x g ih =>
    by_cases h : id = a
    · simp only [h, if_true] at ih ⊢
      simp only [into, dotted, List.map_cons] at ih ⊢
      rw [List.filterMap_cons_some (b := x) (by simp)]
      rw [ih]
    · simp only [h, if_false] at ih ⊢
      simp only [into, dotted, List.map_cons] at ih ⊢
      rw [List.filterMap_cons_none (by simp [h])]
      exact ih

theorem id_mem (t : NTree ℕ) : t.id ∈ t.ids := by cases t <;> simp [NTree.id, NTree.ids]

mutual
/-- A drawing says nothing about names which are not in the tree, except that the parent is linked to the root. -/
theorem stmts_absent (s : Style) (a : ℕ) : ∀ (t : NTree ℕ) (t0 : Option ℤ) (q : Option ℕ) (g : List (Option ℕ × List Char)), a ∉ t.ids →
    labels (stmts s t0 q g t) a = [] ∧ dotted (stmts s t0 q g t) a = [] ∧ targets (stmts s t0 q g t) a = if q = some a then [t.id] else []
  | .leaf id ev, t0, q, g, h => by
    have h : id ≠ a := fun e => h (by simp [NTree.ids, e])
    simp [stmts, labels_node, targets_node, dotted_node, labels_edge, dotted_solid, targets_solid, labels_into, targets_into, dotted_into, h, NTree.id]
  | .node id rp ch, t0, q, g, h => by
    have h' : id ≠ a := fun e => h (by simp [NTree.ids, e])
    have hc : a ∉ ch.ids := fun e => h (by simp [NTree.ids, e])
    obtain ⟨h1, h2, h3⟩ := stmtsF_absent s a ch id none hc
    cases q with
    | none => simp [stmts, labels_node, targets_node, dotted_node, h1, h2, h3, h']
    | some q => simp [stmts, labels_node, targets_node, dotted_node, labels_edge, dotted_solid, targets_solid, labels_into, targets_into, dotted_into, h', NTree.id, labels_append, targets_append, dotted_append, h1, h2, h3]
theorem stmtsF_absent (s : Style) (a : ℕ) : ∀ (F : NForest ℕ) (q : ℕ) (b : Option ℕ), a ∉ F.ids →
    labels (stmtsF s q b F) a = [] ∧ dotted (stmtsF s q b F) a = [] ∧ targets (stmtsF s q b F) a = if q = a then F.kids.map Prod.fst else []
  | .nil, q, b, _ => by simp [stmtsF, labels, dotted, targets, NForest.kids]
  | .cons d t rest, q, b, h => by
    have h1 : a ∉ t.ids := fun e => h (by simp [NForest.ids, e])
    have h2 : a ∉ rest.ids := fun e => h (by simp [NForest.ids, e])
    obtain ⟨x1, x2, x3⟩ := stmts_absent s a t none (some q) (s.gapOf b d) h1
    obtain ⟨y1, y2, y3⟩ := stmtsF_absent s a rest q (some t.id) h2
    simp only [stmtsF, labels_append, targets_append, dotted_append, x1, x2, x3, y1, y2, y3, NForest.kids, Option.some.injEq]
    by_cases e : q = a <;> simp [e]
end

/-- Two drawings say the same about a name. -/
def Same (L M : List Stmt) (a : ℕ) : Prop := labels L a = labels M a ∧ targets L a = targets M a ∧ dotted L a = dotted M a

mutual
theorem shows_congr {L M : List Stmt} : ∀ (t : NTree ℕ) (t0 : Option ℤ) (g : List (Option ℕ × List Char)), (∀ a ∈ t.ids, Same L M a) → Shows s L t0 g t → Shows s M t0 g t
  | .leaf id ev, t0, g, h, hs => by
    obtain ⟨h1, h2, h3⟩ := h id (by simp [NTree.ids])
    simp only [Shows] at hs ⊢
    rwa [← h1, ← h2, ← h3]
  | .node _ none _, _, _, _, hs => hs
  | .node id (some rp) ch, t0, g, h, hs => by
    obtain ⟨h1, h2, h3⟩ := h id (by simp [NTree.ids])
    simp only [Shows] at hs ⊢
    rw [← h1, ← h2, ← h3]
    exact ⟨hs.1, hs.2.1, hs.2.2.1, showsF_congr ch none (fun a ha => h a (by simp [NTree.ids, ha])) hs.2.2.2⟩
theorem showsF_congr {L M : List Stmt} : ∀ (F : NForest ℕ) (b : Option ℕ), (∀ a ∈ F.ids, Same L M a) → ShowsF s L b F → ShowsF s M b F
  | .nil, _, _, _ => trivial
  | .cons d t rest, b, h, hs => by
    simp only [ShowsF] at hs ⊢
    exact ⟨shows_congr t _ _ (fun a ha => h a (by simp [NForest.ids, ha])) hs.1, showsF_congr rest _ (fun a ha => h a (by simp [NForest.ids, ha])) hs.2⟩
end

mutual
/-- The statements show the tree. -/
theorem stmts_shows (s : Style) : ∀ (t : NTree ℕ) (t0 : Option ℤ) (q : Option ℕ) (g : List (Option ℕ × List Char)), t.ids.Nodup → t.plain ≠ none → (∀ x, q = some x → x ∉ t.ids) → (q = none → g = []) →
    Shows s (stmts s t0 q g t) t0 g t
  | .leaf id ev, t0, q, g, hn, hp, hq, hg => by
    have : q ≠ some id := fun e => hq id e (by simp [NTree.ids])
    simp [Shows, stmts, labels_node, targets_node, dotted_node, labels_edge, dotted_solid, targets_solid, labels_into, targets_into, dotted_into, this]
  | .node id none ch, t0, q, g, hn, hp, hq, hg => absurd rfl hp
  | .node id (some rp) ch, t0, q, g, hn, hp, hq, hg => by
    simp only [NTree.ids, List.nodup_cons] at hn
    have hc : ch.plain ≠ none := fun e => hp (by simp [NTree.plain, e])
    have h4 := stmtsF_shows s ch id none hn.2 hc hn.1
    obtain ⟨h1, h2, h3⟩ := stmtsF_absent s id ch id none hn.1
    have hne : ∀ a ∈ ch.ids, id ≠ a := fun a ha e => hn.1 (e ▸ ha)
    cases q with
    | none =>
      have hg := hg rfl
      subst hg
      simp only [Shows, stmts, labels_node, targets_node, dotted_node, List.nil_append, h1, h2, h3, if_true, List.append_nil, Option.getD_some]
      refine ⟨trivial, trivial, trivial, showsF_congr ch none (fun a ha => ?_) h4⟩
      simp [Same, labels_node, targets_node, dotted_node, hne a ha]
    | some q =>
      have hqi : q ≠ id := fun e => hq q rfl (by simp [NTree.ids, e])
      have hqc : ∀ a ∈ ch.ids, q ≠ a := fun a ha e => hq q rfl (by simp [NTree.ids, e, ha])
      simp only [Shows, stmts, labels_node, targets_node, dotted_node, List.cons_append, labels_edge, dotted_solid, targets_solid, labels_into, targets_into, dotted_into, labels_append, targets_append, dotted_append, h1, h2, h3, if_true,
        List.append_nil, List.nil_append, Option.getD_some, Option.some.injEq, hqi, if_false]
      refine ⟨trivial, trivial, trivial, showsF_congr ch none (fun a ha => ?_) h4⟩
      simp [Same, labels_node, targets_node, dotted_node, hne a ha, labels_edge, dotted_solid, targets_solid, labels_into, targets_into, dotted_into, labels_append, targets_append, dotted_append, hqc a ha]
theorem stmtsF_shows (s : Style) : ∀ (F : NForest ℕ) (q : ℕ) (b : Option ℕ), F.ids.Nodup → F.plain ≠ none → q ∉ F.ids → ShowsF s (stmtsF s q b F) b F
  | .nil, _, _, _, _, _ => trivial
  | .cons d t rest, q, b, hn, hp, hq => by
    simp only [NForest.ids, List.nodup_append] at hn
    have ht : t.plain ≠ none := fun e => hp (by simp [NForest.plain, e])
    have hr : rest.plain ≠ none := fun e => hp (by cases t.plain <;> simp [NForest.plain, e])
    have hqt : q ∉ t.ids := fun e => hq (by simp [NForest.ids, e])
    have hqr : q ∉ rest.ids := fun e => hq (by simp [NForest.ids, e])
    have hq' : ∀ a, a ∈ t.ids ∨ a ∈ rest.ids → q ≠ a := by rintro a (ha | ha) rfl <;> contradiction
    have A := stmts_shows s t none (some q) (s.gapOf b d) hn.1 ht (fun x e => by cases e; exact hqt) (fun e => by cases e)
    have B := stmtsF_shows s rest q (some t.id) hn.2.1 hr hqr
    simp only [ShowsF, stmtsF]
    refine ⟨?_, showsF_congr rest _ (fun a ha => ?_) B⟩
    · refine shows_congr t _ _ (fun a ha => ?_) A
      obtain ⟨y1, y2, y3⟩ := stmtsF_absent s a rest q (some t.id) (fun e => hn.2.2 a ha a e rfl)
      simp [Same, labels_append, targets_append, dotted_append, y1, y2, y3, hq' a (.inl ha)]
    · obtain ⟨y1, y2, y3⟩ := stmts_absent s a t none (some q) (s.gapOf b d) (fun e => hn.2.2 a e a ha rfl)
      simp [Same, labels_append, targets_append, dotted_append, y1, y2, y3, hq' a (.inr ha)]
end

mutual
/-- The names of the statements. -/
theorem stmts_names (s : Style) : ∀ (t : NTree ℕ) (t0 : Option ℤ) (q : Option ℕ) (g : List (Option ℕ × List Char)), (∀ ev id, t = .leaf id ev → q ≠ none) → ∀ st ∈ stmts s t0 q g t, ∀ n ∈ st.names,
    (∃ a ∈ t.ids, n = some a) ∨ n = q ∨ n ∈ g.map Prod.fst
  | .leaf id ev, t0, q, g, hl, st, hst, n, hn => by
    simp only [stmts, List.mem_cons, into, List.mem_map] at hst
    rcases hst with rfl | rfl | ⟨x, hx, rfl⟩ <;> simp only [Stmt.names, List.mem_cons, List.not_mem_nil, or_false] at hn
    · exact .inl ⟨id, by simp [NTree.ids], hn⟩
    · rcases hn with rfl | rfl
      · exact .inr (.inl rfl)
      · exact .inl ⟨id, by simp [NTree.ids], rfl⟩
    · rcases hn with rfl | rfl
      · exact .inr (.inr (List.mem_map_of_mem hx))
      · exact .inl ⟨id, by simp [NTree.ids], rfl⟩
  | .node id rp ch, t0, q, g, _, st, hst, n, hn => by
    simp only [stmts, List.mem_cons, List.mem_append] at hst
    rcases hst with rfl | hst | hst
    · simp only [Stmt.names, List.mem_cons, List.not_mem_nil, or_false] at hn
      exact .inl ⟨id, by simp [NTree.ids], hn⟩
    · cases q with
      | none => cases hst
      | some q =>
        simp only [List.mem_cons, into, List.mem_map] at hst
        rcases hst with rfl | ⟨x, hx, rfl⟩ <;> simp only [Stmt.names, List.mem_cons, List.not_mem_nil, or_false] at hn
        · rcases hn with rfl | rfl
          · exact .inr (.inl rfl)
          · exact .inl ⟨id, by simp [NTree.ids], rfl⟩
        · rcases hn with rfl | rfl
          · exact .inr (.inr (List.mem_map_of_mem hx))
          · exact .inl ⟨id, by simp [NTree.ids], rfl⟩
    · rcases stmtsF_names s ch id none st hst n hn with ⟨a, ha, rfl⟩ | rfl | ⟨b, hb, rfl⟩
      · exact .inl ⟨a, by simp [NTree.ids, ha], rfl⟩
      · exact .inl ⟨id, by simp [NTree.ids], rfl⟩
      · cases hb
theorem stmtsF_names (s : Style) : ∀ (F : NForest ℕ) (q : ℕ) (b : Option ℕ), ∀ st ∈ stmtsF s q b F, ∀ n ∈ st.names, (∃ a ∈ F.ids, n = some a) ∨ n = some q ∨ ∃ c, b = some c ∧ n = some c
  | .nil, _, _, _, h, _, _ => by cases h
  | .cons d t rest, q, b, st, hst, n, hn => by
    simp only [stmtsF, List.mem_append] at hst
    rcases hst with hst | hst
    · rcases stmts_names s t none (some q) (s.gapOf b d) (fun _ _ _ => by simp) st hst n hn with ⟨a, ha, rfl⟩ | rfl | h
      · exact .inl ⟨a, by simp [NForest.ids, ha], rfl⟩
      · exact .inr (.inl rfl)
      · cases b with
        | none => cases h
        | some b =>
          refine .inr (.inr ⟨b, rfl, ?_⟩)
          simp only [Style.gapOf, Style.gap] at h
          split at h <;> simp at h
          exact h
    · rcases stmtsF_names s rest q (some t.id) st hst n hn with ⟨a, ha, rfl⟩ | rfl | ⟨c, hc, rfl⟩
      · exact .inl ⟨a, by simp [NForest.ids, ha], rfl⟩
      · exact .inr (.inl rfl)
      · cases hc
        exact .inl ⟨t.id, by simp [NForest.ids, id_mem], rfl⟩
end

end Verif.Draw
