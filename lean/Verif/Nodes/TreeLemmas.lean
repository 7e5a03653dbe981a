import Verif.Nodes.Spec
import Verif.Nodes.DictLemmas

/-!
# Lemmas on numbered trees
-/

set_option autoImplicit false
set_option linter.unusedSectionVars false

namespace Verif.Nodes

open Verif.PTree

variable {α β : Type}

mutual
theorem NTree.entries_keys : ∀ (t : NTree α) (q : Option ℕ), (t.entries q).map Prod.fst = t.ids
  | .leaf _ _, _ => by simp [NTree.entries, NTree.ids]
  | .node _ _ ch, _ => by simp [NTree.entries, NTree.ids, NForest.entries_keys ch]
theorem NForest.entries_keys : ∀ (F : NForest α) (q : Option ℕ), (F.entries q).map Prod.fst = F.ids
  | .nil, _ => by simp [NForest.entries, NForest.ids]
  | .cons _ t rest, _ => by simp [NForest.entries, NForest.ids, NTree.entries_keys t, NForest.entries_keys rest]
end

theorem NTree.mem_ids {t : NTree α} {q : Option ℕ} {x : ℕ × Node α} (h : x ∈ t.entries q) : x.1 ∈ t.ids := by
  rw [← t.entries_keys q]; exact List.mem_map_of_mem h

theorem NForest.mem_ids {F : NForest α} {q : Option ℕ} {x : ℕ × Node α} (h : x ∈ F.entries q) : x.1 ∈ F.ids := by
  rw [← F.entries_keys q]; exact List.mem_map_of_mem h

theorem NTree.id_mem (t : NTree α) : t.id ∈ t.ids := by
  cases t <;> simp [NTree.id, NTree.ids]

theorem NForest.kids_mem : ∀ (F : NForest α) {c : ℕ × ℤ}, c ∈ F.kids → c.1 ∈ F.ids
  | .nil, _, h => by simp [NForest.kids] at h
  | .cons d t rest, c, h => by
    simp only [NForest.kids, List.mem_cons] at h
    simp only [NForest.ids, List.mem_append]
    rcases h with h | h
    · subst h; exact Or.inl t.id_mem
    · exact Or.inr (rest.kids_mem h)

mutual
theorem NTree.inner_ids : ∀ (t : NTree α) {a : ℕ}, a ∈ t.inner → a ∈ t.ids
  | .leaf _ _, _, h => by simp [NTree.inner] at h
  | .node id _ ch, a, h => by
    simp only [NTree.inner, List.mem_cons] at h
    simp only [NTree.ids, List.mem_cons]
    exact h.imp (fun e => e) (ch.inner_ids)
theorem NForest.inner_ids : ∀ (F : NForest α) {a : ℕ}, a ∈ F.inner → a ∈ F.ids
  | .nil, _, h => by simp [NForest.inner] at h
  | .cons _ t rest, a, h => by
    simp only [NForest.inner, List.mem_append] at h
    simp only [NForest.ids, List.mem_append]
    exact h.imp t.inner_ids rest.inner_ids
end

mutual
theorem NTree.inner_iff : ∀ (t : NTree α) (q : Option ℕ) (a : ℕ), a ∈ t.inner ↔ ∃ q' rp ch, (a, Node.inner q' rp ch) ∈ t.entries q
  | .leaf _ _, _, _ => by simp [NTree.inner, NTree.entries]
  | .node id rp ch, q, a => by
    simp only [NTree.inner, NTree.entries, List.mem_cons, ch.inner_iff (some id) a]
    constructor
    · rintro (rfl | ⟨q', rp', c', h⟩)
      · exact ⟨q, rp, ch.kids, Or.inl rfl⟩
      · exact ⟨q', rp', c', Or.inr h⟩
    · rintro ⟨q', rp', c', h | h⟩
      · exact Or.inl (Prod.mk.inj h).1
      · exact Or.inr ⟨q', rp', c', h⟩
theorem NForest.inner_iff : ∀ (F : NForest α) (q : Option ℕ) (a : ℕ), a ∈ F.inner ↔ ∃ q' rp ch, (a, Node.inner q' rp ch) ∈ F.entries q
  | .nil, _, _ => by simp [NForest.inner, NForest.entries]
  | .cons _ t rest, q, a => by
    simp only [NForest.inner, NForest.entries, List.mem_append, t.inner_iff q a, rest.inner_iff q a]
    constructor
    · rintro (⟨q', rp', c', h⟩ | ⟨q', rp', c', h⟩)
      · exact ⟨q', rp', c', Or.inl h⟩
      · exact ⟨q', rp', c', Or.inr h⟩
    · rintro ⟨q', rp', c', h | h⟩
      · exact Or.inl ⟨q', rp', c', h⟩
      · exact Or.inr ⟨q', rp', c', h⟩
end

/-! ### A new last child -/

theorem NForest.kids_snoc (d : ℤ) (s : NTree α) : ∀ (F : NForest α), (F.snoc d s).kids = F.kids ++ [(s.id, d)]
  | .nil => rfl
  | .cons e t rest => by simp [NForest.snoc, NForest.kids, rest.kids_snoc]

theorem NForest.entries_snoc (d : ℤ) (s : NTree α) (q : Option ℕ) : ∀ (F : NForest α), (F.snoc d s).entries q = F.entries q ++ s.entries q
  | .nil => by simp [NForest.snoc, NForest.entries]
  | .cons e t rest => by simp [NForest.snoc, NForest.entries, rest.entries_snoc]

theorem NForest.ids_snoc (d : ℤ) (s : NTree α) : ∀ (F : NForest α), (F.snoc d s).ids = F.ids ++ s.ids
  | .nil => by simp [NForest.snoc, NForest.ids]
  | .cons e t rest => by simp [NForest.snoc, NForest.ids, rest.ids_snoc]

mutual
theorem NTree.addLast_not (a : ℕ) (d : ℤ) (s : NTree α) : ∀ (t : NTree α), a ∉ t.inner → t.addLast a d s = t
  | .leaf _ _, _ => rfl
  | .node id rp ch, h => by
    simp only [NTree.inner, List.mem_cons, not_or] at h
    simp only [NTree.addLast, if_neg (fun e : id = a => h.1 e.symm), ch.addLast_not a d s h.2]
theorem NForest.addLast_not (a : ℕ) (d : ℤ) (s : NTree α) : ∀ (F : NForest α), a ∉ F.inner → F.addLast a d s = F
  | .nil, _ => rfl
  | .cons e t rest, h => by
    simp only [NForest.inner, List.mem_append, not_or] at h
    simp only [NForest.addLast, NTree.addLast_not a d s t h.1, rest.addLast_not a d s h.2]
end

theorem NTree.addLast_id (a : ℕ) (d : ℤ) (s : NTree α) : ∀ (t : NTree α), (t.addLast a d s).id = t.id
  | .leaf _ _ => rfl
  | .node id rp ch => by
    simp only [NTree.addLast]
    split <;> rfl

theorem NForest.addLast_kids (a : ℕ) (d : ℤ) (s : NTree α) : ∀ (F : NForest α), (F.addLast a d s).kids = F.kids
  | .nil => rfl
  | .cons e t rest => by simp [NForest.addLast, NForest.kids, NTree.addLast_id, rest.addLast_kids]

mutual
theorem NTree.addLast_perm (a : ℕ) (d : ℤ) (s : NTree α) : ∀ (t : NTree α), t.ids.Nodup → a ∈ t.inner → ((t.addLast a d s).ids).Perm (t.ids ++ s.ids)
  | .leaf _ _, _, h => by simp [NTree.inner] at h
  | .node id rp ch, hn, h => by
    simp only [NTree.ids, List.nodup_cons] at hn
    simp only [NTree.addLast]
    by_cases he : id = a
    · simp only [he, if_true, NTree.ids, NForest.ids_snoc]
      exact List.Perm.refl _
    · simp only [he, if_false, NTree.ids]
      simp only [NTree.inner, List.mem_cons] at h
      have h' : a ∈ ch.inner := h.resolve_left (fun e => he e.symm)
      exact (NForest.addLast_perm a d s ch hn.2 h').cons id
theorem NForest.addLast_perm (a : ℕ) (d : ℤ) (s : NTree α) : ∀ (F : NForest α), F.ids.Nodup → a ∈ F.inner → ((F.addLast a d s).ids).Perm (F.ids ++ s.ids)
  | .nil, _, h => by simp [NForest.inner] at h
  | .cons e t rest, hn, h => by
    simp only [NForest.ids, List.nodup_append] at hn
    simp only [NForest.inner, List.mem_append] at h
    simp only [NForest.addLast, NForest.ids]
    rcases h with h | h
    · have hr : a ∉ rest.inner := fun hr => hn.2.2 a (t.inner_ids h) a (rest.inner_ids hr) rfl
      rw [rest.addLast_not a d s hr, List.append_assoc]
      refine ((NTree.addLast_perm a d s t hn.1 h).append_right rest.ids).trans ?_
      rw [List.append_assoc]
      exact (List.perm_append_comm).append_left t.ids
    · have hr : a ∉ t.inner := fun hr => hn.2.2 a (t.inner_ids hr) a (rest.inner_ids h) rfl
      rw [NTree.addLast_not a d s t hr, List.append_assoc]
      exact (NForest.addLast_perm a d s rest hn.2.1 h).append_left t.ids
end

mutual
theorem NTree.mem_addLast (a : ℕ) (d : ℤ) (s : NTree α) (x : ℕ × Node α) : ∀ (t : NTree α) (q : Option ℕ), t.ids.Nodup → a ∈ t.inner →
    (x ∈ (t.addLast a d s).entries q ↔ (x ∈ t.entries q ∧ x.1 ≠ a) ∨ (∃ q' rp ch, (a, Node.inner q' rp ch) ∈ t.entries q ∧ x = (a, .inner q' rp (ch ++ [(s.id, d)]))) ∨ x ∈ s.entries (some a))
  | .leaf _ _, _, _, h => by simp [NTree.inner] at h
  | .node id rp ch, q, hn, h => by
    simp only [NTree.ids, List.nodup_cons] at hn
    simp only [NTree.addLast]
    by_cases he : id = a
    · subst he
      simp only [if_true, NTree.entries, NForest.entries_snoc, NForest.kids_snoc, List.mem_cons, List.mem_append]
      constructor
      · rintro (e | e | e)
        · exact Or.inr (Or.inl ⟨q, rp, ch.kids, Or.inl rfl, e⟩)
        · exact Or.inl ⟨Or.inr e, fun hx => hn.1 (hx ▸ NForest.mem_ids e)⟩
        · exact Or.inr (Or.inr e)
      · rintro (⟨e | e, n⟩ | ⟨q', rp', ch', e | e, hx⟩ | e)
        · subst e; exact absurd rfl n
        · exact Or.inr (Or.inl e)
        · left
          simp only [Prod.mk.injEq, Node.inner.injEq, true_and] at e
          obtain ⟨e1, e2, e3⟩ := e
          rw [hx, e1, e2, e3]
        · exact absurd (NForest.mem_ids e) hn.1
        · exact Or.inr (Or.inr e)
    · have he' : ¬ a = id := fun e => he e.symm
      simp only [NTree.inner, List.mem_cons, he', false_or] at h
      simp only [he, if_false, NTree.entries, NForest.addLast_kids, List.mem_cons, NForest.mem_addLast a d s x ch (some id) hn.2 h]
      constructor
      · rintro (e | ⟨e, n⟩ | ⟨q', rp', ch', e, hx⟩ | e)
        · subst e; exact Or.inl ⟨Or.inl rfl, he⟩
        · exact Or.inl ⟨Or.inr e, n⟩
        · exact Or.inr (Or.inl ⟨q', rp', ch', Or.inr e, hx⟩)
        · exact Or.inr (Or.inr e)
      · rintro (⟨e | e, n⟩ | ⟨q', rp', ch', e | e, hx⟩ | e)
        · exact Or.inl e
        · exact Or.inr (Or.inl ⟨e, n⟩)
        · exact absurd (Prod.mk.inj e).1 he'
        · exact Or.inr (Or.inr (Or.inl ⟨q', rp', ch', e, hx⟩))
        · exact Or.inr (Or.inr (Or.inr e))
theorem NForest.mem_addLast (a : ℕ) (d : ℤ) (s : NTree α) (x : ℕ × Node α) : ∀ (F : NForest α) (q : Option ℕ), F.ids.Nodup → a ∈ F.inner →
    (x ∈ (F.addLast a d s).entries q ↔ (x ∈ F.entries q ∧ x.1 ≠ a) ∨ (∃ q' rp ch, (a, Node.inner q' rp ch) ∈ F.entries q ∧ x = (a, .inner q' rp (ch ++ [(s.id, d)]))) ∨ x ∈ s.entries (some a))
  | .nil, _, _, h => by simp [NForest.inner] at h
  | .cons e t rest, q, hn, h => by
    simp only [NForest.ids, List.nodup_append] at hn
    simp only [NForest.inner, List.mem_append] at h
    simp only [NForest.addLast, NForest.entries, List.mem_append]
    rcases h with h | h
    · have ha := t.inner_ids h
      have hr : a ∉ rest.ids := fun hr => hn.2.2 a ha a hr rfl
      rw [rest.addLast_not a d s (fun hr' => hr (rest.inner_ids hr')), NTree.mem_addLast a d s x t q hn.1 h]
      constructor
      · rintro ((⟨e, n⟩ | ⟨q', rp', ch', e, hx⟩ | e) | e)
        · exact Or.inl ⟨Or.inl e, n⟩
        · exact Or.inr (Or.inl ⟨q', rp', ch', Or.inl e, hx⟩)
        · exact Or.inr (Or.inr e)
        · exact Or.inl ⟨Or.inr e, fun hx => hr (hx ▸ NForest.mem_ids e)⟩
      · rintro (⟨e | e, n⟩ | ⟨q', rp', ch', e | e, hx⟩ | e)
        · exact Or.inl (Or.inl ⟨e, n⟩)
        · exact Or.inr e
        · exact Or.inl (Or.inr (Or.inl ⟨q', rp', ch', e, hx⟩))
        · exact absurd (NForest.mem_ids e) hr
        · exact Or.inl (Or.inr (Or.inr e))
    · have ha := rest.inner_ids h
      have hr : a ∉ t.ids := fun hr => hn.2.2 a hr a ha rfl
      rw [NTree.addLast_not a d s t (fun hr' => hr (t.inner_ids hr')), NForest.mem_addLast a d s x rest q hn.2.1 h]
      constructor
      · rintro (e | ⟨e, n⟩ | ⟨q', rp', ch', e, hx⟩ | e)
        · exact Or.inl ⟨Or.inl e, fun hx => hr (hx ▸ NTree.mem_ids e)⟩
        · exact Or.inl ⟨Or.inr e, n⟩
        · exact Or.inr (Or.inl ⟨q', rp', ch', Or.inr e, hx⟩)
        · exact Or.inr (Or.inr e)
      · rintro (⟨e | e, n⟩ | ⟨q', rp', ch', e | e, hx⟩ | e)
        · exact Or.inl e
        · exact Or.inr (Or.inl ⟨e, n⟩)
        · exact absurd (NTree.mem_ids e) hr
        · exact Or.inr (Or.inr (Or.inl ⟨q', rp', ch', e, hx⟩))
        · exact Or.inr (Or.inr (Or.inr e))
end

/-! ### Parents -/

/-- The entry of the root. -/
def NTree.rootNode (q : Option ℕ) : NTree α → Node α
  | .leaf _ ev => .leaf q ev
  | .node _ rp ch => .inner q rp ch.kids

/-- The other entries. -/
def NTree.others : NTree α → List (ℕ × Node α)
  | .leaf _ _ => []
  | .node id _ ch => ch.entries (some id)

theorem NTree.entries_eq (t : NTree α) (q : Option ℕ) : t.entries q = (t.id, t.rootNode q) :: t.others := by
  cases t <;> simp [NTree.entries, NTree.id, NTree.rootNode, NTree.others]

theorem NTree.rootNode_setParent (t : NTree α) (q q' : Option ℕ) : (t.rootNode q).setParent q' = t.rootNode q' := by
  cases t <;> rfl

theorem NTree.others_ids {t : NTree α} (hn : t.ids.Nodup) {x : ℕ × Node α} (h : x ∈ t.others) : x.1 ≠ t.id := by
  cases t with
  | leaf id ev => simp [NTree.others] at h
  | node id rp ch =>
    simp only [NTree.ids, List.nodup_cons] at hn
    intro e
    exact hn.1 (by have := NForest.mem_ids h; rwa [e] at this)

/-- Changing the parent of a tree. -/
theorem NTree.mem_reparent {t : NTree α} (hn : t.ids.Nodup) (q q' : Option ℕ) (x : ℕ × Node α) :
    x ∈ t.entries q' ↔ (x ∈ t.entries q ∧ x.1 ≠ t.id) ∨ (x.1 = t.id ∧ ∃ v, (x.1, v) ∈ t.entries q ∧ x.2 = v.setParent q') := by
  simp only [t.entries_eq, List.mem_cons]
  constructor
  · rintro (e | e)
    · right
      subst e
      exact ⟨rfl, t.rootNode q, Or.inl rfl, (t.rootNode_setParent q q').symm⟩
    · exact Or.inl ⟨Or.inr e, NTree.others_ids hn e⟩
  · rintro (⟨e | e, n⟩ | ⟨e, v, (h | h), hv⟩)
    · subst e; exact absurd rfl n
    · exact Or.inr e
    · left
      have := (Prod.mk.inj h).2
      rw [this, t.rootNode_setParent] at hv
      exact Prod.ext e hv
    · exact absurd e (NTree.others_ids (x := (x.1, v)) hn h)

theorem NForest.kids_ids (F : NForest α) (c : ℕ) : c ∈ F.kids.map Prod.fst → c ∈ F.ids := by
  intro h
  obtain ⟨x, hx, rfl⟩ := List.mem_map.mp h
  exact F.kids_mem hx

/-- Changing the parent of the children. -/
theorem NForest.mem_reparent (q q' : Option ℕ) (x : ℕ × Node α) : ∀ (F : NForest α), F.ids.Nodup →
    (x ∈ F.entries q' ↔ (x ∈ F.entries q ∧ x.1 ∉ F.kids.map Prod.fst) ∨ (x.1 ∈ F.kids.map Prod.fst ∧ ∃ v, (x.1, v) ∈ F.entries q ∧ x.2 = v.setParent q'))
  | .nil, _ => by simp [NForest.entries, NForest.kids]
  | .cons d t rest, hn => by
    simp only [NForest.ids, List.nodup_append] at hn
    simp only [NForest.entries, NForest.kids, List.map_cons, List.mem_cons, List.mem_append, not_or]
    rw [t.mem_reparent hn.1 q q' x, rest.mem_reparent q q' x hn.2.1]
    have dis : ∀ {y z : ℕ}, y ∈ t.ids → z ∈ rest.ids → y ≠ z := fun hy hz => hn.2.2 _ hy _ hz
    constructor
    · rintro ((⟨e, n⟩ | ⟨e, v, hv, hx⟩) | (⟨e, n⟩ | ⟨e, v, hv, hx⟩))
      · exact Or.inl ⟨Or.inl e, n, fun hk => dis (NTree.mem_ids e) (rest.kids_ids _ hk) rfl⟩
      · exact Or.inr ⟨Or.inl e, v, Or.inl hv, hx⟩
      · exact Or.inl ⟨Or.inr e, fun hk => dis t.id_mem (hk ▸ NForest.mem_ids e) rfl, n⟩
      · exact Or.inr ⟨Or.inr e, v, Or.inr hv, hx⟩
    · rintro (⟨e | e, n, n'⟩ | ⟨e | e, v, (hv | hv), hx⟩)
      · exact Or.inl (Or.inl ⟨e, n⟩)
      · exact Or.inr (Or.inl ⟨e, n'⟩)
      · exact Or.inl (Or.inr ⟨e, v, hv, hx⟩)
      · exact absurd rfl (dis (e ▸ t.id_mem) (NForest.mem_ids (x := (x.1, v)) hv))
      · exact absurd rfl (dis (NTree.mem_ids (x := (x.1, v)) hv) (rest.kids_ids _ e))
      · exact Or.inr (Or.inr ⟨e, v, hv, hx⟩)

/-! ### Other numbers -/

mutual
theorem NTree.rename_ids (f : ℕ → ℕ) : ∀ (t : NTree α), (t.rename f).ids = t.ids.map f
  | .leaf _ _ => rfl
  | .node _ _ ch => by simp [NTree.rename, NTree.ids, ch.rename_ids]
theorem NForest.rename_ids (f : ℕ → ℕ) : ∀ (F : NForest α), (F.rename f).ids = F.ids.map f
  | .nil => rfl
  | .cons _ t rest => by simp [NForest.rename, NForest.ids, t.rename_ids, rest.rename_ids]
end

theorem NTree.rename_id (f : ℕ → ℕ) (t : NTree α) : (t.rename f).id = f t.id := by cases t <;> rfl

theorem NForest.rename_kids (f : ℕ → ℕ) : ∀ (F : NForest α), (F.rename f).kids = F.kids.map (fun c => (f c.1, c.2))
  | .nil => rfl
  | .cons _ t rest => by simp [NForest.rename, NForest.kids, NTree.rename_id, rest.rename_kids]

mutual
theorem NTree.rename_entries (f : ℕ → ℕ) : ∀ (t : NTree α) (q : Option ℕ), (t.rename f).entries (q.map f) = (t.entries q).map (fun x => (f x.1, renameNode f x.2))
  | .leaf _ _, _ => rfl
  | .node id rp ch, q => by
    have := ch.rename_entries f (some id)
    simp only [Option.map_some] at this
    simp [NTree.rename, NTree.entries, this, renameNode, NForest.rename_kids]
theorem NForest.rename_entries (f : ℕ → ℕ) : ∀ (F : NForest α) (q : Option ℕ), (F.rename f).entries (q.map f) = (F.entries q).map (fun x => (f x.1, renameNode f x.2))
  | .nil, _ => rfl
  | .cons _ t rest, q => by simp [NForest.rename, NForest.entries, t.rename_entries f q, rest.rename_entries f q]
end

mutual
theorem NTree.rename_plain (f : ℕ → ℕ) : ∀ (t : NTree α), (t.rename f).plain = t.plain
  | .leaf _ _ => rfl
  | .node _ none _ => rfl
  | .node _ (some rp) ch => by simp [NTree.rename, NTree.plain, ch.rename_plain]
theorem NForest.rename_plain (f : ℕ → ℕ) : ∀ (F : NForest α), (F.rename f).plain = F.plain
  | .nil => rfl
  | .cons _ t rest => by simp [NForest.rename, NForest.plain, t.rename_plain, rest.rename_plain]
end

end Verif.Nodes
