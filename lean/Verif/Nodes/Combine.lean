import Verif.Nodes.BuildLemmas
import Verif.Concat.Model
import Verif.Nest.Model

/-!
# The dictionaries of combined candidates (C94): lemmas
-/

set_option autoImplicit false
set_option linter.unusedSectionVars false

namespace Verif.Nodes

open Verif.PTree

variable {α : Type}

/-- The node 0 comes first in the dictionary. -/
def RootFirst (d : NodeDict α) : Prop := (d.map Prod.fst).head? = some 0

/-- The candidate has the given children under its root: a cycle of one event, or a pattern whose dictionary describes a tree, with the node 0 first. -/
def Source.Has : Source α → Forest α → Prop
  | .simple ev, F => F = .cons 0 (.leaf ev) .nil
  | .pattern d, F => RootFirst d ∧ ∃ rp ch, Describes d (.node 0 rp ch) ∧ ch.plain = some F

theorem put_head (d : NodeDict α) (k : ℕ) (v : Node α) (a : ℕ) (h : (d.map Prod.fst).head? = some a) : ((put d k v).map Prod.fst).head? = some a := by
  rw [keys_put]
  split
  · exact h
  · cases d with
    | nil => simp at h
    | cons y d => simpa using h

theorem RootFirst.put {d : NodeDict α} (h : RootFirst d) (k : ℕ) (v : Node α) : RootFirst (put d k v) := put_head d k v 0 h

theorem RootFirst.update {d : NodeDict α} (h : RootFirst d) (e : NodeDict α) : RootFirst (update d e) := by
  unfold Nodes.update
  induction e generalizing d with
  | nil => exact h
  | cons x e ih => exact ih (h.put _ _)

/-- The root of a dictionary in which it comes first gets the first number. -/
theorem getNid_first {d : NodeDict α} (h : RootFirst d) (o : ℕ) : getNid (nidMap d o) 0 = o := by
  cases d with
  | nil => simp [RootFirst] at h
  | cons y d =>
    obtain ⟨k, v⟩ := y
    simp only [RootFirst, List.map_cons, List.head?_cons, Option.some.injEq] at h
    subst h
    simp [nidMap_cons, getNid]

/-- What a candidate brings to a combination: its root is taken out, the other nodes have numbers after `o`. -/
theorem Source.split_spec {s : Source α} {F : Forest α} (h : s.Has F) (o : ℕ) :
    ∃ (nodes : NodeDict α) (n : ℕ) (G : NForest α), s.split o = .ok (nodes, o + n + 1, G.kids) ∧ G.plain = some F ∧ Keyed nodes ∧ (∀ x, x ∈ nodes ↔ x ∈ G.entries (some o)) ∧ G.ids.Nodup ∧ ∀ k ∈ G.ids, o < k ∧ k ≤ o + n := by
  cases s with
  | simple ev =>
    simp only [Source.Has] at h
    subst h
    refine ⟨[(o + 1, .leaf (some o) ev)], 1, .cons 0 (.leaf (o + 1) ev) .nil, ?_, rfl, ?_, ?_, ?_, ?_⟩
    · simp [Source.split, Source.translated, Except.bind, Node.children, Except.map, dropKey, NForest.kids, NTree.id]
    · simp [Keyed]
    · intro x; simp [NForest.entries, NTree.entries]
    · simp [NForest.ids, NTree.ids]
    · intro k hk
      simp only [NForest.ids, NTree.ids, List.append_nil, List.mem_singleton] at hk
      omega
  | pattern d =>
    obtain ⟨hr, rp, ch, hd, hF⟩ := h
    obtain ⟨f, hf⟩ : ∃ f, f = getNid (nidMap d o) := ⟨_, rfl⟩
    have h0 := getNid_range d o 0 ((hd.mem_keys 0).mpr (NTree.inner_ids _ hd.zero_inner))
    have hg := getNid_first hr o
    rw [hg] at h0
    have htk := (translated_spec hd.keys o).1
    have hnd := rename_nodup hd o
    have hrg := fun k hk => rename_range hd o (k := k) hk
    have hte := fun x => translated_describes hd o x
    rw [← hf] at hnd hg
    simp only [← hf] at hrg hte
    simp only [NTree.rename, NTree.entries, NTree.ids, hg, List.nodup_cons] at hnd hrg hte
    have hroot : (o, Node.inner none rp (ch.rename f).kids) ∈ Nodes.translated d o := (hte _).mpr (by simp)
    refine ⟨dropKey (Nodes.translated d o) o, d.length - 1, ch.rename f, ?_, by rw [NForest.rename_plain, hF], htk.dropKey o, ?_, hnd.2, ?_⟩
    · unfold Source.split Source.translated
      simp only [h0.2.2, Except.bind]
      rw [(lookup_some htk).mpr hroot]
      simp only [Node.children, Except.map]
      have : o + d.length = o + (d.length - 1) + 1 := by omega
      rw [this]
    · intro x
      rw [mem_dropKey, hte]
      simp only [List.mem_cons]
      constructor
      · rintro ⟨e | e, n⟩
        · subst e; exact absurd rfl n
        · exact e
      · intro e
        exact ⟨Or.inr e, fun e' => hnd.1 (e' ▸ NForest.mem_ids e)⟩
    · intro k hk
      have h1 := hrg k (List.mem_cons_of_mem _ hk)
      have h2 : k ≠ o := fun e => hnd.1 (e ▸ hk)
      omega

/-! ### Children -/

/-- Numbered children, one list after the other. -/
def NForest.append : NForest α → NForest α → NForest α
  | .nil, G => G
  | .cons d t rest, G => .cons d t (rest.append G)

theorem NForest.append_kids : ∀ (F G : NForest α), (F.append G).kids = F.kids ++ G.kids
  | .nil, _ => rfl
  | .cons _ _ rest, G => by simp [NForest.append, NForest.kids, rest.append_kids G]

theorem NForest.append_ids : ∀ (F G : NForest α), (F.append G).ids = F.ids ++ G.ids
  | .nil, _ => rfl
  | .cons _ _ rest, G => by simp [NForest.append, NForest.ids, rest.append_ids G]

theorem NForest.append_entries (q : Option ℕ) : ∀ (F G : NForest α), (F.append G).entries q = F.entries q ++ G.entries q
  | .nil, _ => rfl
  | .cons _ _ rest, G => by simp [NForest.append, NForest.entries, rest.append_entries q G]

theorem NForest.append_nil : ∀ (F : NForest α), F.append .nil = F
  | .nil => rfl
  | .cons _ _ rest => by simp [NForest.append, rest.append_nil]

theorem NForest.append_assoc : ∀ (F G H : NForest α), (F.append G).append H = F.append (G.append H)
  | .nil, _, _ => rfl
  | .cons _ _ rest, G, H => by simp [NForest.append, rest.append_assoc G H]

theorem NForest.append_plain : ∀ (F G : NForest α) (A B : Forest α), F.plain = some A → G.plain = some B → (F.append G).plain = some (Concat.append A B)
  | .nil, G, A, B, h, h' => by
    simp only [NForest.plain, Option.some.injEq] at h
    subst h
    simpa [NForest.append, Concat.append] using h'
  | .cons d t rest, G, A, B, h, h' => by
    simp only [NForest.plain, Option.bind_eq_some_iff, Option.map_eq_some_iff] at h
    obtain ⟨T, hT, R, hR, rfl⟩ := h
    simp [NForest.append, NForest.plain, hT, rest.append_plain G R B hR h', Concat.append]

/-- The children with another first distance. -/
def NForest.setFirst (d : ℤ) : NForest α → NForest α
  | .nil => .nil
  | .cons _ t rest => .cons d t rest

theorem NForest.setFirst_ids (d : ℤ) (F : NForest α) : (F.setFirst d).ids = F.ids := by cases F <;> rfl
theorem NForest.setFirst_entries (d : ℤ) (F : NForest α) (q : Option ℕ) : (F.setFirst d).entries q = F.entries q := by cases F <;> rfl
theorem NForest.setFirst_fst (d : ℤ) (F : NForest α) : (F.setFirst d).kids.map Prod.fst = F.kids.map Prod.fst := by cases F <;> rfl

/-- The distance to the previous candidate is set in the dictionary as in the tree. -/
theorem linkFirst_spec (prev : Option (List (List ℤ))) (bo : List (List ℤ)) (G : NForest α) {F : Forest α} (hF : G.plain = some F) (rest : List (Forest α × List (List ℤ))) :
    (∃ e, linkFirst prev bo G.kids = .error e ∧ Concat.concatCh ((F, bo) :: rest) prev = none) ∨
    ∃ (G' : NForest α) (F' : Forest α), linkFirst prev bo G.kids = .ok G'.kids ∧ G'.plain = some F' ∧ G'.ids = G.ids ∧ (∀ q, G'.entries q = G.entries q) ∧ G'.kids.map Prod.fst = G.kids.map Prod.fst ∧
      Concat.concatCh ((F, bo) :: rest) prev = (Concat.concatCh rest (some bo)).map (fun H => Concat.append F' H) := by
  cases prev with
  | none =>
    refine Or.inr ⟨G, F, rfl, hF, rfl, fun _ => rfl, rfl, ?_⟩
    simp only [Concat.concatCh]
    cases Concat.concatCh rest (some bo) <;> rfl
  | some bp =>
    simp only [linkFirst, Concat.concatCh]
    cases hb : bo.head?.bind List.head? with
    | none => exact Or.inl ⟨_, rfl, rfl⟩
    | some h =>
      cases hp : bp.head?.bind List.head? with
      | none => exact Or.inl ⟨_, rfl, rfl⟩
      | some h' =>
        cases G with
        | nil =>
          simp only [NForest.plain, Option.some.injEq] at hF
          subst hF
          exact Or.inl ⟨_, rfl, rfl⟩
        | cons e t r =>
          simp only [NForest.plain, Option.bind_eq_some_iff, Option.map_eq_some_iff] at hF
          obtain ⟨T, hT, R, hR, rfl⟩ := hF
          refine Or.inr ⟨.cons (h - h') t r, .cons (h - h') T R, rfl, by simp [NForest.plain, hT, hR], rfl, fun _ => rfl, rfl, ?_⟩
          simp only [Concat.setFirst]
          cases Concat.concatCh rest (some bo) <;> rfl

end Verif.Nodes
