import Verif.Nodes.FactModel
import Verif.Nodes.Combine

/-!
# Factorisation on dictionaries (C95): lemmas
-/

set_option autoImplicit false
set_option linter.unusedSectionVars false

namespace Verif.Nodes

open Verif.PTree

variable {α : Type}

/-! ### Subtrees -/

/-- A child. -/
def NForest.get? : NForest α → ℕ → Option (NTree α)
  | .nil, _ => none
  | .cons _ t _, 0 => some t
  | .cons _ _ rest, c + 1 => rest.get? c

/-- The children with one replaced. -/
def NForest.set (u : NTree α) : NForest α → ℕ → NForest α
  | .nil, _ => .nil
  | .cons d _ rest, 0 => .cons d u rest
  | .cons d t rest, c + 1 => .cons d t (rest.set u c)

/-- The subtree reached by the given child numbers. -/
def NTree.sub? : List ℕ → NTree α → Option (NTree α)
  | [], t => some t
  | _ :: _, .leaf _ _ => none
  | c :: k, .node _ _ ch => (ch.get? c).bind (fun u => NTree.sub? k u)

/-- The tree with the subtree reached by the given child numbers replaced. -/
def NTree.replace (s : NTree α) : List ℕ → NTree α → NTree α
  | [], _ => s
  | _ :: _, .leaf id ev => .leaf id ev
  | c :: k, .node id rp ch => match ch.get? c with
    | none => .node id rp ch
    | some u => .node id rp (ch.set (NTree.replace s k u) c)

theorem NForest.get_split : ∀ (F : NForest α) (c : ℕ) (u : NTree α) (q : Option ℕ), F.get? c = some u →
    ∃ A B, F.entries q = A ++ u.entries q ++ B ∧ ∀ u' : NTree α, u'.id = u.id → (F.set u' c).entries q = A ++ u'.entries q ++ B ∧ (F.set u' c).kids = F.kids
  | .nil, _, _, _, h => by simp [NForest.get?] at h
  | .cons d t rest, 0, u, q, h => by
    simp only [NForest.get?, Option.some.injEq] at h
    subst h
    exact ⟨[], rest.entries q, by simp [NForest.entries], fun u' hu => by simp [NForest.set, NForest.entries, NForest.kids, hu]⟩
  | .cons d t rest, c + 1, u, q, h => by
    simp only [NForest.get?] at h
    obtain ⟨A, B, h1, h2⟩ := rest.get_split c u q h
    exact ⟨t.entries q ++ A, B, by simp [NForest.entries, h1], fun u' hu => by simp [NForest.set, NForest.entries, NForest.kids, h2 u' hu]⟩

theorem NTree.replace_id (s s' : NTree α) (hs : s'.id = s.id) (k : List ℕ) (t : NTree α) (h : t.sub? k = some s) : (NTree.replace s' k t).id = t.id := by
  cases k with
  | nil =>
    simp only [NTree.sub?, Option.some.injEq] at h
    rw [h]; exact hs
  | cons c k =>
    cases t with
    | leaf id ev => rfl
    | node id rp ch =>
      simp only [NTree.replace]
      split <;> rfl

theorem NTree.sub_split (s : NTree α) : ∀ (k : List ℕ) (t : NTree α) (q : Option ℕ), t.sub? k = some s →
    ∃ A B q', t.entries q = A ++ s.entries q' ++ B ∧ ∀ s' : NTree α, s'.id = s.id → (NTree.replace s' k t).entries q = A ++ s'.entries q' ++ B
  | [], t, q, h => by
    simp only [NTree.sub?, Option.some.injEq] at h
    subst h
    exact ⟨[], [], q, by simp, fun s' _ => by simp [NTree.replace]⟩
  | c :: k, .leaf _ _, q, h => by simp [NTree.sub?] at h
  | c :: k, .node id rp ch, q, h => by
    simp only [NTree.sub?, Option.bind_eq_some_iff] at h
    obtain ⟨u, hu, hs⟩ := h
    obtain ⟨A, B, q', h1, h2⟩ := NTree.sub_split s k u (some id) hs
    obtain ⟨A', B', h3, h4⟩ := ch.get_split c u (some id) hu
    refine ⟨(id, .inner q rp ch.kids) :: (A' ++ A), B ++ B', q', by simp [NTree.entries, h3, h1], ?_⟩
    intro s' hs'
    have h5 := h4 (NTree.replace s' k u) (NTree.replace_id s s' hs' k u hs)
    simp only [NTree.replace, hu, NTree.entries, h5, h2 s' hs']
    simp

theorem NForest.get_plain : ∀ (F : NForest α) (c : ℕ) (u : NTree α) (G : Forest α), F.get? c = some u → F.plain = some G → ∃ U, u.plain = some U ∧ G.get? c = some U ∧
    ∀ (f : PTree.Tree α → Option (PTree.Tree α)) (u' : NTree α) (U' : PTree.Tree α), f U = some U' → u'.plain = some U' → ∃ G', G.modify? c f = some G' ∧ (F.set u' c).plain = some G'
  | .nil, _, _, _, h, _ => by simp [NForest.get?] at h
  | .cons d t rest, 0, u, G, h, hG => by
    simp only [NForest.get?, Option.some.injEq] at h
    subst h
    simp only [NForest.plain, Option.bind_eq_some_iff, Option.map_eq_some_iff] at hG
    obtain ⟨T, hT, R, hR, rfl⟩ := hG
    exact ⟨T, hT, rfl, fun f u' U' h1 h2 => ⟨.cons d U' R, by simp [Forest.modify?, h1], by simp [NForest.set, NForest.plain, h2, hR]⟩⟩
  | .cons d t rest, c + 1, u, G, h, hG => by
    simp only [NForest.get?] at h
    simp only [NForest.plain, Option.bind_eq_some_iff, Option.map_eq_some_iff] at hG
    obtain ⟨T, hT, R, hR, rfl⟩ := hG
    obtain ⟨U, h1, h2, h3⟩ := rest.get_plain c u R h hR
    refine ⟨U, h1, h2, fun f u' U' h4 h5 => ?_⟩
    obtain ⟨G', h6, h7⟩ := h3 f u' U' h4 h5
    exact ⟨.cons d T G', by simp [Forest.modify?, h6], by simp [NForest.set, NForest.plain, hT, h7]⟩

theorem NTree.replace_plain (s : NTree α) : ∀ (k : List ℕ) (t : NTree α) (T : PTree.Tree α), t.sub? k = some s → t.plain = some T → ∃ S, s.plain = some S ∧
    ∀ (s' : NTree α) (S' : PTree.Tree α), factorizeHere S = some S' → s'.plain = some S' → ∃ T', factorizeAt k T = some T' ∧ (NTree.replace s' k t).plain = some T'
  | [], t, T, h, hT => by
    simp only [NTree.sub?, Option.some.injEq] at h
    subst h
    exact ⟨T, hT, fun s' S' h1 h2 => ⟨S', h1, h2⟩⟩
  | c :: k, .leaf _ _, _, h, _ => by simp [NTree.sub?] at h
  | c :: k, .node id none ch, _, _, hT => by simp [NTree.plain] at hT
  | c :: k, .node id (some rp) ch, T, h, hT => by
    simp only [NTree.sub?, Option.bind_eq_some_iff] at h
    obtain ⟨u, hu, hs⟩ := h
    simp only [NTree.plain, Option.map_eq_some_iff] at hT
    obtain ⟨F, hF, rfl⟩ := hT
    obtain ⟨U, h1, _, h3⟩ := ch.get_plain c u F hu hF
    obtain ⟨S, h4, h5⟩ := NTree.replace_plain s k u U hs h1
    refine ⟨S, h4, fun s' S' h6 h7 => ?_⟩
    obtain ⟨U', h8, h9⟩ := h5 s' S' h6 h7
    obtain ⟨G', h10, h11⟩ := h3 (factorizeAt k) _ U' h8 h9
    exact ⟨.node rp.1 rp.2 G', by simp [factorizeAt, h10], by simp [NTree.replace, hu, NTree.plain, h11]⟩

/-- Replacing a subtree in a dictionary by one with some of its numbers. -/
theorem Describes.replace {ns : NodeDict α} {t s s' : NTree α} {k : List ℕ} (h : Describes ns t) (hs : t.sub? k = some s) (hid : s'.id = s.id) (hroot : ∃ id rp ch, s' = .node id rp ch)
    (hsub : ∀ i ∈ s'.ids, i ∈ s.ids) (hnd : s'.ids.Nodup) :
    ∃ q, (∀ x ∈ s.entries q, x ∈ ns) ∧ ∀ res, Keyed res → (∀ x, x ∈ res ↔ (x ∈ ns ∧ x.1 ∉ s.ids) ∨ x ∈ s'.entries q) → Describes res (NTree.replace s' k t) := by
  obtain ⟨A, B, q, h1, h2⟩ := NTree.sub_split s k t none hs
  have hids : t.ids = A.map Prod.fst ++ s.ids ++ B.map Prod.fst := by rw [← t.entries_keys none, h1]; simp [s.entries_keys q]
  have hn := h.ids
  rw [hids] at hn
  simp only [List.nodup_append, List.mem_append, List.append_assoc] at hn
  refine ⟨q, fun x hx => (h.same x).mpr (by rw [h1]; simp [hx]), fun res hk hm => ⟨hk, ?_, ?_, ?_⟩⟩
  · rw [← (NTree.replace s' k t).entries_keys none, h2 s' hid]
    simp only [List.map_append, s'.entries_keys q, List.nodup_append, List.mem_append, List.append_assoc]
    refine ⟨hn.1, ⟨hnd, hn.2.1.2.1, fun a ha b hb => hn.2.1.2.2 a (hsub a ha) b hb⟩, ?_⟩
    rintro a ha b (hb | hb)
    · exact hn.2.2 a ha b (Or.inl (hsub b hb))
    · exact hn.2.2 a ha b (Or.inr hb)
  · intro x
    rw [hm x, h2 s' hid, h.same x, h1]
    simp only [List.mem_append]
    constructor
    · rintro (⟨(e | e) | e, n⟩ | e)
      · exact Or.inl (Or.inl e)
      · exact absurd (NTree.mem_ids e) n
      · exact Or.inr e
      · exact Or.inl (Or.inr e)
    · rintro ((e | e) | e)
      · exact Or.inl ⟨Or.inl (Or.inl e), fun m => hn.2.2 x.1 (List.mem_map_of_mem e) x.1 (Or.inl m) rfl⟩
      · exact Or.inr e
      · exact Or.inl ⟨Or.inr e, fun m => hn.2.1.2.2 x.1 m x.1 (List.mem_map_of_mem e) rfl⟩
  · cases k with
    | nil =>
      obtain ⟨id, rp, ch, e⟩ := hroot
      simp only [NTree.sub?, Option.some.injEq] at hs
      have h0 := h.zero_id
      rw [hs, ← hid, e] at h0
      simp only [NTree.id] at h0
      subst h0
      exact ⟨rp, ch, e⟩
    | cons c k =>
      obtain ⟨rp, ch, e⟩ := h.root
      subst e
      simp only [NTree.replace]
      split
      · exact ⟨_, _, rfl⟩
      · exact ⟨_, _, rfl⟩

end Verif.Nodes
