import Verif.Nodes.BuildLemmas

/-!
# Building a pattern step by step (C93)
-/

set_option autoImplicit false
set_option linter.unusedSectionVars false

namespace Verif.Nodes

open Verif.PTree

variable {α β : Type}

/-- The pattern describes the tree and its next number is new. -/
structure PatObj.Is (P : PatObj α) (t : NTree α) : Prop where
  nodes : Describes P.nodes t
  fresh : ∀ k ∈ t.ids, k < P.nextId

/-- A new pattern has a root without children. -/
theorem empty_is : (PatObj.empty : PatObj α).Is (.node 0 none .nil) := by
  refine ⟨⟨by simp [PatObj.empty], by simp [NTree.ids, NForest.ids], ?_, none, .nil, rfl⟩, ?_⟩
  · intro x; simp [PatObj.empty, NTree.entries, NForest.entries, NForest.kids]
  · intro k hk; simp [NTree.ids, NForest.ids] at hk; simp [PatObj.empty, hk]

/-- The pattern of an event cycle. -/
theorem cycle_is (ev : α) (r : ℕ) (p : ℤ) : (PatObj.cycle ev r p).Is (.node 0 (some (r, p)) (.cons 0 (.leaf 1 ev) .nil)) := by
  refine ⟨⟨by simp [PatObj.cycle], by simp [NTree.ids, NForest.ids], ?_, some (r, p), _, rfl⟩, ?_⟩
  · intro x
    simp only [PatObj.cycle, NTree.entries, NForest.entries, NForest.kids, NTree.id, List.mem_cons, List.not_mem_nil, or_false, List.append_nil]
    exact or_comm
  · intro k hk
    simp only [NTree.ids, NForest.ids, List.append_nil, List.mem_cons, List.not_mem_nil, or_false] at hk
    simp only [PatObj.cycle]
    omega

theorem foldl_max_le (l : List ℕ) : ∀ (m : ℕ), m ≤ l.foldl max m ∧ ∀ k ∈ l, k ≤ l.foldl max m := by
  induction l with
  | nil => intro m; simp
  | cons a l ih =>
    intro m
    obtain ⟨h1, h2⟩ := ih (max m a)
    simp only [List.foldl_cons]
    refine ⟨by omega, ?_⟩
    intro k hk
    rcases List.mem_cons.mp hk with e | e
    · subst e; omega
    · exact h2 k e

/-- A pattern made from a dictionary. -/
theorem ofDict_is {d : NodeDict α} {t : NTree α} (h : Describes d t) : ∃ P, PatObj.ofDict d = .ok P ∧ P.nodes = d ∧ P.Is t := by
  have hne : d ≠ [] := by
    intro e
    have := (h.mem_keys 0).mpr (t.inner_ids h.zero_inner)
    simp [e] at this
  refine ⟨_, by unfold PatObj.ofDict; rw [if_neg hne], rfl, ⟨h, ?_⟩⟩
  intro k hk
  have := (foldl_max_le (d.map Prod.fst) 0).2 k ((h.mem_keys k).mpr hk)
  exact Nat.lt_succ_of_le this

/-- Appending an event adds a leaf with a new number as last child of the anchor, of the root when the anchor is not an inner node. -/
theorem append_is {P : PatObj α} {t : NTree α} (h : P.Is t) (ev : α) (d : ℤ) (a : ℕ) :
    ∃ P', append P ev d a = .ok P' ∧ P'.Is (t.addLast (if a ∈ t.inner then a else 0) d (.leaf P.nextId ev)) := by
  obtain ⟨h1, h2⟩ := h.nodes.anchor a
  obtain ⟨b, hb⟩ : ∃ b, b = anchorOf P.nodes a := ⟨_, rfl⟩
  rw [← h1, ← hb]
  rw [← hb] at h2
  have hnk : P.nextId ∉ t.ids := fun hk => Nat.lt_irrefl _ (h.fresh _ hk)
  have hbne : b ≠ P.nextId := fun e => hnk (e ▸ t.inner_ids h2)
  have hkk : Keyed P.nodes := h.nodes.keys
  obtain ⟨q, rp, ch, hin⟩ := (t.inner_iff none b).mp h2
  have hin' := (h.nodes.same _).mpr hin
  have hk1 : Keyed (put P.nodes P.nextId (.leaf (some b) ev)) := hkk.put _ _
  have hm1 : (b, Node.inner q rp ch) ∈ put P.nodes P.nextId (.leaf (some b) ev) := (mem_put hkk _ _ _).mpr (Or.inr ⟨hin', hbne⟩)
  have hmod := modifyKey_ok (f := Node.extend [(P.nextId, d)]) hk1 hm1 rfl
  refine ⟨⟨put (put P.nodes P.nextId (.leaf (some b) ev)) b (.inner q rp (ch ++ [(P.nextId, d)])), P.nextId + 1⟩, ?_, ?_, ?_⟩
  · unfold append
    rw [← hb, hmod]; rfl
  · refine h.nodes.add h2 (by simp [NTree.ids]) ?_ (hk1.put _ _) ?_
    · intro k hk
      simp only [NTree.ids, List.mem_singleton] at hk
      exact hk ▸ hnk
    · intro x
      rw [mem_put hk1, mem_put hkk]
      simp only [NTree.id, NTree.entries, List.mem_singleton]
      constructor
      · rintro (e | ⟨e | ⟨e, n⟩, n'⟩)
        · exact Or.inr (Or.inl ⟨q, rp, ch, hin', e⟩)
        · exact Or.inr (Or.inr e)
        · exact Or.inl ⟨e, n'⟩
      · rintro (⟨e, n⟩ | ⟨q', rp', ch', e, hx⟩ | e)
        · refine Or.inr ⟨Or.inr ⟨e, ?_⟩, n⟩
          intro e'
          exact hnk (e' ▸ (h.nodes.mem_keys x.1).mp (List.mem_map_of_mem e))
        · left
          have := hkk.unique e hin'
          simp only [Node.inner.injEq] at this
          rw [hx, this.1, this.2.1, this.2.2]
        · refine Or.inr ⟨Or.inl e, ?_⟩
          rw [e]; exact fun e' => hbne e'.symm
  · intro k hk
    rw [(NTree.addLast_perm b d _ t h.nodes.ids h2).mem_iff] at hk
    simp only [List.mem_append, NTree.ids, List.mem_singleton] at hk
    rcases hk with hk | hk
    · exact Nat.lt_succ_of_lt (h.fresh k hk)
    · exact hk ▸ Nat.lt_succ_self _

/-- Merging a pattern adds its tree, with new numbers, as last child of the anchor, of the root when the anchor is not an inner node. -/
theorem merge_is {P Q : PatObj α} {t u : NTree α} (h : P.Is t) (hQ : Describes Q.nodes u) (d : ℤ) (a : ℕ) :
    ∃ P' f, merge P Q d a = .ok P' ∧ P'.Is (t.addLast (if a ∈ t.inner then a else 0) d (u.rename f)) := by
  obtain ⟨h1, h2⟩ := h.nodes.anchor a
  obtain ⟨b, hb⟩ : ∃ b, b = anchorOf P.nodes a := ⟨_, rfl⟩
  rw [← h1, ← hb]
  rw [← hb] at h2
  obtain ⟨f, hf⟩ : ∃ f, f = getNid (nidMap Q.nodes P.nextId) := ⟨_, rfl⟩
  have hkk : Keyed P.nodes := h.nodes.keys
  have h0 := getNid_range Q.nodes P.nextId 0 ((hQ.mem_keys 0).mpr (u.inner_ids hQ.zero_inner))
  rw [← hf] at h0
  have htk := (translated_spec hQ.keys P.nextId).1
  have hnd := rename_nodup hQ P.nextId
  have hrg := fun k hk => rename_range hQ P.nextId (k := k) hk
  have hte := fun x => translated_describes hQ P.nextId x
  rw [← hf] at hnd
  simp only [← hf] at hrg hte
  have hid : (u.rename f).id = f 0 := by rw [NTree.rename_id, hQ.zero_id]
  obtain ⟨v, hv⟩ : ∃ v, (f 0, v) ∈ translated Q.nodes P.nextId := by
    refine ⟨(u.rename f).rootNode none, (hte _).mpr ?_⟩
    rw [NTree.entries_eq, hid]; simp
  have hmod1 := modifyKey_ok (f := fun v => .ok (v.setParent (some b))) htk hv rfl
  obtain ⟨q, rp, ch, hin⟩ := (t.inner_iff none b).mp h2
  have hin' := (h.nodes.same _).mpr hin
  have hmod2 := modifyKey_ok (f := Node.extend [(f 0, d)]) hkk hin' rfl
  have hk2 : Keyed (put P.nodes b (.inner q rp (ch ++ [(f 0, d)]))) := hkk.put _ _
  have hk1 : Keyed (put (translated Q.nodes P.nextId) (f 0) (v.setParent (some b))) := htk.put _ _
  obtain ⟨hu1, hu2⟩ := update_spec hk2 _ hk1
  have hkeys : ∀ k, k ∈ (put (translated Q.nodes P.nextId) (f 0) (v.setParent (some b))).map Prod.fst → P.nextId ≤ k := by
    intro k hk
    rcases (mem_keys_put _ _ _).mp hk with e | e
    · subst e; exact h0.1
    · obtain ⟨w, hw⟩ := mem_keys.mp e
      exact (hrg k (NTree.mem_ids ((hte _).mp hw))).1
  have hent : ∀ x, x ∈ put (translated Q.nodes P.nextId) (f 0) (v.setParent (some b)) ↔ x ∈ (u.rename f).entries (some b) := by
    intro x
    rw [mem_put htk, NTree.mem_reparent hnd none (some b) x, hid]
    simp only [← hte]
    constructor
    · rintro (e | ⟨e, n⟩)
      · subst e; exact Or.inr ⟨rfl, v, hv, rfl⟩
      · exact Or.inl ⟨e, n⟩
    · rintro (⟨e, n⟩ | ⟨e, w, hw, hx⟩)
      · exact Or.inr ⟨e, n⟩
      · left
        have : w = v := htk.unique hw (e ▸ hv)
        exact Prod.ext e (by rw [hx, this])
  refine ⟨⟨update (put P.nodes b (.inner q rp (ch ++ [(f 0, d)]))) (put (translated Q.nodes P.nextId) (f 0) (v.setParent (some b))), P.nextId + Q.nodes.length⟩, f, ?_, ?_, ?_⟩
  · unfold merge
    rw [h0.2.2]
    simp only [← hb]
    rw [hmod1]
    simp only [Except.bind]
    rw [hmod2]
    rfl
  · refine h.nodes.add h2 hnd ?_ hu1 ?_
    · intro k hk hk'
      have := (hrg k hk).1
      have := h.fresh k hk'
      omega
    · intro x
      rw [hu2 x, hent x, mem_put hkk, hid]
      constructor
      · rintro (e | ⟨e | ⟨e, n⟩, n'⟩)
        · exact Or.inr (Or.inr e)
        · exact Or.inr (Or.inl ⟨q, rp, ch, hin', e⟩)
        · exact Or.inl ⟨e, n⟩
      · have old : ∀ k, k ∈ t.ids → k ∉ (put (translated Q.nodes P.nextId) (f 0) (v.setParent (some b))).map Prod.fst := by
          intro k hk hk'
          have := hkeys k hk'
          have := h.fresh k hk
          omega
        rintro (⟨e, n⟩ | ⟨q', rp', ch', e, hx⟩ | e)
        · exact Or.inr ⟨Or.inr ⟨e, n⟩, old _ ((h.nodes.mem_keys x.1).mp (List.mem_map_of_mem e))⟩
        · right
          have := hkk.unique e hin'
          simp only [Node.inner.injEq] at this
          rw [hx, this.1, this.2.1, this.2.2]
          exact ⟨Or.inl rfl, old _ (t.inner_ids h2)⟩
        · exact Or.inl e
  · intro k hk
    rw [(NTree.addLast_perm b d _ t h.nodes.ids h2).mem_iff, List.mem_append] at hk
    rcases hk with hk | hk
    · have := h.fresh k hk
      simp only; omega
    · exact (hrg k hk).2

/-- The first `repeat` sets the repetitions and the period of the root. -/
theorem repeat_first {P : PatObj α} {ch : NForest α} (h : P.Is (.node 0 none ch)) (r : ℕ) (p : ℤ) :
    ∃ P', repeatPat P r p = .ok P' ∧ P'.Is (.node 0 (some (r, p)) ch) := by
  have hkk : Keyed P.nodes := h.nodes.keys
  have h0 : (0, Node.inner none none ch.kids) ∈ P.nodes := (h.nodes.same _).mpr (by simp [NTree.entries])
  refine ⟨⟨put P.nodes 0 (.inner none (some (r, p)) ch.kids), P.nextId⟩, ?_, ⟨hkk.put _ _, h.nodes.ids, ?_, some (r, p), ch, rfl⟩, h.fresh⟩
  · unfold repeatPat
    rw [(lookup_some hkk).mpr h0]
  · intro x
    rw [mem_put hkk]
    have hn := h.nodes.ids
    simp only [NTree.ids, List.nodup_cons] at hn
    simp only [h.nodes.same, NTree.entries, List.mem_cons]
    constructor
    · rintro (e | ⟨e | e, n⟩)
      · exact Or.inl e
      · subst e; exact absurd rfl n
      · exact Or.inr e
    · rintro (e | e)
      · exact Or.inl e
      · exact Or.inr ⟨Or.inr e, fun e' => hn.1 (e' ▸ NForest.mem_ids e)⟩

/-- A later `repeat` puts the whole tree under a new root, at distance 0; the old root gets a new number. -/
theorem repeat_again {P : PatObj α} {rp : ℕ × ℤ} {ch : NForest α} (h : P.Is (.node 0 (some rp) ch)) (r : ℕ) (p : ℤ) :
    ∃ P', repeatPat P r p = .ok P' ∧ P'.Is (.node 0 (some (r, p)) (.cons 0 (.node P.nextId (some rp) ch) .nil)) := by
  have hkk : Keyed P.nodes := h.nodes.keys
  have h0 : (0, Node.inner none (some rp) ch.kids) ∈ P.nodes := (h.nodes.same _).mpr (by simp [NTree.entries])
  have hn := h.nodes.ids
  simp only [NTree.ids, List.nodup_cons] at hn
  have hfr : P.nextId ∉ ch.ids := fun hk => Nat.lt_irrefl _ (h.fresh _ (by simp [NTree.ids, hk]))
  have hpos : 0 < P.nextId := h.fresh 0 (by simp [NTree.ids])
  have hd : Keyed (dropKey P.nodes 0) := hkk.dropKey 0
  have hd' := hd.put P.nextId (.inner (some 0) (some rp) ch.kids)
  have hmem : ∀ x, x ∈ dropKey P.nodes 0 ↔ x ∈ ch.entries (some 0) := by
    intro x
    rw [mem_dropKey, h.nodes.same]
    simp only [NTree.entries, List.mem_cons]
    constructor
    · rintro ⟨e | e, n⟩
      · subst e; exact absurd rfl n
      · exact e
    · intro e; exact ⟨Or.inr e, fun e' => hn.1 (e' ▸ NForest.mem_ids e)⟩
  obtain ⟨ns, h1, h2, h3⟩ := setParents_spec (some P.nextId) ch.kids hd' (by
    intro c hc
    rw [mem_keys_put]
    right
    obtain ⟨x, hx, e⟩ := List.mem_map.mp (by rw [ch.entries_keys (some 0)]; exact ch.kids_mem hc : c.1 ∈ (ch.entries (some 0)).map Prod.fst)
    exact e ▸ List.mem_map_of_mem ((hmem x).mpr hx))
  have hkns : Keyed ns := by unfold Keyed; rw [h2]; exact hd'
  refine ⟨⟨put ns 0 (.inner none (some (r, p)) [(P.nextId, 0)]), P.nextId + 1⟩, ?_, ⟨hkns.put _ _, ?_, ?_, some (r, p), _, rfl⟩, ?_⟩
  · unfold repeatPat
    rw [(lookup_some hkk).mpr h0]
    simp only [h1]
    rfl
  · simp only [NTree.ids, NForest.ids, List.append_nil, List.nodup_cons, List.mem_cons, not_or]
    exact ⟨⟨by omega, hn.1⟩, hfr, hn.2⟩
  · intro x
    rw [mem_put hkns, h3 x]
    simp only [mem_put hd, hmem]
    simp only [NTree.entries, NForest.entries, NForest.kids, NTree.id, List.append_nil, List.mem_cons]
    rw [ch.mem_reparent (some 0) (some P.nextId) x hn.2]
    have hkid : P.nextId ∉ ch.kids.map Prod.fst := fun e => hfr (ch.kids_ids _ e)
    have hz : ∀ {v : Node α}, (x.1, v) ∈ ch.entries (some 0) → x.1 ≠ 0 := by
      intro v hv e
      have := NForest.mem_ids hv
      simp only [e] at this
      exact hn.1 this
    have hz' : ∀ {v : Node α}, (x.1, v) ∈ ch.entries (some 0) → x.1 ≠ P.nextId := by
      intro v hv e
      have := NForest.mem_ids hv
      simp only [e] at this
      exact hfr this
    constructor
    · rintro (e | ⟨(⟨e | ⟨e, n⟩, m⟩ | ⟨m, v, (e | ⟨e, n⟩), hx⟩), n0⟩)
      · exact Or.inl e
      · exact Or.inr (Or.inl e)
      · exact Or.inr (Or.inr (Or.inl ⟨e, m⟩))
      · exact absurd ((Prod.mk.inj e).1 ▸ m) hkid
      · exact Or.inr (Or.inr (Or.inr ⟨m, v, e, hx⟩))
    · rintro (e | e | ⟨e, m⟩ | ⟨m, v, e, hx⟩)
      · exact Or.inl e
      · subst e; exact Or.inr ⟨Or.inl ⟨Or.inl rfl, hkid⟩, by simp only; omega⟩
      · exact Or.inr ⟨Or.inl ⟨Or.inr ⟨e, hz' e⟩, m⟩, hz e⟩
      · exact Or.inr ⟨Or.inr ⟨m, v, Or.inr ⟨e, hz' e⟩, hx⟩, hz e⟩
  · intro k hk
    simp only [NTree.ids, NForest.ids, List.append_nil, List.mem_cons] at hk
    rcases hk with hk | hk | hk
    · simp only; omega
    · simp only; omega
    · exact Nat.lt_succ_of_lt (h.fresh k (by simp [NTree.ids, hk]))

end Verif.Nodes
