import Verif.Nodes.CombineProps

/-!
# The dictionaries of nested candidates (C94)
-/

set_option autoImplicit false
set_option linter.unusedSectionVars false

namespace Verif.Nodes

open Verif.PTree

variable {α : Type}

/-- A chain of numbered nodes, the last with the given children. -/
def nChain (x : ℤ × ℕ) : List (ℤ × ℕ) → ℕ → NForest α → NTree α
  | [], i, G => .node i (some (x.2, x.1)) G
  | y :: L, i, G => .node i (some (x.2, x.1)) (.cons 0 (nChain y L (i + 1) G) .nil)

theorem nChain_id (x : ℤ × ℕ) (L : List (ℤ × ℕ)) (i : ℕ) (G : NForest α) : (nChain x L i G).id = i := by cases L <;> rfl

theorem nChain_plain {G : NForest α} {F : Forest α} (hF : G.plain = some F) : ∀ (L : List (ℤ × ℕ)) (x : ℤ × ℕ) (i : ℕ),
    ∃ y, Nest.chain (x :: L) F = some y ∧ (nChain x L i G).plain = some (.node y.1 y.2.1 y.2.2)
  | [], x, i => ⟨_, rfl, by simp [nChain, NTree.plain, hF]⟩
  | x' :: L, x, i => by
    obtain ⟨y, h1, h2⟩ := nChain_plain hF L x' (i + 1)
    exact ⟨(x.2, x.1, .cons 0 (.node y.1 y.2.1 y.2.2) .nil), by simp [Nest.chain, h1], by simp [nChain, NTree.plain, NForest.plain, h2]⟩

theorem nChain_ids (G : NForest α) : ∀ (L : List (ℤ × ℕ)) (x : ℤ × ℕ) (i : ℕ), (nChain x L i G).ids = List.range' i (L.length + 1) ++ G.ids
  | [], x, i => by simp [nChain, NTree.ids]
  | x' :: L, x, i => by
    have := nChain_ids G L x' (i + 1)
    simp only [nChain, NTree.ids, NForest.ids, List.append_nil, this, List.length_cons, List.range'_succ, List.cons_append]

theorem nestChain_keys : ∀ (L : List (ℤ × ℕ)) (i : ℕ), ((nestChain L i : NodeDict α)).map Prod.fst = List.range' i L.length
  | [], i => rfl
  | x :: L, i => by simp [nestChain, nestChain_keys L (i + 1), List.range'_succ]

theorem nestChain_keyed (L : List (ℤ × ℕ)) (i : ℕ) : Keyed (nestChain L i : NodeDict α) := by
  unfold Keyed
  rw [nestChain_keys]
  exact List.nodup_range'

theorem nestChain_last : ∀ (L : List (ℤ × ℕ)) (x : ℤ × ℕ) (i : ℕ), ∃ q rp, (i + L.length, Node.inner q rp [(i + L.length + 1, 0)]) ∈ (nestChain (x :: L) i : NodeDict α)
  | [], x, i => ⟨_, _, by simp [nestChain]; exact ⟨rfl, rfl⟩⟩
  | x' :: L, x, i => by
    obtain ⟨q, rp, h⟩ := nestChain_last L x' (i + 1)
    refine ⟨q, rp, ?_⟩
    have e : i + (x' :: L).length = i + 1 + L.length := by simp only [List.length_cons]; omega
    rw [e]
    rw [nestChain]
    exact List.mem_cons_of_mem _ h

theorem nChain_entries (G : NForest α) (v : ℕ × Node α) : ∀ (L : List (ℤ × ℕ)) (x : ℤ × ℕ) (i : ℕ),
    v ∈ (nChain x L i G).entries (if i = 0 then none else some (i - 1)) ↔
      (v ∈ nestChain (x :: L) i ∧ v.1 ≠ i + L.length) ∨ (∃ q rp ch, (i + L.length, (Node.inner q rp ch : Node α)) ∈ nestChain (x :: L) i ∧ v = (i + L.length, .inner q rp G.kids)) ∨
      v ∈ G.entries (some (i + L.length))
  | [], x, i => by
    simp only [nChain, NTree.entries, nestChain, List.mem_cons, List.not_mem_nil, or_false, List.length_nil, Nat.add_zero]
    constructor
    · rintro (e | e)
      · exact Or.inr (Or.inl ⟨_, _, _, rfl, e⟩)
      · exact Or.inr (Or.inr e)
    · rintro (⟨e, n⟩ | ⟨q, rp, ch, e, hx⟩ | e)
      · exact absurd (by rw [e]) n
      · simp only [Prod.mk.injEq, Node.inner.injEq, true_and] at e
        rw [hx, e.1, e.2.1]; exact Or.inl rfl
      · exact Or.inr e
  | x' :: L, x, i => by
    have ih := nChain_entries G v L x' (i + 1)
    have e : i + (x' :: L).length = i + 1 + L.length := by simp only [List.length_cons]; omega
    rw [if_neg (by omega), Nat.add_sub_cancel] at ih
    rw [e, nestChain, nChain]
    simp only [NTree.entries, NForest.entries, NForest.kids, List.append_nil, List.mem_cons, nChain_id, ih]
    have hne : i ≠ i + 1 + L.length := by omega
    constructor
    · rintro (e | ⟨e, n⟩ | ⟨q, rp, ch, e, hx⟩ | e)
      · exact Or.inl ⟨Or.inl e, by rw [e]; exact hne⟩
      · exact Or.inl ⟨Or.inr e, n⟩
      · exact Or.inr (Or.inl ⟨q, rp, ch, Or.inr e, hx⟩)
      · exact Or.inr (Or.inr e)
    · rintro (⟨e | e, n⟩ | ⟨q, rp, ch, e | e, hx⟩ | e)
      · exact Or.inl e
      · exact Or.inr (Or.inl ⟨e, n⟩)
      · exact absurd (Prod.mk.inj e).1.symm hne
      · exact Or.inr (Or.inr (Or.inl ⟨q, rp, ch, e, hx⟩))
      · exact Or.inr (Or.inr (Or.inr e))

/-- Replacing the children of the last node of a chain and adding the entries of the new ones. -/
theorem nest_describes (x : ℤ × ℕ) (L : List (ℤ × ℕ)) (G : NForest α) (hn : G.ids.Nodup) (hG : ∀ k ∈ G.ids, L.length < k) {d : NodeDict α} (hk : Keyed d)
    (hd : ∀ v, v ∈ d ↔ (v ∈ nestChain (x :: L) 0 ∧ v.1 ≠ L.length) ∨ (∃ q rp ch, (L.length, (Node.inner q rp ch : Node α)) ∈ nestChain (x :: L) 0 ∧ v = (L.length, .inner q rp G.kids)) ∨ v ∈ G.entries (some L.length)) :
    Describes d (nChain x L 0 G) := by
  refine ⟨hk, ?_, ?_, ?_⟩
  · rw [nChain_ids, List.nodup_append]
    refine ⟨List.nodup_range', hn, ?_⟩
    intro a ha b hb e
    have h1 := hG b hb
    rw [List.mem_range'_1] at ha
    omega
  · intro v
    have := nChain_entries G v L x 0
    simp only [if_true, Nat.zero_add] at this
    rw [hd v, this]
  · cases L <;> exact ⟨_, _, rfl⟩

/-- C94, nesting: the dictionary built from a candidate describes the chain of cycles with the children of the candidate's root at its end; it raises exactly when there are too few lengths or no cycle is
added. -/
theorem nestDict_spec {s : Source α} {F : Forest α} (hs : s.Has F) (depth : ℕ) (hdep : 1 ≤ depth) (prds : List ℤ) (lens : List ℕ) :
    ((if lens.length < prds.length + 1 - depth then none else Nest.chain ((prds.zip lens).take (prds.length + 1 - depth)) F) = none ∧ ∃ e, nestDict s depth prds lens = .error e) ∨
    ∃ y d t, (if lens.length < prds.length + 1 - depth then none else Nest.chain ((prds.zip lens).take (prds.length + 1 - depth)) F) = some y ∧ nestDict s depth prds lens = .ok d ∧
      Describes d t ∧ RootFirst d ∧ t.plain = some (.node y.1 y.2.1 y.2.2) := by
  obtain ⟨m, hm⟩ : ∃ m, m = prds.length + 1 - depth := ⟨_, rfl⟩
  unfold nestDict
  simp only [← hm]
  by_cases h1 : lens.length < m
  · exact Or.inl ⟨by rw [if_pos h1], _, by rw [if_pos h1]⟩
  · simp only [if_neg h1]
    by_cases h2 : m = 0
    · exact Or.inl ⟨by rw [h2]; rfl, _, by rw [if_pos h2]⟩
    · simp only [if_neg h2]
      have hlen : ((prds.zip lens).take m).length = m := by
        rw [List.length_take, List.length_zip]; omega
      obtain ⟨x, L, hxL⟩ : ∃ x L, (prds.zip lens).take m = x :: L := by
        cases h : (prds.zip lens).take m with
        | nil => rw [h] at hlen; simp at hlen; omega
        | cons x L => exact ⟨x, L, rfl⟩
      rw [hxL] at hlen ⊢
      have hmL : m = L.length + 1 := by simpa using hlen.symm
      have hfirst : RootFirst (nestChain (x :: L) 0 : NodeDict α) := by simp [RootFirst, nestChain]
      have hck := nestChain_keyed (α := α) (x :: L) 0
      obtain ⟨q0, rp0, hlast⟩ := nestChain_last (α := α) L x 0
      rw [Nat.zero_add] at hlast
      have hkeys : ∀ k, k ∈ (nestChain (x :: L) 0 : NodeDict α).map Prod.fst ↔ k ≤ L.length := by
        intro k
        rw [nestChain_keys, List.mem_range'_1]
        simp only [List.length_cons]; omega
      right
      cases s with
      | simple ev =>
        simp only [Source.Has] at hs
        have hp : (NForest.cons 0 (.leaf m ev) .nil : NForest α).plain = some F := by rw [hs]; rfl
        obtain ⟨y, hy1, hy2⟩ := nChain_plain hp L x 0
        refine ⟨y, _, _, hy1, rfl, ?_, hfirst.put _ _, hy2⟩
        refine nest_describes x L _ (by simp [NForest.ids, NTree.ids]) ?_ (hck.put _ _) ?_
        · intro k hk
          simp only [NForest.ids, NTree.ids, List.append_nil, List.mem_singleton] at hk
          omega
        · intro v
          rw [mem_put hck]
          have hm1 : m - 1 = L.length := by omega
          simp only [NForest.entries, NTree.entries, NForest.kids, NTree.id, List.append_nil, List.mem_singleton, hm1]
          constructor
          · rintro (e | ⟨e, n⟩)
            · exact Or.inr (Or.inr e)
            · by_cases hv : v.1 = L.length
              · refine Or.inr (Or.inl ⟨q0, rp0, _, hlast, ?_⟩)
                have := hck.unique (k := v.1) (v := v.2) e (hv ▸ hlast)
                refine Prod.ext hv ?_
                rw [this, hv, ← hmL]
              · exact Or.inl ⟨e, hv⟩
          · have hne : ∀ (w : ℕ × Node α), w ∈ nestChain (x :: L) 0 → w.1 ≠ m := by
              intro w hw
              have := (hkeys w.1).mp (List.mem_map_of_mem hw)
              omega
            rintro (⟨e, n⟩ | ⟨q, rp, ch, e, hx⟩ | e)
            · exact Or.inr ⟨e, hne v e⟩
            · have := hck.unique e hlast
              simp only [Node.inner.injEq] at this
              subst hx
              rw [this.1, this.2.1, hmL]
              exact Or.inr ⟨hlast, by simp only; omega⟩
            · exact Or.inl e
      | pattern d =>
        have hm1 : m - 1 = L.length := by omega
        rw [hm1]
        obtain ⟨nodes, n, G, h3, h4, h5, h6, h7, h8⟩ := Source.split_spec hs L.length
        obtain ⟨ns, h9, h10, h11, h12⟩ := reparented (q' := some L.length) h5 h7 h6 rfl
        simp only [h3, Except.bind, h9]
        have hmod := modifyKey_ok (f := Node.setChildren G.kids) hck hlast rfl
        rw [hmod]
        simp only [Except.map]
        obtain ⟨y, hy1, hy2⟩ := nChain_plain h4 L x 0
        have hk1 := hck.put L.length (.inner q0 rp0 G.kids)
        obtain ⟨hu1, hu2⟩ := update_spec hk1 ns h10
        refine ⟨y, _, _, hy1, rfl, ?_, (hfirst.put _ _).update _, hy2⟩
        refine nest_describes x L G h7 (fun k hk => (h8 k hk).1) hu1 ?_
        intro v
        rw [hu2 v, mem_put hck, h11, h12]
        constructor
        · rintro (e | ⟨e | ⟨e, n⟩, m⟩)
          · exact Or.inr (Or.inr e)
          · exact Or.inr (Or.inl ⟨q0, rp0, _, hlast, e⟩)
          · exact Or.inl ⟨e, n⟩
        · have old : ∀ k, k ≤ L.length → k ∉ G.ids := by
            intro k hk hk'
            have := (h8 k hk').1
            omega
          rintro (⟨e, n⟩ | ⟨q, rp, ch, e, hx⟩ | e)
          · exact Or.inr ⟨Or.inr ⟨e, n⟩, old _ ((hkeys _).mp (List.mem_map_of_mem e))⟩
          · have := hck.unique e hlast
            simp only [Node.inner.injEq] at this
            rw [hx, this.1, this.2.1]
            exact Or.inr ⟨Or.inl rfl, old _ (Nat.le_refl _)⟩
          · exact Or.inl e

end Verif.Nodes
