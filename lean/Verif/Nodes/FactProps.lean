import Verif.Nodes.FactLocal
import Verif.Nodes.CombineProps
import Verif.PTree.Props

/-!
# Factorisation on dictionaries (C95)
-/

set_option autoImplicit false
set_option linter.unusedSectionVars false

namespace Verif.Nodes

open Verif.PTree

variable {α : Type}

/-- The number of the node reached by the given child numbers. -/
def NTree.idAt (t : NTree α) (k : List ℕ) : Option ℕ := (t.sub? k).map NTree.id

/-! ### The node found -/

theorem canFactorizeF_mem (k : List ℕ) (j : ℕ) : ∀ (F : Forest α) (c0 : ℕ), (j :: k) ∈ canFactorizeF F c0 → ∃ i U, j = c0 + i ∧ F.get? i = some U ∧ k ∈ canFactorize U
  | .nil, c0, h => by simp [canFactorizeF] at h
  | .cons d t rest, c0, h => by
    simp only [canFactorizeF, List.mem_append, List.mem_map, List.cons.injEq] at h
    rcases h with ⟨k', hk', e1, e2⟩ | h
    · exact ⟨0, t, by omega, rfl, e2 ▸ hk'⟩
    · obtain ⟨i, U, h1, h2, h3⟩ := canFactorizeF_mem k j rest (c0 + 1) h
      exact ⟨i + 1, U, by omega, h2, h3⟩

theorem canFactorizeF_nil : ∀ (F : Forest α) (c0 : ℕ), [] ∉ canFactorizeF F c0
  | .nil, c0 => by simp [canFactorizeF]
  | .cons d t rest, c0 => by simp [canFactorizeF, canFactorizeF_nil rest]

theorem NForest.get_of_plain : ∀ (N : NForest α) (F : Forest α) (i : ℕ) (U : PTree.Tree α), N.plain = some F → F.get? i = some U → ∃ u, N.get? i = some u ∧ u.plain = some U
  | .nil, F, i, U, h, hU => by
    simp only [NForest.plain, Option.some.injEq] at h
    subst h
    simp [Forest.get?] at hU
  | .cons d t rest, F, i, U, h, hU => by
    simp only [NForest.plain, Option.bind_eq_some_iff, Option.map_eq_some_iff] at h
    obtain ⟨T, hT, R, hR, rfl⟩ := h
    cases i with
    | zero =>
      simp only [Forest.get?, Option.some.injEq] at hU
      exact ⟨t, rfl, hU ▸ hT⟩
    | succ i => exact rest.get_of_plain R i U hR hU

theorem NTree.sub_of_can : ∀ (k : List ℕ) (t : NTree α) (T : PTree.Tree α), t.plain = some T → k ∈ canFactorize T → ∃ s S, t.sub? k = some s ∧ s.plain = some S ∧ canFactorizeHere S = true
  | _, .leaf _ _, T, h, hk => by
    simp only [NTree.plain, Option.some.injEq] at h
    subst h
    simp [canFactorize] at hk
  | _, .node id none ch, T, h, _ => by simp [NTree.plain] at h
  | [], .node id (some rp) ch, T, h, hk => by
    refine ⟨_, T, rfl, h, ?_⟩
    simp only [NTree.plain, Option.map_eq_some_iff] at h
    obtain ⟨F, hF, rfl⟩ := h
    simp only [canFactorize, List.mem_append] at hk
    rcases hk with hk | hk
    · exact absurd hk (canFactorizeF_nil _ _)
    · split at hk
      · assumption
      · simp at hk
  | c :: k, .node id (some rp) ch, T, h, hk => by
    simp only [NTree.plain, Option.map_eq_some_iff] at h
    obtain ⟨F, hF, rfl⟩ := h
    simp only [canFactorize, List.mem_append] at hk
    rcases hk with hk | hk
    · obtain ⟨i, U, h1, h2, h3⟩ := canFactorizeF_mem k c F 0 hk
      obtain ⟨u, h4, h5⟩ := ch.get_of_plain F i U hF h2
      obtain ⟨s, S, h6, h7, h8⟩ := NTree.sub_of_can k u U h5 h3
      rw [Nat.zero_add] at h1
      subst h1
      exact ⟨s, S, by simp [NTree.sub?, h4, h6], h7, h8⟩
    · split at hk <;> simp at hk

theorem cell_of {u : NTree α} {U : PTree.Tree α} (hu : u.plain = some U) {x : ℤ × ℕ × ℤ × PTree.Tree α} (hx : onlyChild U = some x) (d : ℤ) :
    ∃ c : Cell α, u = .node c.id (some c.rp) (.cons c.e c.g .nil) ∧ c.d = d ∧ c.rp = (x.2.1, x.1) ∧ U = .node x.2.1 x.1 (.cons x.2.2.1 x.2.2.2 .nil) ∧ c.g.plain = some x.2.2.2 := by
  cases u with
  | leaf id ev =>
    simp only [NTree.plain, Option.some.injEq] at hu
    subst hu
    simp [onlyChild] at hx
  | node id rp ch =>
    cases rp with
    | none => simp [NTree.plain] at hu
    | some rp =>
      simp only [NTree.plain, Option.map_eq_some_iff] at hu
      obtain ⟨F, hF, rfl⟩ := hu
      cases F with
      | nil => simp [onlyChild] at hx
      | cons e T rest =>
        cases rest with
        | cons _ _ _ => simp [onlyChild] at hx
        | nil =>
          simp only [onlyChild, Option.some.injEq] at hx
          subst hx
          cases ch with
          | nil => simp [NForest.plain] at hF
          | cons e' g rest' =>
            simp only [NForest.plain, Option.bind_eq_some_iff, Option.map_eq_some_iff, Forest.cons.injEq] at hF
            obtain ⟨T', hT', R, hR, rfl, rfl, rfl⟩ := hF
            have : rest' = .nil := by
              cases rest' with
              | nil => rfl
              | cons a b c =>
                simp only [NForest.plain, Option.bind_eq_some_iff, Option.map_eq_some_iff] at hR
                obtain ⟨_, _, _, _, h⟩ := hR
                exact absurd h (by simp)
            subst this
            exact ⟨⟨d, id, rp, e', g⟩, rfl, rfl, rfl, rfl, hT'⟩

theorem cells_of (p : ℤ) (r : ℕ) : ∀ (ch : NForest α) (F : Forest α), ch.plain = some F → sameCycle p r F = true →
    ∃ l G, ch = cellsF l ∧ (grandF l).plain = some G ∧ grandChildren F = some G
  | .nil, F, h, _ => by
    simp only [NForest.plain, Option.some.injEq] at h
    subst h
    exact ⟨[], .nil, rfl, rfl, rfl⟩
  | .cons d u rest, F, h, hs => by
    simp only [NForest.plain, Option.bind_eq_some_iff, Option.map_eq_some_iff] at h
    obtain ⟨U, hU, R, hR, rfl⟩ := h
    simp only [sameCycle] at hs
    split at hs
    · simp at hs
    · rename_i x hx
      rw [Bool.and_eq_true] at hs
      obtain ⟨c, h1, h2, h3, h4, h5⟩ := cell_of hU hx d
      obtain ⟨l, G, h6, h7, h8⟩ := cells_of p r rest R hR hs.2
      refine ⟨c :: l, .cons d x.2.2.2 G, ?_, ?_, ?_⟩
      · rw [cellsF, ← h1, ← h6, h2]
      · simp [grandF, NForest.plain, h5, h7, h2]
      · rw [h4]; simp [grandChildren, h8]

theorem grandChildren_cons {d d2 p : ℤ} {r : ℕ} {g : PTree.Tree α} {more rest R : Forest α} (h : grandChildren rest = some R) :
    grandChildren (.cons d (.node r p (.cons d2 g more)) rest) = some (.cons d g R) := by simp [grandChildren, h]

/-- What a node that can be factorised looks like. -/
theorem here_cells {s : NTree α} {S : PTree.Tree α} (hs : s.plain = some S) (h : canFactorizeHere S = true) :
    ∃ nid rp c l S', s = .node nid (some rp) (cellsF (c :: l)) ∧ factorizeHere S = some S' ∧ (NTree.node nid (some rp) (.cons 0 (.node c.id (some c.rp) (grandF (c :: l))) .nil)).plain = some S' := by
  cases s with
  | leaf id ev =>
    simp only [NTree.plain, Option.some.injEq] at hs
    subst hs
    simp [canFactorizeHere] at h
  | node id rp ch =>
    cases rp with
    | none => simp [NTree.plain] at hs
    | some rp =>
      simp only [NTree.plain, Option.map_eq_some_iff] at hs
      obtain ⟨F, hF, rfl⟩ := hs
      cases F with
      | nil => simp [canFactorizeHere] at h
      | cons d U rest =>
        cases rest with
        | nil => simp [canFactorizeHere] at h
        | cons d' U' rest' =>
          simp only [canFactorizeHere] at h
          split at h
          · simp at h
          · rename_i x hx
            cases ch with
            | nil => simp [NForest.plain] at hF
            | cons e u N =>
              simp only [NForest.plain, Option.bind_eq_some_iff, Option.map_eq_some_iff, Forest.cons.injEq] at hF
              obtain ⟨T, hT, R, hR, rfl, rfl, rfl⟩ := hF
              obtain ⟨c, h1, h2, h3, h4, h5⟩ := cell_of hT hx e
              obtain ⟨l, G, h6, h7, h8⟩ := cells_of x.1 x.2.1 N _ hR h
              refine ⟨id, rp, c, l, .node rp.1 rp.2 (.cons 0 (.node x.2.1 x.1 (.cons e x.2.2.2 G)) .nil), ?_, ?_, ?_⟩
              · rw [cellsF, ← h1, ← h6, h2]
              · rw [h4]
                have hgc : grandChildren (.cons e (.node x.2.1 x.1 (.cons x.2.2.1 x.2.2.2 .nil)) (.cons d' U' rest')) = some (.cons e x.2.2.2 G) := grandChildren_cons h8
                simp only [factorizeHere, hgc, Option.map_some]
              · simp [NTree.plain, NForest.plain, grandF, h5, h7, h2, h3]

/-- C95: factorising the dictionary at a node where it is possible gives a dictionary of the factorised tree; the node 0 stays first. -/
theorem factorizeTree_spec {d : NodeDict α} {t : NTree α} {T : PTree.Tree α} (h : Describes d t) (hT : t.plain = some T) {k : List ℕ} (hk : k ∈ canFactorize T) :
    ∃ nid d' t' T', t.idAt k = some nid ∧ factorizeTree d nid = .ok d' ∧ Describes d' t' ∧ (RootFirst d → RootFirst d') ∧ factorizeAt k T = some T' ∧ t'.plain = some T' := by
  obtain ⟨s, S, h1, h2, h3⟩ := NTree.sub_of_can k t T hT hk
  obtain ⟨nid, rp, c, l, S', h4, h5, h6⟩ := here_cells h2 h3
  obtain ⟨S2, h7, h8⟩ := NTree.replace_plain s k t T h1 hT
  rw [h2, Option.some.injEq] at h7
  subst h7
  obtain ⟨T', h9, h10⟩ := h8 _ S' h5 h6
  subst h4
  have hids : ∀ i ∈ (NTree.node nid (some rp) (.cons 0 (.node c.id (some c.rp) (grandF (c :: l))) .nil) : NTree α).ids, i ∈ (NTree.node nid (some rp) (cellsF (c :: l))).ids := by
    intro i hi
    simp only [NTree.ids, NForest.ids, List.append_nil, List.mem_cons, ids_grandF] at hi
    simp only [NTree.ids, List.mem_cons, ids_cellsF]
    rcases hi with e | e | ⟨c', hc', e⟩
    · exact Or.inl e
    · exact Or.inr ⟨c, Or.inl rfl, Or.inl e⟩
    · exact Or.inr ⟨c', hc', Or.inr e⟩
  have hnd0 : (NTree.node nid (some rp) (cellsF (c :: l))).ids.Nodup := by
    obtain ⟨A, B, q, e, _⟩ := NTree.sub_split _ k t none h1
    have : t.ids = A.map Prod.fst ++ (NTree.node nid (some rp) (cellsF (c :: l))).ids ++ B.map Prod.fst := by rw [← t.entries_keys none, e]; simp [NTree.entries_keys]
    have hn := h.ids
    rw [this] at hn
    exact (List.nodup_append.mp (List.nodup_append.mp hn).1).2.1
  have hnd : (NTree.node nid (some rp) (.cons 0 (.node c.id (some c.rp) (grandF (c :: l))) .nil) : NTree α).ids.Nodup := by
    have hn := hnd0
    simp only [NTree.ids, List.nodup_cons] at hn
    obtain ⟨hd1, hd2⟩ := cells_disj _ hn.2
    simp only [NTree.ids, NForest.ids, List.append_nil, List.nodup_cons, List.mem_cons, not_or]
    refine ⟨⟨fun e => hn.1 ((ids_cellsF _ _).mpr ⟨c, by simp, Or.inl e⟩), fun e => ?_⟩, fun e => ?_, grandF_nodup _ hn.2⟩
    · obtain ⟨c', hc', e'⟩ := (ids_grandF _ _).mp e
      exact hn.1 ((ids_cellsF _ _).mpr ⟨c', hc', Or.inr e'⟩)
    · obtain ⟨c', hc', e'⟩ := (ids_grandF _ _).mp e
      have := hd2 c (by simp) c' hc' c.id (Or.inl rfl) (Or.inr e')
      subst this
      exact (hd1 c (by simp)).1 e'
  obtain ⟨q, h11, h16⟩ := Describes.replace (s' := .node nid (some rp) (.cons 0 (.node c.id (some c.rp) (grandF (c :: l))) .nil)) h h1 rfl ⟨_, _, _, rfl⟩ hids hnd
  obtain ⟨d', h12, h13, h14, h15⟩ := factorizeTree_local h.keys hnd0 h11
  refine ⟨nid, d', _, T', by rw [NTree.idAt, h1]; rfl, h12, ?_, ?_, h9, h10⟩
  · exact h16 d' h13 h15
  · intro hr
    refine h14 hr ?_
    intro e
    obtain ⟨c', hc', e'⟩ := List.mem_map.mp e
    have hc0 := h11 (c'.id, .inner (some nid) (some c'.rp) [(c'.g.id, c'.e)]) (by
      simp only [NTree.entries, List.mem_cons]
      exact Or.inr ((mem_cellsF _ _ _).mpr ⟨c', by simp [hc'], Or.inl rfl⟩))
    obtain ⟨rp0, ch0, e0⟩ := h.root
    have h0 : (0, Node.inner none rp0 ch0.kids) ∈ d := (h.same _).mpr (by rw [e0]; simp [NTree.entries])
    have := Keyed.unique (d := d) h.keys h0 (e' ▸ hc0)
    simp at this

end Verif.Nodes
