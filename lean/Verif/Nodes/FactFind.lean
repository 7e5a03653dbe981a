import Verif.Nodes.FactProps

/-!
# The nodes where a dictionary can be factorised (C95)
-/

set_option autoImplicit false
set_option linter.unusedSectionVars false

namespace Verif.Nodes

open Verif.PTree

variable {α : Type}

/-- The children as a list. -/
def trees : Forest α → List (PTree.Tree α)
  | .nil => []
  | .cons _ t rest => t :: trees rest

/-- Period and repetitions. -/
def cyc : PTree.Tree α → ℤ × ℕ
  | .leaf _ => (0, 0)
  | .node r p _ => (p, r)

theorem mapM_some {β γ : Type} (f : β → Option γ) (g : β → γ) : ∀ (L : List β), (∀ x ∈ L, f x = some (g x)) → L.mapM f = some (L.map g)
  | [], _ => rfl
  | x :: L, h => by
    rw [List.mapM_cons, h x (by simp), mapM_some f g L (fun y hy => h y (by simp [hy]))]
    rfl

theorem oneChild_ok {d : NodeDict α} (hk : Keyed d) {q : Option ℕ} : ∀ (N : NForest α) (F : Forest α), N.plain = some F → (∀ x ∈ N.entries q, x ∈ d) →
    N.kids.mapM (oneChild d) = some ((trees F).map (fun T => (onlyChild T).isSome))
  | .nil, F, h, _ => by
    simp only [NForest.plain, Option.some.injEq] at h
    subst h; rfl
  | .cons e t rest, F, h, hin => by
    simp only [NForest.plain, Option.bind_eq_some_iff, Option.map_eq_some_iff] at h
    obtain ⟨T, hT, R, hR, rfl⟩ := h
    have ih := oneChild_ok (q := q) hk rest R hR (fun x hx => hin x (by simp [NForest.entries, hx]))
    have h1 : oneChild d (t.id, e) = some (onlyChild T).isSome := by
      have hl : d.lookup t.id = some (t.rootNode q) := (lookup_some hk).mpr (hin _ (by simp [NForest.entries, NTree.entries_eq]))
      unfold oneChild
      simp only [hl]
      cases t with
      | leaf id ev =>
        simp only [NTree.plain, Option.some.injEq] at hT
        subst hT; rfl
      | node id rp ch =>
        cases rp with
        | none => simp [NTree.plain] at hT
        | some rp =>
          simp only [NTree.plain, Option.map_eq_some_iff] at hT
          obtain ⟨G, hG, rfl⟩ := hT
          cases ch with
          | nil =>
            simp only [NForest.plain, Option.some.injEq] at hG
            subst hG; rfl
          | cons e1 t1 r1 =>
            simp only [NForest.plain, Option.bind_eq_some_iff, Option.map_eq_some_iff] at hG
            obtain ⟨T1, hT1, R1, hR1, rfl⟩ := hG
            cases r1 with
            | nil =>
              simp only [NForest.plain, Option.some.injEq] at hR1
              subst hR1; rfl
            | cons e2 t2 r2 =>
              simp only [NForest.plain, Option.bind_eq_some_iff, Option.map_eq_some_iff] at hR1
              obtain ⟨T2, hT2, R2, hR2, rfl⟩ := hR1
              simp [NTree.rootNode, NForest.kids, onlyChild]
    simp only [NForest.kids, List.mapM_cons, h1, ih, trees, List.map_cons]
    rfl

theorem cycleOf_ok {d : NodeDict α} (hk : Keyed d) {q : Option ℕ} : ∀ (N : NForest α) (F : Forest α), N.plain = some F → (∀ x ∈ N.entries q, x ∈ d) → (∀ T ∈ trees F, (onlyChild T).isSome = true) →
    N.kids.mapM (cycleOf d) = some ((trees F).map cyc)
  | .nil, F, h, _, _ => by
    simp only [NForest.plain, Option.some.injEq] at h
    subst h; rfl
  | .cons e t rest, F, h, hin, ho => by
    simp only [NForest.plain, Option.bind_eq_some_iff, Option.map_eq_some_iff] at h
    obtain ⟨T, hT, R, hR, rfl⟩ := h
    have ih := cycleOf_ok (q := q) hk rest R hR (fun x hx => hin x (by simp [NForest.entries, hx])) (fun T hT => ho T (by simp [trees, hT]))
    have h1 : cycleOf d (t.id, e) = some (cyc T) := by
      have hl : d.lookup t.id = some (t.rootNode q) := (lookup_some hk).mpr (hin _ (by simp [NForest.entries, NTree.entries_eq]))
      have hone := ho T (by simp [trees])
      unfold cycleOf
      simp only [hl]
      cases t with
      | leaf id ev =>
        simp only [NTree.plain, Option.some.injEq] at hT
        subst hT
        simp [onlyChild] at hone
      | node id rp ch =>
        cases rp with
        | none => simp [NTree.plain] at hT
        | some rp =>
          simp only [NTree.plain, Option.map_eq_some_iff] at hT
          obtain ⟨G, hG, rfl⟩ := hT
          rfl
    simp only [NForest.kids, List.mapM_cons, h1, ih, trees, List.map_cons]
    rfl

theorem dedup_one {β : Type} [DecidableEq β] (x : β) (l : List β) : (x :: l).dedup.length = 1 ↔ ∀ y ∈ l, y = x := by
  constructor
  · intro h y hy
    obtain ⟨a, ha⟩ := List.length_eq_one_iff.mp h
    have h1 : x ∈ (x :: l).dedup := by simp
    have h2 : y ∈ (x :: l).dedup := by simp [hy]
    rw [ha, List.mem_singleton] at h1 h2
    rw [h1, h2]
  · intro h
    have hn := List.nodup_dedup (x :: l)
    have hs : ∀ y ∈ (x :: l).dedup, y = x := by
      intro y hy
      rcases List.mem_cons.mp (List.mem_dedup.mp hy) with e | e
      · exact e
      · exact h y e
    have hx : x ∈ (x :: l).dedup := by simp
    cases hd : (x :: l).dedup with
    | nil => rw [hd] at hx; simp at hx
    | cons a m =>
      cases m with
      | nil => rfl
      | cons b m =>
        rw [hd] at hn hs
        have := hs a (by simp)
        have := hs b (by simp)
        simp_all

theorem sameCycle_iff (p : ℤ) (r : ℕ) : ∀ (F : Forest α), sameCycle p r F = true ↔ ∀ T ∈ trees F, (onlyChild T).isSome = true ∧ cyc T = (p, r)
  | .nil => by simp [sameCycle, trees]
  | .cons d t rest => by
    simp only [sameCycle, trees, List.mem_cons, forall_eq_or_imp]
    rw [← sameCycle_iff p r rest]
    cases ho : onlyChild t with
    | none => simp
    | some x =>
      have hc : cyc t = (x.1, x.2.1) := by
        unfold onlyChild at ho
        split at ho
        · simp only [Option.some.injEq] at ho
          subst ho; rfl
        · simp at ho
      simp only [hc, Option.isSome_some, true_and, Bool.and_eq_true, beq_iff_eq, Prod.mk.injEq]

/-- The test at one node. -/
theorem testHere_ok {d : NodeDict α} (hk : Keyed d) {q : Option ℕ} {N : NForest α} {F : Forest α} (hF : N.plain = some F) (hin : ∀ x ∈ N.entries q, x ∈ d) (r : ℕ) (p : ℤ) :
    testHere d N.kids = some (canFactorizeHere (.node r p F)) := by
  have hlen : N.kids.length = (trees F).length := by
    have := oneChild_ok hk N F hF hin
    have h2 : ∀ {β γ : Type} (f : β → Option γ) (l : List β) (m : List γ), l.mapM f = some m → m.length = l.length := by
      intro β γ f l
      induction l with
      | nil => intro m h; simp at h; simp [← h]
      | cons a l ih =>
        intro m h
        rw [List.mapM_cons] at h
        simp only [Option.bind_eq_bind, Option.bind_eq_some_iff, Option.pure_def, Option.some.injEq] at h
        obtain ⟨b, _, m', h', rfl⟩ := h
        simp [ih m' h']
    have := h2 _ _ _ this
    simpa using this.symm
  unfold testHere
  rw [hlen, oneChild_ok hk N F hF hin]
  simp only [Option.bind_some]
  cases F with
  | nil => simp [trees, canFactorizeHere]
  | cons e T rest =>
    cases rest with
    | nil => simp [trees, canFactorizeHere]
    | cons e' T' rest' =>
      have hl : 1 < (trees (.cons e T (.cons e' T' rest'))).length := by simp [trees]
      rw [if_pos hl]
      by_cases hall : ∀ U ∈ trees (.cons e T (.cons e' T' rest')), (onlyChild U).isSome = true
      · have h1 : ((trees (.cons e T (.cons e' T' rest'))).map (fun T => (onlyChild T).isSome)).all id = true := by
          rw [List.all_eq_true]
          intro b hb
          obtain ⟨U, hU, rfl⟩ := List.mem_map.mp hb
          exact hall U hU
        rw [if_pos h1, cycleOf_ok hk N _ hF hin hall]
        simp only [Option.map_some, Option.some.injEq]
        have hT := hall T (by simp [trees])
        obtain ⟨x, hx⟩ := Option.isSome_iff_exists.mp hT
        have hc : cyc T = (x.1, x.2.1) := by
          unfold onlyChild at hx
          split at hx
          · simp only [Option.some.injEq] at hx
            subst hx; rfl
          · simp at hx
        simp only [canFactorizeHere, hx]
        rw [Bool.eq_iff_iff, beq_iff_eq, sameCycle_iff]
        simp only [trees, List.map_cons]
        rw [dedup_one]
        rw [hc]
        constructor
        · intro h U hU
          refine ⟨hall U (by simp only [trees, List.mem_cons] at hU ⊢; exact Or.inr hU), ?_⟩
          simp only [List.mem_cons] at hU
          rcases hU with rfl | hU
          · exact h _ (by simp)
          · exact h _ (by simp only [List.mem_cons]; exact Or.inr (List.mem_map_of_mem hU))
        · intro h y hy
          simp only [List.mem_cons, List.mem_map] at hy
          rcases hy with rfl | ⟨U, hU, rfl⟩
          · exact (h T' (by simp)).2
          · exact (h U (by simp [hU])).2
      · have h1 : ((trees (.cons e T (.cons e' T' rest'))).map (fun T => (onlyChild T).isSome)).all id = false := by
          rw [Bool.eq_false_iff]
          intro h
          rw [List.all_eq_true] at h
          exact hall (fun U hU => h _ (List.mem_map_of_mem hU))
        rw [if_neg (by rw [h1]; simp)]
        simp only [Option.some.injEq]
        symm
        rw [Bool.eq_false_iff]
        intro h
        apply hall
        simp only [canFactorizeHere] at h
        split at h
        · simp at h
        · rename_i x hx
          rw [sameCycle_iff] at h
          intro U hU
          simp only [trees, List.mem_cons] at hU
          rcases hU with rfl | hU
          · simp [hx]
          · exact (h U (by simp only [trees, List.mem_cons]; exact hU)).1

mutual
/-- C95: the numbers found are those of the nodes where the tree can be factorised, in the same order. -/
theorem canFactorizeD_tree {d : NodeDict α} (hk : Keyed d) : ∀ (t : NTree α) (q : Option ℕ) (T : PTree.Tree α), (∀ x ∈ t.entries q, x ∈ d) → t.plain = some T →
    ∃ f l, l.map some = (canFactorize T).map t.idAt ∧ ∀ n, f ≤ n → canFactorizeD n d t.id = some l
  | .leaf id ev, q, T, hin, hT => by
    simp only [NTree.plain, Option.some.injEq] at hT
    subst hT
    refine ⟨1, [], rfl, fun n hn => ?_⟩
    obtain ⟨m, rfl⟩ : ∃ m, n = m + 1 := ⟨n - 1, by omega⟩
    have := (lookup_some hk).mpr (hin (id, .leaf q ev) (by simp [NTree.entries]))
    simp only [canFactorizeD, NTree.id, this]
  | .node id none ch, q, T, _, hT => by simp [NTree.plain] at hT
  | .node id (some rp) ch, q, T, hin, hT => by
    simp only [NTree.plain, Option.map_eq_some_iff] at hT
    obtain ⟨F, hF, rfl⟩ := hT
    have hin' : ∀ x ∈ ch.entries (some id), x ∈ d := fun x hx => hin x (by simp [NTree.entries, hx])
    obtain ⟨f, ls, h1, h2⟩ := canFactorizeD_forest hk ch (some id) F hin' hF 0 (NTree.node id (some rp) ch).idAt (by
      intro i u hu k
      simp only [NTree.idAt, Nat.zero_add, NTree.sub?, hu, Option.bind_some])
    refine ⟨f + 1, ls.flatten ++ (if canFactorizeHere (.node rp.1 rp.2 F) then [id] else []), ?_, fun n hn => ?_⟩
    · rw [List.map_append, h1]
      simp only [canFactorize, List.map_append]
      congr 1
      split <;> rfl
    · obtain ⟨m, rfl⟩ : ∃ m, n = m + 1 := ⟨n - 1, by omega⟩
      have := (lookup_some hk).mpr (hin (id, .inner q (some rp) ch.kids) (by simp [NTree.entries]))
      simp only [canFactorizeD, NTree.id, this, h2 m (by omega), Option.bind_some, testHere_ok hk hF hin' rp.1 rp.2, Option.map_some]
theorem canFactorizeD_forest {d : NodeDict α} (hk : Keyed d) : ∀ (N : NForest α) (q : Option ℕ) (F : Forest α), (∀ x ∈ N.entries q, x ∈ d) → N.plain = some F →
    ∀ (c0 : ℕ) (φ : List ℕ → Option ℕ), (∀ i u, N.get? i = some u → ∀ k, φ ((c0 + i) :: k) = u.idAt k) →
    ∃ f ls, ls.flatten.map some = (canFactorizeF F c0).map φ ∧ ∀ n, f ≤ n → N.kids.mapM (fun c => canFactorizeD n d c.1) = some ls
  | .nil, q, F, _, hF, c0, φ, _ => by
    simp only [NForest.plain, Option.some.injEq] at hF
    subst hF
    exact ⟨0, [], rfl, fun n _ => rfl⟩
  | .cons e t rest, q, F, hin, hF, c0, φ, hφ => by
    simp only [NForest.plain, Option.bind_eq_some_iff, Option.map_eq_some_iff] at hF
    obtain ⟨T, hT, R, hR, rfl⟩ := hF
    obtain ⟨f, l, h1, h2⟩ := canFactorizeD_tree hk t q T (fun x hx => hin x (by simp [NForest.entries, hx])) hT
    obtain ⟨g, ls, h3, h4⟩ := canFactorizeD_forest hk rest q R (fun x hx => hin x (by simp [NForest.entries, hx])) hR (c0 + 1) φ (by
      intro i u hu k
      have := hφ (i + 1) u hu k
      rw [show c0 + 1 + i = c0 + (i + 1) by omega]; exact this)
    refine ⟨f + g, l :: ls, ?_, fun n hn => ?_⟩
    · simp only [List.flatten_cons, List.map_append, h1, h3, canFactorizeF, List.map_map]
      congr 1
      refine List.map_congr_left (fun k _ => ?_)
      have := hφ 0 t rfl k
      simpa using this.symm
    · simp only [NForest.kids, List.mapM_cons, h2 n (by omega), h4 n (by omega)]
      rfl
end

/-- C95: the nodes where a pattern can be factorised. -/
theorem canFactorize_spec {d : NodeDict α} {t : NTree α} {T : PTree.Tree α} (h : Describes d t) (hT : t.plain = some T) :
    ∃ f l, l.map some = (canFactorize T).map t.idAt ∧ ∀ n, f ≤ n → canFactorizeD n d 0 = some l := by
  have := canFactorizeD_tree h.keys t none T (fun x hx => (h.same x).mpr hx) hT
  rwa [h.zero_id] at this

end Verif.Nodes
