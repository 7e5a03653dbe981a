import Verif.PTree.Refs

set_option autoImplicit false
set_option linter.unusedSectionVars false

namespace Verif.PTree

variable {α : Type}

theorem mapM_some_map {β γ : Type} (l : List β) (f : β → Option γ) (g : β → γ) (h : ∀ x ∈ l, f x = some (g x)) : l.mapM f = some (l.map g) := by
  induction l with
  | nil => rfl
  | cons a l ih =>
    rw [List.mapM_cons, h a (by simp), ih (fun x hx => h x (by simp [hx]))]
    rfl

theorem nodeAt_append (k k' : Path) : ∀ (T : Tree α) {t : Tree α}, nodeAt T k = some t → nodeAt T (k ++ k') = nodeAt t k' := by
  induction k with
  | nil => intro T t h; simp [nodeAt] at h; simp [h]
  | cons a k ih =>
    intro T t h
    obtain ⟨c, i⟩ := a
    cases T with
    | leaf ev => simp [nodeAt] at h
    | node r p ch =>
      simp only [nodeAt, List.cons_append] at h ⊢
      cases hc : ch.get? c with
      | none => simp [hc] at h
      | some t' =>
        simp only [hc, Option.bind_some] at h ⊢
        exact ih t' h

theorem get_regular : ∀ (ch : Forest α), ch.Regular → ∀ c t, ch.get? c = some t → t.Regular
  | .nil, _, c, t, h => by simp [Forest.get?] at h
  | .cons d t' rest, hr, 0, t, h => by
    simp only [Forest.get?, Option.some.injEq] at h
    simp only [Forest.Regular] at hr
    rw [← h]; exact hr.1
  | .cons d t' rest, hr, c + 1, t, h => by
    simp only [Forest.Regular] at hr
    exact get_regular rest hr.2 c t (by simpa [Forest.get?] using h)

theorem get_lt : ∀ (ch : Forest α) (c : ℕ) (t : Tree α), ch.get? c = some t → ∀ j < c, ∃ t', ch.get? j = some t'
  | .nil, c, t, h => by simp [Forest.get?] at h
  | .cons d t' rest, 0, t, h => by intro j hj; omega
  | .cons d t' rest, c + 1, t, h => by
    intro j hj
    cases j with
    | zero => exact ⟨t', rfl⟩
    | succ j => exact get_lt rest c t (by simpa [Forest.get?] using h) j (by omega)

/-- First leaf of child `j`. -/
def lmAt (ch : Forest α) (j : ℕ) : Path := ((ch.get? j).map lm).getD []

theorem gF_eq : ∀ (ch : Forest α) (ni i c : ℕ) (q : Path) (t : Tree α), ch.get? c = some t →
    (gF ch ni i c q).Perm ((gT t q).map (fun k => (ni + c, i) :: k) ++ (List.range c).map (fun j => (ni + j, i) :: lmAt ch j))
  | .nil, _, _, c, _, t, h => by simp [Forest.get?] at h
  | .cons d t' rest, ni, i, 0, q, t, h => by
    simp only [Forest.get?, Option.some.injEq] at h
    subst h
    simp [gF]
  | .cons d t' rest, ni, i, c + 1, q, t, h => by
    have ih := gF_eq rest (ni + 1) i c q t (by simpa [Forest.get?] using h)
    simp only [gF]
    rw [List.range_succ_eq_map]
    simp only [List.map_cons, List.map_map]
    refine (ih.append_right _).trans ?_
    rw [List.append_assoc]
    have e1 : ni + 1 + c = ni + (c + 1) := by omega
    rw [e1]
    refine List.Perm.append_left _ ?_
    have e2 : List.map (fun j => (ni + 1 + j, i) :: lmAt rest j) (List.range c) =
        List.map ((fun j => (ni + j, i) :: lmAt (.cons d t' rest) j) ∘ Nat.succ) (List.range c) := by
      apply List.map_congr_left
      intro j _
      simp only [Function.comp_apply, Nat.succ_eq_add_one]
      have : ni + 1 + j = ni + (j + 1) := by omega
      rw [this]; rfl
    rw [e2]
    have e3 : lmAt (.cons d t' rest) 0 = lm t' := rfl
    rw [e3]
    simp only [Nat.add_zero]
    exact List.perm_append_comm

theorem gather_append (P : Path) (c i : ℕ) (T : Tree α) :
    gather T (P ++ [(c, i)]) =
      match (List.range c).mapM (fun j => leafKeyFromKey T (P ++ [(j, i)])), (List.range i).mapM (fun j => leafKeyFromRep T P j), gather T P with
      | some a, some b, some g => some (a ++ b ++ g)
      | _, _, _ => none := by
  unfold gather
  simp only [List.reverse_append, List.reverse_cons, List.reverse_nil, List.nil_append, List.cons_append, gatherRev, List.reverse_reverse]
  generalize (List.range c).mapM (fun j => leafKeyFromKey T (P ++ [(j, i)])) = a
  generalize (List.range i).mapM (fun j => leafKeyFromRep T P j) = b
  generalize gatherRev T P.reverse = g
  cases a <;> cases b <;> cases g <;> rfl

theorem mem_pos_node {r : ℕ} {p : ℤ} {ch : Forest α} {k : Path} (h : k ∈ (pos (.node r p ch)).map Prod.fst) :
    ∃ c i q t, k = (c, i) :: q ∧ ch.get? c = some t ∧ q ∈ (pos t).map Prod.fst ∧ i < r := by
  have aux : ∀ (ch : Forest α) (ni i : ℕ) (k : Path), k ∈ (posF ch ni i).map Prod.fst →
      ∃ c q t, k = (ni + c, i) :: q ∧ ch.get? c = some t ∧ q ∈ (pos t).map Prod.fst := by
    intro ch
    induction ch using Forest.rec (motive_1 := fun _ => True) with
    | leaf => trivial
    | node => trivial
    | nil => intro ni i k h; simp [posF] at h
    | cons d t rest _ ih =>
      intro ni i k h
      simp only [posF, List.map_append, List.mem_append, List.map_map] at h
      rcases h with h | h
      · obtain ⟨x, hx, rfl⟩ := List.mem_map.mp h
        exact ⟨0, x.1, t, by simp, rfl, List.mem_map_of_mem hx⟩
      · obtain ⟨c, q, t', h1, h2, h3⟩ := ih (ni + 1) i k h
        exact ⟨c + 1, q, t', by rw [h1]; congr 2; omega, by simpa [Forest.get?] using h2, h3⟩
  simp only [pos, List.map_flatMap, List.mem_flatMap, List.mem_range] at h
  obtain ⟨i, hi, hk⟩ := h
  obtain ⟨c, q, t, h1, h2, h3⟩ := aux ch 0 i k hk
  exact ⟨c, i, q, t, by simpa using h1, h2, h3, hi⟩

theorem gather_eq (T : Tree α) (q : Path) : ∀ (P : Path) (t : Tree α) (gP : List Path), nodeAt T P = some t → t.Regular →
    gather T P = some gP → q ∈ (pos t).map Prod.fst →
    ∃ g, gather T (P ++ q) = some g ∧ g.Perm ((gT t q).map (fun k => P ++ k) ++ gP) := by
  induction q with
  | nil =>
    intro P t gP hP hr hg hq
    cases t with
    | leaf ev => exact ⟨gP, by simpa using hg, by simp [gT]⟩
    | node r p ch => exact ⟨gP, by simpa using hg, by simp [gT]⟩
  | cons a q ih =>
    intro P t gP hP hr hg hq
    cases t with
    | leaf ev => simp [pos] at hq
    | node r p ch =>
      obtain ⟨c, i, q', t, hk, hc, hq', hi⟩ := mem_pos_node hq
      simp only [List.cons.injEq] at hk
      obtain ⟨rfl, rfl⟩ := hk
      simp only [Tree.Regular] at hr
      have hat : ∀ j i t', ch.get? j = some t' → nodeAt T (P ++ [(j, i)]) = some t' := by
        intro j i t' hj
        rw [nodeAt_append P _ T hP]
        simp [nodeAt, hj]
      have ha : (List.range c).mapM (fun j => leafKeyFromKey T (P ++ [(j, i)])) = some ((List.range c).map (fun j => P ++ ((j, i) :: lmAt ch j))) := by
        apply mapM_some_map
        intro j hj
        obtain ⟨t', ht'⟩ := get_lt ch c t hc j (by simpa using hj)
        simp [leafKeyFromKey, hat j i t' ht', leftmost_eq t' (get_regular ch hr.2.2.2 j t' ht'), lmAt, ht']
      have hb : (List.range i).mapM (fun j => leafKeyFromRep T P j) = some ((List.range i).map (fun j => P ++ ((0, j) :: lmF ch))) := by
        apply mapM_some_map
        intro j hj
        cases ch with
        | nil => simp [Forest.get?] at hc
        | cons d t0 rest =>
          have : t0.Regular := by have := hr.2.2.2; simp only [Forest.Regular] at this; exact this.1
          simp [leafKeyFromRep, hP, leftmost_eq t0 this, lmF]
      have hg' := gather_append P c i T
      rw [ha, hb, hg] at hg'
      simp only at hg'
      obtain ⟨g, hg1, hg2⟩ := ih (P ++ [(c, i)]) t _ (hat c i t hc) (get_regular ch hr.2.2.2 c t hc) hg' hq'
      refine ⟨g, by simpa using hg1, hg2.trans ?_⟩
      simp only [gT]
      have h1 := gF_eq ch 0 i c q t hc
      simp only [Nat.zero_add] at h1
      have h2 := ((h1.append_right (List.map (fun j => (0, j) :: lmF ch) (List.range i))).map (fun k => P ++ k)).append_right gP
      refine List.Perm.trans ?_ h2.symm
      simp only [List.map_append, List.map_map, List.append_assoc]
      have e : ∀ l : List Path, List.map (fun k => P ++ (c, i) :: k) l = List.map ((fun k => P ++ k) ∘ (fun k => (c, i) :: k)) l := fun _ => rfl
      simp only [List.cons_append, List.nil_append]
      exact List.Perm.refl _

end Verif.PTree
