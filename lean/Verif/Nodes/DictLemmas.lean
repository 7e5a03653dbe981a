import Verif.Nodes.BuildModel
import Mathlib.Data.List.Nodup

/-!
# Lemmas on dictionaries of nodes
-/

set_option autoImplicit false
set_option linter.unusedSectionVars false

namespace Verif.Nodes

variable {α β : Type}

/-- No key twice. -/
def Keyed (d : NodeDict α) : Prop := (d.map Prod.fst).Nodup

theorem Keyed.unique {d : NodeDict α} (h : Keyed d) {k : ℕ} {v w : Node α} (hv : (k, v) ∈ d) (hw : (k, w) ∈ d) : v = w := by
  induction d with
  | nil => simp at hv
  | cons y d ih =>
    simp only [Keyed, List.map_cons, List.nodup_cons] at h
    rcases List.mem_cons.mp hv with e | hv2 <;> rcases List.mem_cons.mp hw with e' | hw2
    · subst e; exact (Prod.mk.inj e').2.symm
    · subst e; exact absurd (List.mem_map_of_mem (f := Prod.fst) hw2) h.1
    · subst e'; exact absurd (List.mem_map_of_mem (f := Prod.fst) hv2) h.1
    · exact ih h.2 hv2 hw2

theorem lookup_some {d : NodeDict α} (h : Keyed d) {k : ℕ} {v : Node α} : d.lookup k = some v ↔ (k, v) ∈ d := by
  induction d with
  | nil => simp
  | cons y d ih =>
    obtain ⟨k', v'⟩ := y
    simp only [Keyed, List.map_cons, List.nodup_cons] at h
    rw [List.lookup_cons]
    by_cases hk : k = k'
    · subst hk
      simp only [beq_self_eq_true, Option.some.injEq, List.mem_cons, Prod.mk.injEq, true_and]
      constructor
      · intro e; exact Or.inl e.symm
      · rintro (e | e)
        · exact e.symm
        · exact absurd (List.mem_map_of_mem (f := Prod.fst) e) h.1
    · have : (k == k') = false := by simpa using hk
      simp only [this, List.mem_cons, Prod.mk.injEq, hk, false_and, false_or]
      exact ih h.2

theorem lookup_none {d : NodeDict α} {k : ℕ} : d.lookup k = none ↔ k ∉ d.map Prod.fst := by
  induction d with
  | nil => simp
  | cons y d ih =>
    obtain ⟨k', v'⟩ := y
    rw [List.lookup_cons]
    by_cases hk : k = k'
    · subst hk; simp
    · have : (k == k') = false := by simpa using hk
      simp only [this, List.map_cons, List.mem_cons, hk, false_or]
      exact ih

theorem mem_keys {d : NodeDict α} {k : ℕ} : k ∈ d.map Prod.fst ↔ ∃ v, (k, v) ∈ d := by
  simp

theorem keys_put (d : NodeDict α) (k : ℕ) (v : Node α) : (put d k v).map Prod.fst = if k ∈ d.map Prod.fst then d.map Prod.fst else d.map Prod.fst ++ [k] := by
  induction d with
  | nil => simp [put]
  | cons y d ih =>
    obtain ⟨k', v'⟩ := y
    unfold put
    by_cases hk : k' = k
    · subst hk; simp
    · have hk' : ¬ k = k' := fun e => hk e.symm
      simp only [hk, if_false, List.map_cons, ih, List.mem_cons, hk', false_or]
      split <;> simp

theorem Keyed.put {d : NodeDict α} (h : Keyed d) (k : ℕ) (v : Node α) : Keyed (put d k v) := by
  unfold Keyed at h ⊢
  rw [keys_put]
  split
  · exact h
  · rename_i hk
    rw [List.nodup_append]
    refine ⟨h, by simp, ?_⟩
    intro a ha b hb
    simp only [List.mem_singleton] at hb
    subst hb
    intro e; subst e; exact hk ha

theorem mem_put {d : NodeDict α} (h : Keyed d) (k : ℕ) (v : Node α) (x : ℕ × Node α) : x ∈ put d k v ↔ x = (k, v) ∨ (x ∈ d ∧ x.1 ≠ k) := by
  induction d with
  | nil => simp [Nodes.put]
  | cons y d ih =>
    obtain ⟨k', v'⟩ := y
    simp only [Keyed, List.map_cons, List.nodup_cons] at h
    unfold Nodes.put
    by_cases hk : k' = k
    · subst hk
      simp only [if_true, List.mem_cons]
      constructor
      · rintro (e | e)
        · exact Or.inl e
        · right
          refine ⟨Or.inr e, ?_⟩
          intro e'
          exact h.1 (e' ▸ List.mem_map_of_mem (f := Prod.fst) e)
      · rintro (e | ⟨e | e, n⟩)
        · exact Or.inl e
        · subst e; exact absurd rfl n
        · exact Or.inr e
    · simp only [hk, if_false, List.mem_cons, ih h.2]
      constructor
      · rintro (e | e | ⟨e, n⟩)
        · subst e; exact Or.inr ⟨Or.inl rfl, hk⟩
        · exact Or.inl e
        · exact Or.inr ⟨Or.inr e, n⟩
      · rintro (e | ⟨e | e, n⟩)
        · exact Or.inr (Or.inl e)
        · exact Or.inl e
        · exact Or.inr (Or.inr ⟨e, n⟩)

theorem mem_keys_put {d : NodeDict α} (k : ℕ) (v : Node α) (a : ℕ) : a ∈ (put d k v).map Prod.fst ↔ a = k ∨ a ∈ d.map Prod.fst := by
  rw [keys_put]
  split
  · rename_i h
    constructor
    · exact Or.inr
    · rintro (e | e)
      · exact e ▸ h
      · exact e
  · rw [List.mem_append, List.mem_singleton]; exact or_comm

theorem keys_put_mem {d : NodeDict α} {k : ℕ} (h : k ∈ d.map Prod.fst) (v : Node α) : (put d k v).map Prod.fst = d.map Prod.fst := by
  rw [keys_put, if_pos h]

theorem modifyKey_ok {d : NodeDict α} (h : Keyed d) {k : ℕ} {v w : Node α} {f : Node α → Except String (Node α)} (hv : (k, v) ∈ d) (hf : f v = .ok w) : modifyKey d k f = .ok (put d k w) := by
  unfold modifyKey
  rw [(lookup_some h).mpr hv]
  simp only [hf]
  rfl

theorem mem_dropKey {d : NodeDict α} {k : ℕ} {x : ℕ × Node α} : x ∈ dropKey d k ↔ x ∈ d ∧ x.1 ≠ k := by
  simp [dropKey]

theorem Keyed.dropKey {d : NodeDict α} (h : Keyed d) (k : ℕ) : Keyed (dropKey d k) := by
  unfold Keyed Nodes.dropKey at *
  exact List.Nodup.sublist (List.filter_sublist.map Prod.fst) h

theorem update_spec {d : NodeDict α} (h : Keyed d) : ∀ (e : NodeDict α), Keyed e → Keyed (update d e) ∧ ∀ x, x ∈ update d e ↔ x ∈ e ∨ (x ∈ d ∧ x.1 ∉ e.map Prod.fst) := by
  intro e
  induction e generalizing d with
  | nil => intro _; exact ⟨h, fun x => by simp [update]⟩
  | cons y e ih =>
    intro he
    simp only [Keyed, List.map_cons, List.nodup_cons] at he
    have hu : update d (y :: e) = update (put d y.1 y.2) e := rfl
    rw [hu]
    obtain ⟨a, b⟩ := ih (h.put y.1 y.2) he.2
    refine ⟨a, fun x => ?_⟩
    rw [b x, mem_put h]
    simp only [List.mem_cons, List.map_cons, not_or]
    constructor
    · rintro (m | ⟨rfl | ⟨m, n⟩, o⟩)
      · exact Or.inl (Or.inr m)
      · exact Or.inl (Or.inl rfl)
      · exact Or.inr ⟨m, n, o⟩
    · rintro ((m | m) | ⟨m, n, o⟩)
      · subst m; exact Or.inr ⟨Or.inl rfl, he.1⟩
      · exact Or.inl m
      · exact Or.inr ⟨Or.inr ⟨m, n⟩, o⟩

theorem setParents_spec (q : Option ℕ) : ∀ (ch : List (ℕ × ℤ)) {d : NodeDict α}, Keyed d → (∀ c ∈ ch, c.1 ∈ d.map Prod.fst) →
    ∃ d', setParents q ch d = .ok d' ∧ d'.map Prod.fst = d.map Prod.fst ∧
      ∀ x, x ∈ d' ↔ (x ∈ d ∧ x.1 ∉ ch.map Prod.fst) ∨ (x.1 ∈ ch.map Prod.fst ∧ ∃ v, (x.1, v) ∈ d ∧ x.2 = v.setParent q) := by
  intro ch
  induction ch with
  | nil => intro d _ _; exact ⟨d, rfl, rfl, fun x => by simp⟩
  | cons c ch ih =>
    intro d h hc
    obtain ⟨v, hv⟩ := mem_keys.mp (hc c (by simp))
    have hm : modifyKey d c.1 (fun v => .ok (v.setParent q)) = .ok (put d c.1 (v.setParent q)) := modifyKey_ok h hv rfl
    have hk := keys_put_mem (hc c (by simp)) (v.setParent q)
    obtain ⟨d', h1, h2, h3⟩ := ih (h.put c.1 (v.setParent q)) (by
      intro c' hc'
      rw [hk]
      exact hc c' (by simp [hc']))
    refine ⟨d', ?_, by rw [h2, hk], ?_⟩
    · unfold setParents
      rw [hm]
      exact h1
    · intro x
      rw [h3 x]
      simp only [mem_put h, List.map_cons, List.mem_cons, not_or]
      constructor
      · rintro (⟨rfl | ⟨m, n⟩, o⟩ | ⟨m, w, (e | ⟨e, n⟩), hw⟩)
        · right; exact ⟨Or.inl rfl, v, hv, rfl⟩
        · left; exact ⟨m, n, o⟩
        · right
          obtain ⟨e1, e2⟩ := Prod.mk.inj e
          refine ⟨Or.inr m, v, e1 ▸ hv, ?_⟩
          rw [hw, e2]
          cases v <;> rfl
        · right
          exact ⟨Or.inr m, w, e, hw⟩
      · rintro (⟨m, n, o⟩ | ⟨m, w, e, hw⟩)
        · left; exact ⟨Or.inr ⟨m, n⟩, o⟩
        · by_cases hx : x.1 ∈ ch.map Prod.fst
          · right
            refine ⟨hx, ?_⟩
            by_cases hxc : x.1 = c.1
            · refine ⟨v.setParent q, Or.inl (by rw [hxc]), ?_⟩
              have : w = v := h.unique e (hxc ▸ hv)
              rw [hw, this]
              cases v <;> rfl
            · exact ⟨w, Or.inr ⟨e, hxc⟩, hw⟩
          · left
            rcases m with m | m
            · refine ⟨Or.inl ?_, hx⟩
              have : w = v := h.unique e (m ▸ hv)
              exact Prod.ext m (by rw [hw, this])
            · exact absurd m hx

end Verif.Nodes
