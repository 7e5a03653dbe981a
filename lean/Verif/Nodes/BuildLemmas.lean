import Verif.Nodes.TreeLemmas

/-!
# Lemmas on building patterns
-/

set_option autoImplicit false
set_option linter.unusedSectionVars false

namespace Verif.Nodes

open Verif.PTree

variable {α β : Type}

/-! ### Reading -/

mutual
theorem treeOf_of {ns : NodeDict α} (hk : Keyed ns) : ∀ (t : NTree α) (q : Option ℕ) (T : PTree.Tree α), (∀ x ∈ t.entries q, x ∈ ns) → t.plain = some T →
    ∃ f, ∀ n, f ≤ n → treeOf n ns t.id = some T
  | .leaf id ev, q, T, h, hp => by
    refine ⟨1, fun n hn => ?_⟩
    obtain ⟨m, rfl⟩ : ∃ m, n = m + 1 := ⟨n - 1, by omega⟩
    have := (lookup_some hk).mpr (h (id, .leaf q ev) (by simp [NTree.entries]))
    simp only [NTree.plain] at hp
    simp only [treeOf, NTree.id, this, hp]
  | .node id none ch, _, T, _, hp => by simp [NTree.plain] at hp
  | .node id (some rp) ch, q, T, h, hp => by
    simp only [NTree.plain, Option.map_eq_some_iff] at hp
    obtain ⟨F, hF, rfl⟩ := hp
    obtain ⟨f, hf⟩ := forestOf_of hk ch (some id) F (fun x hx => h x (by simp [NTree.entries, hx])) hF
    refine ⟨f + 1, fun n hn => ?_⟩
    obtain ⟨m, rfl⟩ : ∃ m, n = m + 1 := ⟨n - 1, by omega⟩
    have := (lookup_some hk).mpr (h (id, .inner q (some rp) ch.kids) (by simp [NTree.entries]))
    simp only [treeOf, NTree.id, this, hf m (by omega), Option.map_some]
theorem forestOf_of {ns : NodeDict α} (hk : Keyed ns) : ∀ (F : NForest α) (q : Option ℕ) (G : Forest α), (∀ x ∈ F.entries q, x ∈ ns) → F.plain = some G →
    ∃ f, ∀ n, f ≤ n → forestOf n ns F.kids = some G
  | .nil, q, G, h, hp => by
    refine ⟨0, fun n _ => ?_⟩
    simp only [NForest.plain, Option.some.injEq] at hp
    subst hp
    cases n <;> simp [forestOf, NForest.kids]
  | .cons d t rest, q, G, h, hp => by
    simp only [NForest.plain, Option.bind_eq_some_iff, Option.map_eq_some_iff] at hp
    obtain ⟨T, hT, F, hF, rfl⟩ := hp
    obtain ⟨f, hf⟩ := treeOf_of hk t q T (fun x hx => h x (by simp [NForest.entries, hx])) hT
    obtain ⟨g, hg⟩ := forestOf_of hk rest q F (fun x hx => h x (by simp [NForest.entries, hx])) hF
    refine ⟨f + g + 1, fun n hn => ?_⟩
    obtain ⟨m, rfl⟩ : ∃ m, n = m + 1 := ⟨n - 1, by omega⟩
    simp only [forestOf, NForest.kids, hf m (by omega), hg m (by omega)]
end

/-- The tree the code reads. -/
theorem Describes.reads {ns : NodeDict α} {t : NTree α} (h : Describes ns t) {T : PTree.Tree α} (hT : t.plain = some T) : ∃ f, ∀ n, f ≤ n → treeOf n ns 0 = some T := by
  obtain ⟨f, hf⟩ := treeOf_of h.keys t none T (fun x hx => (h.same x).mpr hx) hT
  obtain ⟨rp, ch, e⟩ := h.root
  subst e
  exact ⟨f, hf⟩

theorem Describes.mem_keys {ns : NodeDict α} {t : NTree α} (h : Describes ns t) (k : ℕ) : k ∈ ns.map Prod.fst ↔ k ∈ t.ids := by
  rw [← t.entries_keys none]
  simp only [List.mem_map]
  constructor
  · rintro ⟨x, hx, e⟩; exact ⟨x, (h.same x).mp hx, e⟩
  · rintro ⟨x, hx, e⟩; exact ⟨x, (h.same x).mpr hx, e⟩

theorem Describes.length {ns : NodeDict α} {t : NTree α} (h : Describes ns t) : ns.length = t.ids.length := by
  have h2 : (ns.map Prod.fst).Perm t.ids := (List.perm_ext_iff_of_nodup h.keys h.ids).mpr (fun k => h.mem_keys k)
  simpa using h2.length_eq

theorem Describes.zero_inner {ns : NodeDict α} {t : NTree α} (h : Describes ns t) : 0 ∈ t.inner := by
  obtain ⟨rp, ch, e⟩ := h.root
  subst e; simp [NTree.inner]

theorem Describes.zero_id {ns : NodeDict α} {t : NTree α} (h : Describes ns t) : t.id = 0 := by
  obtain ⟨rp, ch, e⟩ := h.root
  subst e; rfl

theorem Describes.interm {ns : NodeDict α} {t : NTree α} (h : Describes ns t) (a : ℕ) : isInterm ns a = true ↔ a ∈ t.inner := by
  rw [t.inner_iff none a]
  unfold isInterm
  constructor
  · intro hi
    split at hi
    · rename_i q rp ch e
      exact ⟨q, rp, ch, (h.same _).mp ((lookup_some h.keys).mp e)⟩
    · simp at hi
  · rintro ⟨q, rp, ch, e⟩
    rw [(lookup_some h.keys).mpr ((h.same _).mpr e)]

/-- The anchor used is an inner node. -/
theorem Describes.anchor {ns : NodeDict α} {t : NTree α} (h : Describes ns t) (a : ℕ) : anchorOf ns a = (if a ∈ t.inner then a else 0) ∧ anchorOf ns a ∈ t.inner := by
  unfold anchorOf
  by_cases hi : a ∈ t.inner
  · rw [if_pos ((h.interm a).mpr hi), if_pos hi]; exact ⟨rfl, hi⟩
  · rw [if_neg (fun e => hi ((h.interm a).mp e)), if_neg hi]; exact ⟨rfl, h.zero_inner⟩

/-- Adding a tree with new numbers. -/
theorem Describes.add {ns res : NodeDict α} {t s : NTree α} (h : Describes ns t) {a : ℕ} (ha : a ∈ t.inner) {d : ℤ} (hs : s.ids.Nodup) (hd : ∀ k ∈ s.ids, k ∉ t.ids)
    (hk : Keyed res) (hm : ∀ x, x ∈ res ↔ (x ∈ ns ∧ x.1 ≠ a) ∨ (∃ q rp ch, (a, Node.inner q rp ch) ∈ ns ∧ x = (a, .inner q rp (ch ++ [(s.id, d)]))) ∨ x ∈ s.entries (some a)) :
    Describes res (t.addLast a d s) := by
  refine ⟨hk, ?_, ?_, ?_⟩
  · rw [(NTree.addLast_perm a d s t h.ids ha).nodup_iff, List.nodup_append]
    exact ⟨h.ids, hs, fun x hx y hy e => hd y hy (e ▸ hx)⟩
  · intro x
    rw [hm x, NTree.mem_addLast a d s x t none h.ids ha]
    simp only [h.same]
  · obtain ⟨rp, ch, e⟩ := h.root
    subst e
    simp only [NTree.addLast]
    split
    · exact ⟨rp, _, rfl⟩
    · exact ⟨rp, _, rfl⟩

/-! ### Translation -/

theorem nidMap_cons (k : ℕ) (v : Node α) (d : NodeDict α) (o : ℕ) : nidMap ((k, v) :: d) o = (k, o) :: nidMap d (o + 1) := by
  unfold nidMap
  rw [List.zipIdx_cons]
  simp only [List.map_cons, Nat.add_zero, List.cons.injEq, true_and]
  rw [List.zipIdx_succ, List.map_map]
  refine List.map_congr_left (fun x _ => ?_)
  simp only [Function.comp]
  exact Prod.ext rfl (by simp only; omega)

theorem nidMap_lookup : ∀ (d : NodeDict α) (o k : ℕ), k ∈ d.map Prod.fst → ∃ n, (nidMap d o).lookup k = some n ∧ o ≤ n ∧ n < o + d.length := by
  intro d
  induction d with
  | nil => intro o k h; simp at h
  | cons y d ih =>
    intro o k h
    obtain ⟨k', v⟩ := y
    rw [nidMap_cons, List.lookup_cons]
    by_cases e : k = k'
    · subst e
      exact ⟨o, by simp, by omega, by simp⟩
    · have e' : (k == k') = false := by simpa using e
      simp only [e']
      simp only [List.map_cons, List.mem_cons, e, false_or] at h
      obtain ⟨n, h1, h2, h3⟩ := ih (o + 1) k h
      exact ⟨n, h1, by omega, by simp only [List.length_cons]; omega⟩

theorem nidMap_some : ∀ (d : NodeDict α) (o k n : ℕ), (nidMap d o).lookup k = some n → o ≤ n ∧ k ∈ d.map Prod.fst := by
  intro d
  induction d with
  | nil => intro o k n h; simp [nidMap] at h
  | cons y d ih =>
    intro o k n h
    obtain ⟨k', v⟩ := y
    rw [nidMap_cons, List.lookup_cons] at h
    by_cases e : k = k'
    · subst e
      simp only [beq_self_eq_true, Option.some.injEq] at h
      exact ⟨by omega, by simp⟩
    · have e' : (k == k') = false := by simpa using e
      simp only [e'] at h
      obtain ⟨h1, h2⟩ := ih (o + 1) k n h
      exact ⟨by omega, by simp only [List.map_cons, List.mem_cons]; exact Or.inr h2⟩

theorem nidMap_inj : ∀ (d : NodeDict α) (o k k' n : ℕ), (nidMap d o).lookup k = some n → (nidMap d o).lookup k' = some n → k = k' := by
  intro d
  induction d with
  | nil => intro o k k' n h; simp [nidMap] at h
  | cons y d ih =>
    intro o k k' n h h'
    obtain ⟨a, v⟩ := y
    rw [nidMap_cons, List.lookup_cons] at h h'
    by_cases e : k = a <;> by_cases e' : k' = a
    · rw [e, e']
    · have e1 : (k' == a) = false := by simpa using e'
      simp only [e1] at h'
      subst e
      simp only [beq_self_eq_true, Option.some.injEq] at h
      have := (nidMap_some d (o + 1) k' n h').1
      omega
    · have e1 : (k == a) = false := by simpa using e
      simp only [e1] at h
      subst e'
      simp only [beq_self_eq_true, Option.some.injEq] at h'
      have := (nidMap_some d (o + 1) k n h).1
      omega
    · have e1 : (k == a) = false := by simpa using e
      have e2 : (k' == a) = false := by simpa using e'
      simp only [e1] at h
      simp only [e2] at h'
      exact ih (o + 1) k k' n h h'

theorem getNid_range (d : NodeDict α) (o k : ℕ) (h : k ∈ d.map Prod.fst) : o ≤ getNid (nidMap d o) k ∧ getNid (nidMap d o) k < o + d.length ∧ (nidMap d o).lookup k = some (getNid (nidMap d o) k) := by
  obtain ⟨n, h1, h2, h3⟩ := nidMap_lookup d o k h
  unfold getNid
  rw [h1]
  exact ⟨h2, h3, rfl⟩

theorem getNid_inj (d : NodeDict α) (o : ℕ) {k k' : ℕ} (h : k ∈ d.map Prod.fst) (h' : k' ∈ d.map Prod.fst) (e : getNid (nidMap d o) k = getNid (nidMap d o) k') : k = k' := by
  have h1 := (getNid_range d o k h).2.2
  have h2 := (getNid_range d o k' h').2.2
  exact nidMap_inj d o k k' _ h1 (e ▸ h2)

theorem foldl_put (g : ℕ × Node α → ℕ × Node α) (l : NodeDict α) : ∀ (acc : NodeDict α), l.foldl (fun acc x => put acc (g x).1 (g x).2) acc = update acc (l.map g) := by
  induction l with
  | nil => intro acc; rfl
  | cons x l ih => intro acc; exact ih _

/-- The translated nodes. -/
theorem translated_spec {d : NodeDict α} (hd : Keyed d) (o : ℕ) :
    Keyed (translated d o) ∧ ∀ x, x ∈ translated d o ↔ x ∈ d.map (fun x => (getNid (nidMap d o) x.1, renameNode (getNid (nidMap d o)) x.2)) := by
  have he : translated d o = update [] (d.reverse.map (fun x => (getNid (nidMap d o) x.1, renameNode (getNid (nidMap d o)) x.2))) :=
    foldl_put (fun x => (getNid (nidMap d o) x.1, renameNode (getNid (nidMap d o)) x.2)) d.reverse []
  have hk : Keyed (d.reverse.map (fun x => (getNid (nidMap d o) x.1, renameNode (getNid (nidMap d o)) x.2))) := by
    unfold Keyed
    rw [List.map_map]
    have : (Prod.fst ∘ fun x : ℕ × Node α => (getNid (nidMap d o) x.1, renameNode (getNid (nidMap d o)) x.2)) = getNid (nidMap d o) ∘ Prod.fst := rfl
    rw [this, ← List.map_map, List.map_reverse, List.map_reverse, List.nodup_reverse]
    exact List.Nodup.map_on (fun x hx y hy e => getNid_inj d o hx hy e) hd
  rw [he]
  obtain ⟨a, b⟩ := update_spec (d := ([] : NodeDict α)) List.nodup_nil _ hk
  refine ⟨a, fun x => ?_⟩
  rw [b x]
  simp

theorem translated_describes {d : NodeDict α} {t : NTree α} (h : Describes d t) (o : ℕ) (x : ℕ × Node α) :
    x ∈ translated d o ↔ x ∈ (t.rename (getNid (nidMap d o))).entries none := by
  rw [(translated_spec h.keys o).2 x]
  have := NTree.rename_entries (getNid (nidMap d o)) t none
  simp only [Option.map_none] at this
  rw [this]
  simp only [List.mem_map, h.same]

theorem rename_nodup {d : NodeDict α} {t : NTree α} (h : Describes d t) (o : ℕ) : (t.rename (getNid (nidMap d o))).ids.Nodup := by
  rw [NTree.rename_ids]
  exact List.Nodup.map_on (fun x hx y hy e => getNid_inj d o ((h.mem_keys x).mpr hx) ((h.mem_keys y).mpr hy) e) h.ids

theorem rename_range {d : NodeDict α} {t : NTree α} (h : Describes d t) (o : ℕ) {k : ℕ} (hk : k ∈ (t.rename (getNid (nidMap d o))).ids) : o ≤ k ∧ k < o + d.length := by
  rw [NTree.rename_ids, List.mem_map] at hk
  obtain ⟨j, hj, rfl⟩ := hk
  have := getNid_range d o j ((h.mem_keys j).mpr hj)
  exact ⟨this.1, this.2.1⟩

end Verif.Nodes
