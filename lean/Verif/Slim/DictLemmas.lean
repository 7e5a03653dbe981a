import Verif.Slim.Model

set_option autoImplicit false
set_option linter.unusedSectionVars false

namespace Verif.Slim

section Dict
variable {K W : Type*} [DecidableEq K]

theorem keys_dictSet (d : List (K × W)) (k : K) (v : W) :
    (dictSet d k v).map Prod.fst = if k ∈ d.map Prod.fst then d.map Prod.fst else d.map Prod.fst ++ [k] := by
  unfold dictSet
  split
  · rw [List.map_map]
    apply List.map_congr_left
    intro e _
    simp only [Function.comp]
    split
    · next h => exact h.symm
    · rfl
  · simp

theorem mem_dictSet (d : List (K × W)) (k : K) (v : W) (e : K × W) :
    e ∈ dictSet d k v ↔ e = (k, v) ∨ (e ∈ d ∧ e.1 ≠ k) := by
  unfold dictSet
  split
  · next h =>
    rw [List.mem_map]
    constructor
    · rintro ⟨x, hx, rfl⟩
      by_cases hk : x.1 = k
      · rw [if_pos hk]; exact Or.inl rfl
      · rw [if_neg hk]; exact Or.inr ⟨hx, hk⟩
    · rintro (rfl | ⟨he, hk⟩)
      · obtain ⟨x, hx, hxk⟩ := List.mem_map.1 h
        exact ⟨x, hx, by rw [if_pos hxk]⟩
      · exact ⟨e, he, by rw [if_neg hk]⟩
  · next h =>
    rw [List.mem_append, List.mem_singleton]
    constructor
    · rintro (he | rfl)
      · exact Or.inr ⟨he, fun hk => h (List.mem_map.2 ⟨e, he, hk⟩)⟩
      · exact Or.inl rfl
    · rintro (rfl | ⟨he, _⟩)
      · exact Or.inr rfl
      · exact Or.inl he

theorem mem_keys_dictSet (d : List (K × W)) (k : K) (v : W) (k' : K) :
    k' ∈ (dictSet d k v).map Prod.fst ↔ k' = k ∨ k' ∈ d.map Prod.fst := by
  rw [keys_dictSet]
  split
  · next h =>
    constructor
    · exact Or.inr
    · rintro (rfl | h')
      · exact h
      · exact h'
  · rw [List.mem_append, List.mem_singleton, or_comm]

theorem nodup_dictSet (d : List (K × W)) (k : K) (v : W) (h : (d.map Prod.fst).Nodup) :
    ((dictSet d k v).map Prod.fst).Nodup := by
  rw [keys_dictSet]
  split
  · exact h
  · next hk =>
    rw [List.nodup_append]
    exact ⟨h, List.nodup_singleton _, fun a ha b hb => by
      rw [List.mem_singleton] at hb; subst hb; rintro rfl; exact hk ha⟩

theorem dictUpdate_cons (d : List (K × W)) (e : K × W) (d2 : List (K × W)) :
    dictUpdate d (e :: d2) = dictUpdate (dictSet d e.1 e.2) d2 := rfl

theorem nodup_dictUpdate (d d2 : List (K × W)) (h : (d.map Prod.fst).Nodup) :
    ((dictUpdate d d2).map Prod.fst).Nodup := by
  induction d2 generalizing d with
  | nil => exact h
  | cons e d2 ih => rw [dictUpdate_cons]; exact ih _ (nodup_dictSet _ _ _ h)

theorem mem_dictUpdate (d d2 : List (K × W)) (h2 : (d2.map Prod.fst).Nodup) (e : K × W) :
    e ∈ dictUpdate d d2 ↔ e ∈ d2 ∨ (e ∈ d ∧ e.1 ∉ d2.map Prod.fst) := by
  induction d2 generalizing d with
  | nil => simp [dictUpdate]
  | cons x d2 ih =>
    rw [List.map_cons, List.nodup_cons] at h2
    rw [dictUpdate_cons, ih _ h2.2, mem_dictSet, List.mem_cons, List.map_cons, List.mem_cons]
    constructor
    · rintro (h | ⟨rfl | ⟨h, hk⟩, hn⟩)
      · exact Or.inl (Or.inr h)
      · exact Or.inl (Or.inl rfl)
      · exact Or.inr ⟨h, fun hc => hc.elim hk hn⟩
    · rintro ((rfl | h) | ⟨h, hn⟩)
      · exact Or.inr ⟨Or.inl rfl, h2.1⟩
      · exact Or.inl h
      · exact Or.inr ⟨Or.inr ⟨h, fun hc => hn (Or.inl hc)⟩, fun hc => hn (Or.inr hc)⟩

theorem keys_dictUpdate_subset (d d2 : List (K × W)) (h : ∀ k ∈ d2.map Prod.fst, k ∈ d.map Prod.fst) :
    (dictUpdate d d2).map Prod.fst = d.map Prod.fst := by
  induction d2 generalizing d with
  | nil => rfl
  | cons x d2 ih =>
    have hx : x.1 ∈ d.map Prod.fst := h x.1 (by simp)
    have hk : (dictSet d x.1 x.2).map Prod.fst = d.map Prod.fst := by rw [keys_dictSet, if_pos hx]
    rw [dictUpdate_cons, ih, hk]
    intro k hk2
    rw [hk]
    exact h k (by rw [List.map_cons]; exact List.mem_cons_of_mem _ hk2)

theorem mem_dictDel (d : List (K × W)) (k : K) (e : K × W) : e ∈ dictDel d k ↔ e ∈ d ∧ e.1 ≠ k := by
  unfold dictDel; rw [List.mem_filter, decide_eq_true_eq]

theorem nodup_filter_keys (d : List (K × W)) (p : K × W → Bool) (h : (d.map Prod.fst).Nodup) :
    ((d.filter p).map Prod.fst).Nodup := h.sublist (List.filter_sublist.map _)

theorem mem_key_of_mem {d : List (K × W)} {e : K × W} (h : e ∈ d) : e.1 ∈ d.map Prod.fst := List.mem_map.2 ⟨e, h, rfl⟩

theorem eq_of_mem_of_key {d : List (K × W)} (h : (d.map Prod.fst).Nodup) {e e' : K × W} (he : e ∈ d) (he' : e' ∈ d)
    (hk : e.1 = e'.1) : e = e' := List.inj_on_of_nodup_map h he he' hk

theorem eq_of_keys_eq (l1 l2 : List (K × W)) (hk : l1.map Prod.fst = l2.map Prod.fst) (hnd : (l1.map Prod.fst).Nodup)
    (hsub : ∀ e ∈ l1, e ∈ l2) : l1 = l2 := by
  induction l1 generalizing l2 with
  | nil =>
    cases l2 with
    | nil => rfl
    | cons _ _ => cases hk
  | cons x l1 ih =>
    cases l2 with
    | nil => cases hk
    | cons y l2 =>
      rw [List.map_cons, List.map_cons, List.cons.injEq] at hk
      have hnd2 : ((y :: l2).map Prod.fst).Nodup := by rw [List.map_cons, ← hk.1, ← hk.2, ← List.map_cons]; exact hnd
      have hxy : x = y := eq_of_mem_of_key hnd2 (hsub x (by simp)) (by simp) hk.1
      subst hxy
      rw [List.map_cons, List.nodup_cons] at hnd
      rw [ih l2 hk.2 hnd.2]
      intro e he
      rcases List.mem_cons.1 (hsub e (List.mem_cons_of_mem _ he)) with rfl | h
      · exact absurd (mem_key_of_mem he) hnd.1
      · exact h

end Dict

section Lookup
variable {K : Type*} [DecidableEq K]

theorem lookup_of_mem {d : List (K × Finset ℕ)} (h : (d.map Prod.fst).Nodup) {e : K × Finset ℕ} (he : e ∈ d) :
    lookup d e.1 = e.2 := by
  unfold lookup
  cases hf : d.find? (fun x => x.1 = e.1) with
  | none =>
    rw [List.find?_eq_none] at hf
    exact absurd (decide_eq_true rfl) (hf e he)
  | some x =>
    have hx := List.mem_of_find?_eq_some hf
    have hk : x.1 = e.1 := by simpa using List.find?_some hf
    simp only
    rw [eq_of_mem_of_key h hx he hk]

theorem lookup_of_not_mem {d : List (K × Finset ℕ)} {k : K} (h : k ∉ d.map Prod.fst) : lookup d k = ∅ := by
  unfold lookup
  cases hf : d.find? (fun x => x.1 = k) with
  | none => rfl
  | some x =>
    have hx := List.mem_of_find?_eq_some hf
    have hk : x.1 = k := by simpa using List.find?_some hf
    exact absurd (hk ▸ mem_key_of_mem hx) h

theorem mem_of_key {d : List (K × Finset ℕ)} (hnd : (d.map Prod.fst).Nodup) {k : K} (h : k ∈ d.map Prod.fst) :
    (k, lookup d k) ∈ d := by
  obtain ⟨e, he, rfl⟩ := List.mem_map.1 h
  rw [lookup_of_mem hnd he]
  exact he

theorem lookup_congr {d d' : List (K × Finset ℕ)} (hnd : (d.map Prod.fst).Nodup) (hnd' : (d'.map Prod.fst).Nodup) (k : K)
    (h : ∀ v, (k, v) ∈ d ↔ (k, v) ∈ d') : lookup d k = lookup d' k := by
  by_cases hk : k ∈ d.map Prod.fst
  · have h1 := mem_of_key hnd hk
    have h2 := (h _).1 h1
    exact (lookup_of_mem hnd' h2).symm
  · rw [lookup_of_not_mem hk, lookup_of_not_mem]
    intro hk'
    exact hk (mem_key_of_mem ((h _).2 (mem_of_key hnd' hk')))

theorem lookup_dictSet (d : List (K × Finset ℕ)) (hnd : (d.map Prod.fst).Nodup) (k : K) (v : Finset ℕ) (k' : K) :
    lookup (dictSet d k v) k' = if k' = k then v else lookup d k' := by
  split
  · next h =>
    subst h
    exact lookup_of_mem (nodup_dictSet d k' v hnd) ((mem_dictSet d k' v (k', v)).2 (Or.inl rfl))
  · next h =>
    apply lookup_congr (nodup_dictSet d k v hnd) hnd
    intro w
    rw [mem_dictSet]
    constructor
    · rintro (hc | ⟨hm, _⟩)
      · exact absurd (congrArg Prod.fst hc) h
      · exact hm
    · exact fun hm => Or.inr ⟨hm, h⟩

theorem lookup_dictDel (d : List (K × Finset ℕ)) (hnd : (d.map Prod.fst).Nodup) (k k' : K) (h : k' ≠ k) :
    lookup (dictDel d k) k' = lookup d k' := by
  refine lookup_congr (d := dictDel d k) (nodup_filter_keys _ _ hnd) hnd k' (fun w => ?_)
  rw [mem_dictDel]
  exact ⟨fun hm => hm.1, fun hm => ⟨hm, h⟩⟩

end Lookup

section Vertical
variable {α : Type*} [LinearOrder α]

/-- What a vertical representation must satisfy with respect to a set of (item, transaction number) pairs. -/
theorem addTransaction_spec (stop : Finset α) (tr : List α) (i : ℕ) (res : Sct α) (hnd : (res.map Prod.fst).Nodup) :
    ((addTransaction stop res tr i).map Prod.fst).Nodup ∧
    (∀ a, a ∈ (addTransaction stop res tr i).map Prod.fst ↔ a ∈ res.map Prod.fst ∨ (a ∈ tr ∧ a ∉ stop)) ∧
    (∀ a t, t ∈ lookup (addTransaction stop res tr i) a ↔ t ∈ lookup res a ∨ (t = i ∧ a ∈ tr ∧ a ∉ stop)) := by
  induction tr generalizing res with
  | nil => simp [addTransaction, hnd]
  | cons e tr ih =>
    by_cases he : e ∈ stop
    · have : addTransaction stop res (e :: tr) i = addTransaction stop res tr i := by
        unfold addTransaction; rw [List.foldl_cons, if_pos he]
      rw [this]
      obtain ⟨h1, h2, h3⟩ := ih res hnd
      refine ⟨h1, fun a => ?_, fun a t => ?_⟩
      · rw [h2, List.mem_cons]
        constructor
        · rintro (h | ⟨h, hs⟩)
          · exact Or.inl h
          · exact Or.inr ⟨Or.inr h, hs⟩
        · rintro (h | ⟨rfl | h, hs⟩)
          · exact Or.inl h
          · exact absurd he hs
          · exact Or.inr ⟨h, hs⟩
      · rw [h3, List.mem_cons]
        constructor
        · rintro (h | ⟨ht, h, hs⟩)
          · exact Or.inl h
          · exact Or.inr ⟨ht, Or.inr h, hs⟩
        · rintro (h | ⟨ht, rfl | h, hs⟩)
          · exact Or.inl h
          · exact absurd he hs
          · exact Or.inr ⟨ht, h, hs⟩
    · have : addTransaction stop res (e :: tr) i = addTransaction stop (addTid res e i) tr i := by
        unfold addTransaction; rw [List.foldl_cons, if_neg he]
      rw [this]
      obtain ⟨h1, h2, h3⟩ := ih (addTid res e i) (nodup_dictSet _ _ _ hnd)
      refine ⟨h1, fun a => ?_, fun a t => ?_⟩
      · rw [h2, List.mem_cons]
        unfold addTid
        rw [mem_keys_dictSet]
        constructor
        · rintro ((rfl | h) | ⟨h, hs⟩)
          · exact Or.inr ⟨Or.inl rfl, he⟩
          · exact Or.inl h
          · exact Or.inr ⟨Or.inr h, hs⟩
        · rintro (h | ⟨rfl | h, hs⟩)
          · exact Or.inl (Or.inr h)
          · exact Or.inl (Or.inl rfl)
          · exact Or.inr ⟨h, hs⟩
      · rw [h3, List.mem_cons]
        unfold addTid
        rw [lookup_dictSet _ hnd]
        by_cases hae : a = e
        · subst hae
          rw [if_pos rfl, Finset.mem_insert]
          constructor
          · rintro ((rfl | h) | ⟨ht, h, hs⟩)
            · exact Or.inr ⟨rfl, Or.inl rfl, he⟩
            · exact Or.inl h
            · exact Or.inr ⟨ht, Or.inr h, hs⟩
          · rintro (h | ⟨ht, _, hs⟩)
            · exact Or.inl (Or.inr h)
            · exact Or.inl (Or.inl ht)
        · rw [if_neg hae]
          constructor
          · rintro (h | ⟨ht, h, hs⟩)
            · exact Or.inl h
            · exact Or.inr ⟨ht, Or.inr h, hs⟩
          · rintro (h | ⟨ht, h | h, hs⟩)
            · exact Or.inl h
            · exact absurd h hae
            · exact Or.inr ⟨ht, h, hs⟩

theorem foldVertical_spec (stop : Finset α) (l : List (List α × ℕ)) (res : Sct α) (hnd : (res.map Prod.fst).Nodup) :
    ((l.foldl (fun res p => addTransaction stop res p.1 p.2) res).map Prod.fst).Nodup ∧
    (∀ a, a ∈ (l.foldl (fun res p => addTransaction stop res p.1 p.2) res).map Prod.fst ↔
      a ∈ res.map Prod.fst ∨ ((∃ p ∈ l, a ∈ p.1) ∧ a ∉ stop)) ∧
    (∀ a t, t ∈ lookup (l.foldl (fun res p => addTransaction stop res p.1 p.2) res) a ↔
      t ∈ lookup res a ∨ ((∃ p ∈ l, t = p.2 ∧ a ∈ p.1) ∧ a ∉ stop)) := by
  induction l generalizing res with
  | nil => simp [hnd]
  | cons p l ih =>
    rw [List.foldl_cons]
    obtain ⟨g1, g2, g3⟩ := addTransaction_spec stop p.1 p.2 res hnd
    obtain ⟨h1, h2, h3⟩ := ih _ g1
    refine ⟨h1, fun a => ?_, fun a t => ?_⟩
    · rw [h2, g2]
      simp only [List.mem_cons, exists_eq_or_imp]
      tauto
    · rw [h3, g3]
      simp only [List.mem_cons, exists_eq_or_imp]
      tauto

theorem toVertical_nodup (stop : Finset α) (D : List (List α)) : ((toVertical stop D).map Prod.fst).Nodup :=
  (foldVertical_spec stop D.zipIdx [] (by simp)).1

theorem mem_toVertical_keys (stop : Finset α) (D : List (List α)) (a : α) :
    a ∈ (toVertical stop D).map Prod.fst ↔ (∃ t, Occurs D a t) ∧ a ∉ stop := by
  have h := (foldVertical_spec stop D.zipIdx [] (by simp)).2.1 a
  unfold toVertical
  rw [h]
  simp only [List.map_nil, List.not_mem_nil, false_or]
  apply and_congr_left
  intro _
  constructor
  · rintro ⟨p, hp, ha⟩
    exact ⟨p.2, p.1, List.mem_zipIdx_iff_getElem?.1 hp, ha⟩
  · rintro ⟨t, tr, htr, ha⟩
    exact ⟨(tr, t), List.mem_zipIdx_iff_getElem?.2 htr, ha⟩

theorem mem_lookup_toVertical (stop : Finset α) (D : List (List α)) (a : α) (t : ℕ) :
    t ∈ lookup (toVertical stop D) a ↔ Occurs D a t ∧ a ∉ stop := by
  have h := (foldVertical_spec stop D.zipIdx [] (by simp)).2.2 a t
  unfold toVertical
  rw [h]
  have h0 : lookup ([] : Sct α) a = ∅ := rfl
  rw [h0]
  simp only [Finset.notMem_empty, false_or]
  apply and_congr_left
  intro _
  constructor
  · rintro ⟨p, hp, rfl, ha⟩
    exact ⟨p.1, List.mem_zipIdx_iff_getElem?.1 hp, ha⟩
  · rintro ⟨tr, htr, ha⟩
    exact ⟨(tr, t), List.mem_zipIdx_iff_getElem?.2 htr, rfl, ha⟩

end Vertical

end Verif.Slim
