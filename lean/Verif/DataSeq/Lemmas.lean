import Verif.DataSeq.Model
import Mathlib.Data.List.Nodup
import Mathlib.Data.List.Induction

set_option autoImplicit false
set_option linter.unusedSectionVars false

namespace Verif.DataSeq

variable {α : Type*} [LinearOrder α]

theorem mapM_some {β γ : Type*} (f : β → Option γ) (g : β → γ) :
    ∀ l : List β, (∀ x ∈ l, f x = some (g x)) → l.mapM f = some (l.map g)
  | [], _ => rfl
  | a :: l, h => by
    rw [List.mapM_cons, h a (by simp), mapM_some f g l (fun x hx => h x (List.mem_cons_of_mem _ hx))]; rfl

theorem mapM_ok {ε β γ : Type*} (f : β → Except ε γ) (g : β → γ) :
    ∀ l : List β, (∀ x ∈ l, f x = .ok (g x)) → l.mapM f = .ok (l.map g)
  | [], _ => rfl
  | a :: l, h => by
    rw [List.mapM_cons, h a (by simp), mapM_ok f g l (fun x hx => h x (List.mem_cons_of_mem _ hx))]; rfl

theorem mapM_error {ε β γ : Type*} (f : β → Except ε γ) :
    ∀ l : List β, (∃ x ∈ l, ∃ e, f x = .error e) → ∃ e, l.mapM f = .error e
  | [], ⟨_, hx, _⟩ => absurd hx (by simp)
  | a :: l, ⟨x, hx, e, he⟩ => by
    rw [List.mapM_cons]
    cases ha : f a with
    | error e' => exact ⟨e', rfl⟩
    | ok b =>
      have hxl : x ∈ l := by
        rcases List.mem_cons.1 hx with h | h
        · subst h; rw [ha] at he; cases he
        · exact h
      obtain ⟨e', he'⟩ := mapM_error f l ⟨x, hxl, e, he⟩
      exact ⟨e', by rw [he']; rfl⟩

/-! ### Lookups -/

theorem lookup_zipIdx (e : α) : ∀ (l : List α) (n : ℕ), e ∈ l → (l.zipIdx n).lookup e = some (n + l.idxOf e)
  | [], _, h => absurd h (by simp)
  | a :: l, n, h => by
    rw [List.zipIdx_cons, List.lookup_cons]
    by_cases he : e = a
    · subst he; simp
    · have h' : e ∈ l := (List.mem_cons.1 h).resolve_left he
      have hb : (e == a) = false := by simpa using he
      rw [hb, lookup_zipIdx e l (n + 1) h', List.idxOf_cons_ne _ (fun hh => he hh.symm)]
      simp; omega

theorem lookup_zipIdx_none (e : α) : ∀ (l : List α) (n : ℕ), e ∉ l → (l.zipIdx n).lookup e = none
  | [], _, _ => rfl
  | a :: l, n, h => by
    rw [List.zipIdx_cons, List.lookup_cons]
    have hb : (e == a) = false := by
      simp only [beq_eq_false_iff_ne, ne_eq]; rintro rfl; exact h (by simp)
    rw [hb, lookup_zipIdx_none e l (n + 1) (fun h' => h (List.mem_cons_of_mem _ h'))]

omit [LinearOrder α] in
theorem lookup_swap (k : ℕ) : ∀ (l : List α) (n : ℕ), n ≤ k → ((l.zipIdx n).map Prod.swap).lookup k = l[k - n]?
  | [], _, _ => by simp
  | a :: l, n, h => by
    rw [List.zipIdx_cons, List.map_cons, Prod.swap_prod_mk, List.lookup_cons]
    by_cases he : k = n
    · subst he; simp
    · have hb : (k == n) = false := by simpa using he
      rw [hb, lookup_swap k l (n + 1) (by omega)]
      have : k - n = (k - (n + 1)) + 1 := by omega
      rw [this, List.getElem?_cons_succ]

omit [LinearOrder α] in
theorem lookup_of_mem {β γ : Type*} [DecidableEq β] (l : List (β × γ)) (hn : (l.map Prod.fst).Nodup) (b : β) (c : γ)
    (h : (b, c) ∈ l) : l.lookup b = some c := by
  induction l with
  | nil => simp at h
  | cons x l ih =>
    obtain ⟨b', c'⟩ := x
    rw [List.map_cons, List.nodup_cons] at hn
    rw [List.lookup_cons]
    rcases List.mem_cons.1 h with h' | h'
    · cases h'; simp
    · have : b ≠ b' := by
        rintro rfl
        exact hn.1 (List.mem_map.2 ⟨_, h', rfl⟩)
      have hb : (b == b') = false := by simpa using this
      rw [hb]; exact ih hn.2 h'

/-- In a strictly sorted list the position of an element is the number of smaller elements. -/
theorem idxOf_rank (e : α) : ∀ l : List α, l.Pairwise (· < ·) → e ∈ l → l.idxOf e = (l.filter (· < e)).length
  | [], _, h => absurd h (by simp)
  | a :: l, hp, h => by
    rw [List.pairwise_cons] at hp
    by_cases he : e = a
    · subst he
      have : l.filter (· < e) = [] := by
        rw [List.filter_eq_nil_iff]
        intro x hx; simpa using (hp.1 x hx).le
      simp [this]
    · have h' : e ∈ l := (List.mem_cons.1 h).resolve_left he
      rw [List.idxOf_cons_ne _ (fun hh => he hh.symm), List.filter_cons_of_pos (by simpa using hp.1 e h'), idxOf_rank e l hp.2 h']
      rfl

theorem sorted_keys (keys : List α) (hn : keys.Nodup) : (keys.insertionSort (· ≤ ·)).Pairwise (· < ·) := by
  have h1 := List.pairwise_insertionSort (α := α) (· ≤ ·) keys
  have h2 : (keys.insertionSort (· ≤ ·)).Nodup := (List.perm_insertionSort _ _).nodup_iff.2 hn
  exact h1.imp₂ (fun a b hab hne => lt_of_le_of_ne hab hne) h2

/-! ### Grouping -/

/-- The pairs described by a dictionary of times. -/
def flat (tmp : List (α × List ℤ)) : List (ℤ × α) := tmp.flatMap (fun q => q.2.map (fun t => (t, q.1)))

theorem addTime_keys (t : ℤ) (e : α) : ∀ tmp : List (α × List ℤ),
    (addTime tmp t e).map Prod.fst = if e ∈ tmp.map Prod.fst then tmp.map Prod.fst else tmp.map Prod.fst ++ [e]
  | [] => by simp [addTime]
  | (e', ts) :: rest => by
    rw [addTime]
    by_cases he : e' = e
    · subst he; simp
    · rw [if_neg he, List.map_cons, addTime_keys t e rest, List.map_cons]
      have h' : ¬ e = e' := fun h => he h.symm
      by_cases hm : e ∈ rest.map Prod.fst
      · rw [if_pos hm, if_pos (List.mem_cons_of_mem _ hm)]
      · rw [if_neg hm, if_neg (by rw [List.mem_cons]; rintro (h | h); exacts [h' h, hm h])]; rfl

theorem addTime_flat (t : ℤ) (e : α) : ∀ tmp : List (α × List ℤ), (flat (addTime tmp t e)).Perm (flat tmp ++ [(t, e)])
  | [] => by simp [addTime, flat]
  | (e', ts) :: rest => by
    rw [addTime]
    by_cases he : e' = e
    · subst he
      rw [if_pos rfl]
      unfold flat
      rw [List.flatMap_cons, List.flatMap_cons, List.map_append, List.append_assoc, List.append_assoc]
      exact List.Perm.append_left _ List.perm_append_comm
    · rw [if_neg he]
      unfold flat
      rw [List.flatMap_cons, List.flatMap_cons, List.append_assoc]
      exact List.Perm.append_left _ (addTime_flat t e rest)

theorem mem_addTime (t : ℤ) (e : α) : ∀ tmp : List (α × List ℤ), (tmp.map Prod.fst).Nodup → ∀ (e' : α) (ts : List ℤ),
    (e', ts) ∈ addTime tmp t e → (e' ≠ e ∧ (e', ts) ∈ tmp) ∨ (e' = e ∧
      ((∃ ts0, (e, ts0) ∈ tmp ∧ ts = ts0 ++ [t]) ∨ (e ∉ tmp.map Prod.fst ∧ ts = [t])))
  | [], _, e', ts, h => by
    simp only [addTime, List.mem_singleton, Prod.mk.injEq] at h
    exact .inr ⟨h.1, .inr ⟨by simp, h.2⟩⟩
  | (e1, ts1) :: rest, hn, e', ts, h => by
    rw [List.map_cons, List.nodup_cons] at hn
    rw [addTime] at h
    by_cases he : e1 = e
    · rw [if_pos he] at h
      rcases List.mem_cons.1 h with h | h
      · rw [Prod.mk.injEq] at h
        exact .inr ⟨h.1.trans he, .inl ⟨ts1, by rw [← he]; exact List.mem_cons_self, h.2⟩⟩
      · refine .inl ⟨?_, List.mem_cons_of_mem _ h⟩
        rintro rfl
        exact hn.1 (List.mem_map.2 ⟨_, h, he.symm⟩)
    · rw [if_neg he] at h
      rcases List.mem_cons.1 h with h | h
      · rw [Prod.mk.injEq] at h
        exact .inl ⟨by rw [h.1]; exact he, by rw [h.1, h.2]; exact List.mem_cons_self⟩
      · rcases mem_addTime t e rest hn.2 e' ts h with ⟨h1, h2⟩ | ⟨h1, ⟨ts0, h2, h3⟩ | ⟨h2, h3⟩⟩
        · exact .inl ⟨h1, List.mem_cons_of_mem _ h2⟩
        · exact .inr ⟨h1, .inl ⟨ts0, List.mem_cons_of_mem _ h2, h3⟩⟩
        · refine .inr ⟨h1, .inr ⟨?_, h3⟩⟩
          rw [List.map_cons, List.mem_cons]
          rintro (h | h)
          · exact he h.symm
          · exact h2 h

theorem group_concat (seq : List (ℤ × α)) (x : ℤ × α) : group (seq ++ [x]) = addTime (group seq) x.1 x.2 := by
  unfold group; rw [List.foldl_append]; rfl

theorem group_keys_mem (seq : List (ℤ × α)) (e : α) : e ∈ (group seq).map Prod.fst ↔ e ∈ seq.map Prod.snd := by
  induction seq using List.reverseRecOn with
  | nil => simp [group]
  | append_singleton seq x ih =>
    rw [group_concat, addTime_keys, List.map_append, List.mem_append]
    split
    · next hx =>
      rw [ih]
      constructor
      · exact .inl
      · rintro (h | h)
        · exact h
        · have he : e = x.2 := by simpa using h
          subst he
          exact ih.1 hx
    · rw [List.mem_append, ih]; simp

theorem group_nodup (seq : List (ℤ × α)) : ((group seq).map Prod.fst).Nodup := by
  induction seq using List.reverseRecOn with
  | nil => simp [group]
  | append_singleton seq x ih =>
    rw [group_concat, addTime_keys]
    split
    · exact ih
    · next h => rw [List.nodup_append]; exact ⟨ih, by simp, by intro a ha b hb; rw [List.mem_singleton] at hb; rintro rfl; exact h (hb ▸ ha)⟩

theorem group_flat (seq : List (ℤ × α)) : (flat (group seq)).Perm seq := by
  induction seq using List.reverseRecOn with
  | nil => simp [group, flat]
  | append_singleton seq x ih =>
    rw [group_concat]
    exact (addTime_flat _ _ _).trans (List.Perm.append_right _ ih)

theorem group_entry (seq : List (ℤ × α)) (e : α) (ts : List ℤ) (h : (e, ts) ∈ group seq) :
    ts = (seq.filter (fun x => x.2 = e)).map Prod.fst ∧ ts ≠ [] := by
  induction seq using List.reverseRecOn generalizing ts with
  | nil => simp [group] at h
  | append_singleton seq x ih =>
    rw [group_concat] at h
    rw [List.filter_append, List.map_append]
    rcases mem_addTime _ _ _ (group_nodup seq) _ _ h with ⟨h1, h2⟩ | ⟨h1, ⟨ts0, h2, h3⟩ | ⟨h2, h3⟩⟩
    · have : [x].filter (fun x => x.2 = e) = [] := by simpa using fun h => h1 h.symm
      rw [this]
      obtain ⟨ha, hb⟩ := ih ts h2
      exact ⟨by simpa using ha, hb⟩
    · have : [x].filter (fun x => x.2 = e) = [x] := by simpa using h1.symm
      rw [this]
      obtain ⟨ha, _⟩ := ih ts0 (h1 ▸ h2)
      exact ⟨by rw [h3, ← ha]; rfl, by rw [h3]; simp⟩
    · have : [x].filter (fun x => x.2 = e) = [x] := by simpa using h1.symm
      rw [this]
      have hnil : seq.filter (fun x => x.2 = e) = [] := by
        rw [List.filter_eq_nil_iff]
        intro y hy hye
        apply h2
        rw [group_keys_mem]
        exact List.mem_map.2 ⟨y, hy, by simpa [h1] using hye⟩
      rw [hnil]
      exact ⟨by simpa using h3, by rw [h3]; simp⟩

/-! ### Minimum and maximum -/

theorem npMin_ok (l : List ℤ) (h : l ≠ []) : ∃ m ∈ l, npMin l = .ok m ∧ ∀ x ∈ l, m ≤ x := by
  cases l with
  | nil => exact absurd rfl h
  | cons t ts =>
    clear h
    have key : ∀ (ts : List ℤ) (t : ℤ), (ts.foldl min t) ∈ t :: ts ∧ ∀ x ∈ t :: ts, ts.foldl min t ≤ x := by
      intro ts
      induction ts with
      | nil => intro t; simp
      | cons a ts ih =>
        intro t
        rw [List.foldl_cons]
        obtain ⟨h1, h2⟩ := ih (min t a)
        constructor
        · rcases List.mem_cons.1 h1 with h | h
          · rw [h]; rcases min_choice t a with h' | h' <;> rw [h'] <;> simp
          · exact List.mem_cons_of_mem _ (List.mem_cons_of_mem _ h)
        · intro x hx
          have hm := h2 (min t a) List.mem_cons_self
          rcases List.mem_cons.1 hx with h | h
          · rw [h]; exact hm.trans (min_le_left _ _)
          · rcases List.mem_cons.1 h with h | h
            · rw [h]; exact hm.trans (min_le_right _ _)
            · exact h2 x (List.mem_cons_of_mem _ h)
    exact ⟨_, (key ts t).1, rfl, (key ts t).2⟩

theorem npMax_ok (l : List ℤ) (h : l ≠ []) : ∃ m ∈ l, npMax l = .ok m ∧ ∀ x ∈ l, x ≤ m := by
  cases l with
  | nil => exact absurd rfl h
  | cons t ts =>
    clear h
    have key : ∀ (ts : List ℤ) (t : ℤ), (ts.foldl max t) ∈ t :: ts ∧ ∀ x ∈ t :: ts, x ≤ ts.foldl max t := by
      intro ts
      induction ts with
      | nil => intro t; simp
      | cons a ts ih =>
        intro t
        rw [List.foldl_cons]
        obtain ⟨h1, h2⟩ := ih (max t a)
        constructor
        · rcases List.mem_cons.1 h1 with h | h
          · rw [h]; rcases max_choice t a with h' | h' <;> rw [h'] <;> simp
          · exact List.mem_cons_of_mem _ (List.mem_cons_of_mem _ h)
        · intro x hx
          have hm := h2 (max t a) List.mem_cons_self
          rcases List.mem_cons.1 hx with h | h
          · rw [h]; exact (le_max_left _ _).trans hm
          · rcases List.mem_cons.1 h with h | h
            · rw [h]; exact (le_max_right _ _).trans hm
            · exact h2 x (List.mem_cons_of_mem _ h)
    exact ⟨_, (key ts t).1, rfl, (key ts t).2⟩

instance : Std.Total pairLe := ⟨by
  rintro ⟨a, b⟩ ⟨c, d⟩
  unfold pairLe
  simp only
  omega⟩

instance : IsTrans (ℤ × ℕ) pairLe := ⟨by
  rintro ⟨a, b⟩ ⟨c, d⟩ ⟨e, f⟩
  unfold pairLe
  simp only
  omega⟩

end Verif.DataSeq
