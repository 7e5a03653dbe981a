import Verif.Slim.DictLemmas

/-!
# `SLIM.get_support` (C18)

Source: `/repo/skmine/itemsets/slim.py:588-604`. The method is decorated with `lru_cache(maxsize=1024)`: results are stored per
object and argument tuple, they are never invalidated, and they can be evicted at any time (the cache is shared by all the objects).
-/

set_option autoImplicit false
set_option linter.unusedSectionVars false

namespace Verif.Slim

variable {α : Type*} [LinearOrder α]

/-- The results stored by `lru_cache`, by argument tuple (kept reversed: the last argument comes first). -/
abbrev Memo (α : Type*) := List (List α × Finset ℕ)

/-- The stored result for a tuple of arguments. -/
def memoGet (m : Memo α) (k : List α) : Option (Finset ℕ) := (m.find? (fun e => e.1 = k)).map Prod.snd

/-- `get_support(*items)`, `/repo/skmine/itemsets/slim.py:588-604`, on the reversed tuple: `items[-1]` is the head. Exceptions are not
stored. `standard_codetable_[a]` raises `KeyError` for an unknown item, `items[-1]` raises `IndexError` on no item. -/
def getSupport (sct : Sct α) : List α → Memo α → Except Err (Finset ℕ) × Memo α
  | [], m => (.error .indexError, m)
  | a :: rest, m =>
    match memoGet m (a :: rest) with
    | some r => (.ok r, m)
    | none =>
      if a ∉ sct.map Prod.fst then (.error .keyError, m) else
      match rest with
      | [] => (.ok (lookup sct a), ([a], lookup sct a) :: m)
      | b :: rest' =>
        match getSupport sct (b :: rest') m with
        | (.error e, m2) => (.error e, m2)
        | (.ok r, m2) => (.ok (lookup sct a ∩ r), (a :: b :: rest', lookup sct a ∩ r) :: m2)

/-- The state of one object: its standard code table and the stored results. -/
structure Obj (α : Type*) where
  sct : Sct α
  memo : Memo α

/-- What a user (or the cache) does between two queries. -/
inductive Op (α : Type*) where
  /-- `prefit` or `fit` on a database; only the standard code table matters. `items` is the constructor argument. -/
  | fit (items : List α) (D : List (List α))
  /-- `get_support(*items)`, in the order given by the user. -/
  | query (items : List α)
  /-- eviction of some stored results -/
  | evict (keep : List α → Bool)

/-- The standard code table after `prefit(D)`, `/repo/skmine/itemsets/slim.py:639-663` (order irrelevant here). -/
def sctOf (items : List α) (D : List (List α)) : Sct α :=
  toVertical ∅ D ++ (items.dedup.filter (fun i => i ∉ (toVertical ∅ D).map Prod.fst)).map (fun i => (i, ∅))

/-- One operation; a query returns its answer. -/
def step (o : Obj α) : Op α → Obj α × Option (Except Err (Finset ℕ))
  | .fit items D => ({ o with sct := sctOf items D }, none)
  | .query q => let r := getSupport o.sct q.reverse o.memo; ({ o with memo := r.2 }, some r.1)
  | .evict keep => ({ o with memo := o.memo.filter (fun e => keep e.1) }, none)

/-- The state after a list of operations. -/
def runOps (o : Obj α) (ops : List (Op α)) : Obj α := ops.foldl (fun o op => (step o op).1) o

/-- Item `a` is known after a fit. -/
def Known (items : List α) (D : List (List α)) (a : α) : Prop := (∃ t, Occurs D a t) ∨ a ∈ items

/-- The right answer to a query: the transactions containing all the items; an error without item or with an unknown item. -/
def RightAnswer (items : List α) (D : List (List α)) (q : List α) (r : Except Err (Finset ℕ)) : Prop :=
  (q = [] ∧ r = .error .indexError) ∨
  (q ≠ [] ∧ (∃ a ∈ q, ¬ Known items D a) ∧ r = .error .keyError) ∨
  (q ≠ [] ∧ (∀ a ∈ q, Known items D a) ∧ ∃ tids, r = .ok tids ∧ ∀ t, t ∈ tids ↔ ∀ a ∈ q, Occurs D a t)

theorem sctOf_keys (items : List α) (D : List (List α)) (a : α) : a ∈ (sctOf items D).map Prod.fst ↔ Known items D a := by
  unfold sctOf Known
  rw [List.map_append, List.mem_append, mem_toVertical_keys, List.map_map]
  have h : a ∈ List.map (Prod.fst ∘ fun i => (i, (∅ : Finset ℕ)))
      (items.dedup.filter (fun i => i ∉ (toVertical ∅ D).map Prod.fst)) ↔ a ∈ items ∧ ¬ ∃ t, Occurs D a t := by
    have hid : (Prod.fst ∘ fun i : α => (i, (∅ : Finset ℕ))) = id := rfl
    rw [hid, List.map_id, List.mem_filter, List.mem_dedup, decide_eq_true_eq, mem_toVertical_keys]
    simp
  rw [h]
  simp only [Finset.notMem_empty, not_false_eq_true, and_true]
  tauto

theorem lookup_append_left {K : Type*} [DecidableEq K] (d d2 : List (K × Finset ℕ)) (k : K) (h : lookup d2 k = ∅) :
    lookup (d ++ d2) k = lookup d k := by
  unfold lookup at *
  rw [List.find?_append]
  cases hd : d.find? (fun e => e.1 = k) with
  | some e => rfl
  | none => simpa using h

theorem mem_lookup_sctOf (items : List α) (D : List (List α)) (a : α) (t : ℕ) :
    t ∈ lookup (sctOf items D) a ↔ Occurs D a t := by
  unfold sctOf
  rw [lookup_append_left, mem_lookup_toVertical]
  · simp
  · unfold lookup
    cases hf : (List.map (fun i => (i, (∅ : Finset ℕ)))
      (items.dedup.filter (fun i => i ∉ (toVertical ∅ D).map Prod.fst))).find? (fun e => e.1 = a) with
    | none => rfl
    | some e =>
      obtain ⟨i, _, rfl⟩ := List.mem_map.1 (List.mem_of_find?_eq_some hf)
      rfl

/-- The stored results are right for `D`. -/
def MemoRight (items : List α) (D : List (List α)) (m : Memo α) : Prop :=
  ∀ e ∈ m, e.1 ≠ [] ∧ (∀ a ∈ e.1, Known items D a) ∧ ∀ t, t ∈ e.2 ↔ ∀ a ∈ e.1, Occurs D a t

theorem memoGet_some {m : Memo α} {k : List α} {r : Finset ℕ} (h : memoGet m k = some r) : (k, r) ∈ m := by
  unfold memoGet at h
  cases hf : m.find? (fun e => e.1 = k) with
  | none => rw [hf] at h; cases h
  | some e =>
    rw [hf, Option.map_some, Option.some.injEq] at h
    have h2 : e.1 = k := by simpa using List.find?_some hf
    have h3 := List.mem_of_find?_eq_some hf
    rw [← h2, ← h]
    exact h3

theorem getSupport_right (items : List α) (D : List (List α)) (k : List α) (m : Memo α)
    (hm : ∀ k' ≠ [], k' <:+ k → ∀ r, (k', r) ∈ m → (∀ a ∈ k', Known items D a) ∧ ∀ t, t ∈ r ↔ ∀ a ∈ k', Occurs D a t) :
    RightAnswer items D k (getSupport (sctOf items D) k m).1 ∧
      ∀ e ∈ (getSupport (sctOf items D) k m).2, e ∈ m ∨
        (e.1 ≠ [] ∧ (∀ a ∈ e.1, Known items D a) ∧ ∀ t, t ∈ e.2 ↔ ∀ a ∈ e.1, Occurs D a t) := by
  induction k with
  | nil => exact ⟨Or.inl ⟨rfl, rfl⟩, fun e he => Or.inl he⟩
  | cons a rest ih =>
    unfold getSupport
    cases hg : memoGet m (a :: rest) with
    | some r =>
      have h2 := hm (a :: rest) (by simp) (List.suffix_refl _) r (memoGet_some hg)
      exact ⟨Or.inr (Or.inr ⟨by simp, h2.1, r, rfl, h2.2⟩), fun e he => Or.inl he⟩
    | none =>
      simp only
      by_cases ha : a ∈ (sctOf items D).map Prod.fst
      · rw [if_neg (not_not_intro ha)]
        have hk := (sctOf_keys items D a).1 ha
        cases rest with
        | nil =>
          have h3 : ∀ t, t ∈ lookup (sctOf items D) a ↔ ∀ x ∈ [a], Occurs D x t := by
            intro t; rw [mem_lookup_sctOf]; simp
          refine ⟨Or.inr (Or.inr ⟨by simp, by simpa using hk, _, rfl, h3⟩), fun e he => ?_⟩
          rcases List.mem_cons.1 he with rfl | he
          · exact Or.inr ⟨by simp, by simpa using hk, h3⟩
          · exact Or.inl he
        | cons b rest' =>
          simp only
          obtain ⟨ih1, ih2⟩ := ih (fun k' h1 h2 => hm k' h1 (h2.trans (List.suffix_cons _ _)))
          generalize getSupport (sctOf items D) (b :: rest') m = res at ih1 ih2
          obtain ⟨res, m2⟩ := res
          rcases ih1 with ⟨h1, _⟩ | ⟨_, ⟨x, hx, hxk⟩, h3⟩ | ⟨_, h2, r, h3, h4⟩
          · cases h1
          · simp only at h3
            subst h3
            exact ⟨Or.inr (Or.inl ⟨by simp, ⟨x, List.mem_cons_of_mem _ hx, hxk⟩, rfl⟩), ih2⟩
          · simp only at h3
            subst h3
            have h5 : ∀ x ∈ a :: b :: rest', Known items D x := by
              intro x hx
              rcases List.mem_cons.1 hx with rfl | hx
              · exact hk
              · exact h2 x hx
            have h6 : ∀ t, t ∈ lookup (sctOf items D) a ∩ r ↔ ∀ x ∈ a :: b :: rest', Occurs D x t := by
              intro t
              rw [Finset.mem_inter, mem_lookup_sctOf, h4]
              constructor
              · rintro ⟨h7, h8⟩ x hx
                rcases List.mem_cons.1 hx with rfl | hx
                · exact h7
                · exact h8 x hx
              · exact fun h => ⟨h a List.mem_cons_self, fun x hx => h x (List.mem_cons_of_mem _ hx)⟩
            refine ⟨Or.inr (Or.inr ⟨by simp, h5, _, rfl, h6⟩), fun e he => ?_⟩
            rcases List.mem_cons.1 he with rfl | he
            · exact Or.inr ⟨by simp, h5, h6⟩
            · exact ih2 e he
      · rw [if_pos ha]
        exact ⟨Or.inr (Or.inl ⟨by simp, ⟨a, List.mem_cons_self, fun h => ha ((sctOf_keys items D a).2 h)⟩, rfl⟩),
          fun e he => Or.inl he⟩

theorem rightAnswer_reverse (items : List α) (D : List (List α)) (q : List α) (r : Except Err (Finset ℕ))
    (h : RightAnswer items D q.reverse r) : RightAnswer items D q r := by
  unfold RightAnswer at *
  simpa using h

/-- C18, what holds. After one fit, any queries and evictions, every query gets the right answer. Missing: several fits of
the same object. -/
theorem support_single_fit_partial (items : List α) (D : List (List α)) (ops : List (Op α))
    (hops : ∀ op ∈ ops, ∀ i D', op ≠ .fit i D') (q : List α) :
    ∃ r, (step (runOps (step ⟨[], []⟩ (.fit items D)).1 ops) (.query q)).2 = some r ∧ RightAnswer items D q r := by
  have inv : ∀ (ops : List (Op α)), (∀ op ∈ ops, ∀ i D', op ≠ .fit i D') → ∀ o : Obj α, o.sct = sctOf items D →
      MemoRight items D o.memo → (runOps o ops).sct = sctOf items D ∧ MemoRight items D (runOps o ops).memo := by
    intro ops
    induction ops with
    | nil => exact fun _ o h1 h2 => ⟨h1, h2⟩
    | cons op ops ih =>
      intro h o h1 h2
      change (runOps (step o op).1 ops).sct = _ ∧ _
      refine ih (fun op' ho => h op' (List.mem_cons_of_mem _ ho)) _ ?_ ?_
      · cases op with
        | fit i D' => exact absurd rfl (h _ List.mem_cons_self i D')
        | query q => exact h1
        | evict keep => exact h1
      · cases op with
        | fit i D' => exact absurd rfl (h _ List.mem_cons_self i D')
        | query q =>
          intro e he
          change e ∈ (getSupport o.sct q.reverse o.memo).2 at he
          rw [h1] at he
          rcases (getSupport_right items D q.reverse o.memo (fun k' _ _ r hr => (h2 _ hr).2)).2 e he with h3 | h3
          · exact h2 e h3
          · exact h3
        | evict keep => exact fun e he => h2 e (List.mem_filter.1 he).1
  obtain ⟨h1, h2⟩ := inv ops hops (step ⟨[], []⟩ (.fit items D)).1 rfl (fun e he => by cases he)
  refine ⟨_, rfl, rightAnswer_reverse _ _ _ _ ?_⟩
  rw [h1]
  exact (getSupport_right items D q.reverse _ (fun k' _ _ r hr => (h2 _ hr).2)).1

/-- C18, what holds. Whatever happened before to the object, a query made after a fit gets the right answer when no non-empty prefix
of its arguments has a stored result. -/
theorem support_not_stored_partial (o : Obj α) (items : List α) (D : List (List α)) (q : List α)
    (h : ∀ k ≠ [], k <+: q → ∀ r, (k.reverse, r) ∉ o.memo) :
    ∃ r, (step (step o (.fit items D)).1 (.query q)).2 = some r ∧ RightAnswer items D q r := by
  refine ⟨_, rfl, rightAnswer_reverse _ _ _ _ ?_⟩
  refine (getSupport_right items D q.reverse o.memo (fun k' h1 h2 r hr => ?_)).1
  refine absurd ?_ (h k'.reverse (by simpa using h1) ?_ r)
  · rw [List.reverse_reverse]; exact hr
  · rw [← List.reverse_suffix, List.reverse_reverse]; exact h2

/-- C18 fails: an object fitted twice answers for the first database. -/
theorem support_stale :
    let o := runOps ⟨[], []⟩ [.fit [] [[1], [1], [2]], .query [1], .fit [] [[2], [1]]]
    (step o (.query [1])).2 = some (.ok {1, 0}) ∧ ¬ RightAnswer [] [[2], [1]] [1] (.ok {1, 0}) := by
  refine ⟨rfl, ?_⟩
  rintro (⟨h, _⟩ | ⟨_, _, h⟩ | ⟨_, _, tids, h1, h2⟩)
  · cases h
  · cases h
  · simp only [Except.ok.injEq] at h1
    subst h1
    obtain ⟨tr, h3, h4⟩ := (h2 0).1 (by decide) 1 (by simp)
    simp only [List.getElem?_cons_zero, Option.some.injEq] at h3
    subst h3
    revert h4
    decide

/-- Prefixes are stored as well, evictions change nothing. -/
example : (step (runOps ⟨[], []⟩ [.fit [9] [[1, 2], [1], [2, 1]], .query [2, 1], .evict (fun k => k.length = 1)])
    (.query [2, 1])).2.map (fun r => r.toOption.map sortSet) = some (some [0, 2]) := by decide

example : (step (runOps ⟨[], []⟩ [.fit [9] [[1, 2], [1], [2, 1]]]) (.query [2, 5])).2 = some (.error .keyError) := by rfl

end Verif.Slim
