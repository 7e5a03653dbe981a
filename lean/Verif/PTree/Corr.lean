import Verif.PTree.Gather

set_option autoImplicit false
set_option linter.unusedSectionVars false

namespace Verif.PTree

variable {α : Type}

theorem lookup_zip_map (l : List Path) (f : Path → ℤ) {k : Path} (h : k ∈ l) : (l.zip (l.map f)).lookup k = some (f k) := by
  induction l with
  | nil => simp at h
  | cons a l ih =>
    simp only [List.map_cons, List.zip_cons_cons, List.lookup_cons]
    by_cases hk : k = a
    · subst hk; simp
    · have : (k == a) = false := by simpa using hk
      rw [this]
      exact ih (by simpa [hk] using h)

theorem exists_fun (l : List Path) (v : List ℤ) (hn : l.Nodup) (hl : v.length = l.length) : ∃ f : Path → ℤ, v = l.map f := by
  induction l generalizing v with
  | nil => exact ⟨fun _ => 0, by simpa using hl⟩
  | cons a l ih =>
    cases v with
    | nil => simp at hl
    | cons x v =>
      rw [List.nodup_cons] at hn
      obtain ⟨f, hf⟩ := ih v hn.2 (by simpa using hl)
      refine ⟨fun k => if k = a then x else f k, ?_⟩
      simp only [List.map_cons, if_true]
      congr 1
      rw [hf]
      apply List.map_congr_left
      intro k hk
      have : k ≠ a := by rintro rfl; exact hn.1 hk
      simp [this]

/-- The position keys of a tree. -/
def keys (T : Tree α) : List Path := (pos T).map Prod.fst

theorem oids_eq (T : Tree α) : (occsStar T [] 0).map (fun o => o.2.2) = keys T := by
  rw [occsStar_eq, List.map_map]; rfl

theorem keys_nodup (T : Tree α) : (keys T).Nodup := nodup_pos T

theorem gather_keys {T : Tree α} (hT : T.Regular) {k : Path} (hk : k ∈ keys T) : ∃ g, gather T k = some g ∧ g.Perm (gT T k) := by
  obtain ⟨g, h1, h2⟩ := gather_eq T k [] T [] (by cases T <;> rfl) hT (by rfl) hk
  refine ⟨g, by simpa using h1, by simpa using h2⟩

/-- The entry of the references for a position. -/
theorem entry_of_key {T : Tree α} (hT : T.Regular) {k : Path} (hk : k ∈ keys T) :
    ∃ r d, (k, r, d) ∈ (refsT T [] .root 0).1 ∧
      ((k = lm T ∧ r = .root) ∨ ∃ f, f ∈ keys T ∧ r = .key f ∧ starT T k = starT T f + d ∧ (gT T k).Perm (f :: gT T f)) := by
  obtain ⟨-, h2, h3⟩ := refsT_spec T hT [] .root 0
  have : k ∈ (refsT T [] .root 0).1.map Prod.fst := by rw [h2]; simpa [keys] using hk
  obtain ⟨⟨k', r, d⟩, he, rfl⟩ := List.mem_map.mp this
  refine ⟨r, d, he, ?_⟩
  obtain ⟨q, e1, e2, e3⟩ := h3 _ he
  simp only [List.reverse_nil, List.nil_append] at e1 e3
  subst e1
  rcases e3 with ⟨a, b⟩ | ⟨q', m, a, b, c⟩
  · simp only [Prod.mk.injEq] at b
    exact Or.inl ⟨a, b.1⟩
  · exact Or.inr ⟨q', m, a, b, c⟩

/-- All correction keys are positions of the tree. -/
theorem gT_mem {T : Tree α} (hT : T.Regular) : ∀ (n : ℕ) (k : Path), k ∈ keys T → (gT T k).length = n → ∀ f ∈ gT T k, f ∈ keys T := by
  intro n
  induction n with
  | zero =>
    intro k hk hl f hf
    rw [List.length_eq_zero_iff] at hl
    rw [hl] at hf; simp at hf
  | succ n ih =>
    intro k hk hl f hf
    obtain ⟨r, d, -, h | ⟨f', hf', -, -, hp⟩⟩ := entry_of_key hT hk
    · rw [h.1, gT_lm T hT] at hf; simp at hf
    · have hl' : (gT T f').length = n := by have := hp.length_eq; simp at this; omega
      rw [hp.mem_iff, List.mem_cons] at hf
      rcases hf with rfl | hf
      · exact hf'
      · exact ih f' hf' hl' f hf

theorem getCCorr_eq {T : Tree α} (hT : T.Regular) (v : Path → ℤ) {k : Path} (hk : k ∈ keys T) :
    getCCorr T k ((keys T).zip ((keys T).map v)) = some (v k + ((gT T k).map v).sum) := by
  obtain ⟨g, hg, hp⟩ := gather_keys hT hk
  unfold getCCorr
  rw [lookup_zip_map _ _ hk, hg]
  simp only [Option.bind_some]
  rw [mapM_some_map g _ v (fun x hx => lookup_zip_map _ _ (gT_mem hT _ k hk rfl x (hp.mem_iff.mp hx)))]
  simp only
  rw [(hp.map v).sum_eq]

theorem getEDict_eq {T : Tree α} (hT : T.Regular) (v : Path → ℤ) (h0 : v (lm T) = 0) :
    getEDict (occsStar T [] 0) ((keys T).tail.map v) = (keys T).zip ((keys T).map v) := by
  unfold getEDict
  have hl : (occsStar T [] 0).length = (keys T).length := by rw [← oids_eq, List.length_map]
  simp only [oids_eq, hl, List.length_map, List.length_tail, le_refl, if_true]
  obtain ⟨l, hl⟩ := pos_head T hT
  have hk : keys T = lm T :: l := hl
  rw [hk]
  simp [h0, List.take_of_length_le]

theorem getOccs_eq {T : Tree α} (hT : T.Regular) (v : Path → ℤ) (h0 : v (lm T) = 0) (t0 : ℤ) :
    getOccs T (occsStar T [] 0) t0 ((keys T).tail.map v) = some ((keys T).map (fun k => starT T k + t0 + (v k + ((gT T k).map v).sum))) := by
  unfold getOccs
  rw [getEDict_eq hT v h0]
  have : ∀ o ∈ occsStar T [] 0, ((getCCorr T o.2.2 ((keys T).zip ((keys T).map v))).map (fun c => o.1 + t0 + c)) =
      some (starT T o.2.2 + t0 + (v o.2.2 + ((gT T o.2.2).map v).sum)) := by
    intro o ho
    rw [occsStar_eq] at ho
    obtain ⟨x, hx, rfl⟩ := List.mem_map.mp ho
    simp only [List.reverse_nil, List.nil_append, zero_add]
    rw [getCCorr_eq hT v (List.mem_map_of_mem hx)]
    rfl
  rw [mapM_some_map _ _ _ this, ← oids_eq T, List.map_map]
  rfl

/-- The value of the correction for an entry. -/
theorem computeEDict_eq {T : Tree α} (hT : T.Regular) (o v : Path → ℤ) (h0 : v (lm T) = 0)
    (h : ∀ k f d, (k, Ref.key f, d) ∈ (refsT T [] .root 0).1 → v k = o k - o f - d) :
    computeEDict T ((keys T).zip ((keys T).map o)) = some ((keys T).zip ((keys T).map v)) := by
  unfold computeEDict
  obtain ⟨-, h2, h3⟩ := refsT_spec T hT [] .root 0
  simp only [List.reverse_nil, List.nil_append] at h2 h3
  have : ∀ e ∈ (refsT T [] .root 0).1, entryE ((keys T).zip ((keys T).map o)) e = some (e.1, v e.1) := by
    rintro ⟨k, r, d⟩ he
    obtain ⟨q, e1, e2, e3⟩ := h3 _ he
    simp only [List.nil_append] at e1 e3
    subst e1
    rcases e3 with ⟨a, b⟩ | ⟨q', m, a, b, c⟩
    · simp only [Prod.mk.injEq] at b
      rw [b.1]
      simp only [entryE, lookup_zip_map _ _ (show k ∈ keys T from e2), Option.map_some]
      rw [a, h0]
    · rw [a] at he ⊢
      simp only [entryE, lookup_zip_map _ _ (show k ∈ keys T from e2), lookup_zip_map _ _ (show q' ∈ keys T from m)]
      rw [h k q' d he]
  rw [mapM_some_map _ _ _ this]
  congr 1
  have hk : (refsT T [] .root 0).1.map Prod.fst = keys T := by rw [h2]; rfl
  rw [← hk]
  generalize (refsT T [] .root 0).1 = l
  induction l with
  | nil => rfl
  | cons a l ih => simp [ih]

/-- The correction the references assign to a position, for given times. -/
theorem exists_corr {T : Tree α} (hT : T.Regular) (o : Path → ℤ) :
    ∃ v : Path → ℤ, v (lm T) = 0 ∧ ∀ k f d, (k, Ref.key f, d) ∈ (refsT T [] .root 0).1 → v k = o k - o f - d := by
  obtain ⟨-, h2, h3⟩ := refsT_spec T hT [] .root 0
  simp only [List.reverse_nil, List.nil_append] at h2 h3
  have hk : (refsT T [] .root 0).1.map Prod.fst = keys T := by rw [h2]; rfl
  have hn : ((refsT T [] .root 0).1.map Prod.fst).Nodup := by rw [hk]; exact keys_nodup T
  let w : Path × Ref × ℤ → ℤ := fun e => match e.2.1 with | .key f => o e.1 - o f - e.2.2 | _ => 0
  obtain ⟨v, hv⟩ := exists_fun _ ((refsT T [] .root 0).1.map w) hn (by simp)
  rw [List.map_map] at hv
  have hv' : ∀ e ∈ (refsT T [] .root 0).1, w e = v e.1 := by
    intro e he
    exact List.map_inj_left.mp hv e he
  refine ⟨v, ?_, ?_⟩
  · obtain ⟨r, d, he, h | ⟨f, hf, -, -, hp⟩⟩ := entry_of_key hT (show lm T ∈ keys T from lm_mem T hT)
    · have := hv' _ he
      rw [h.2] at this
      exact this.symm
    · rw [gT_lm T hT] at hp
      simpa using hp.length_eq
  · intro k f d he
    exact (hv' _ he).symm

/-- Applying corrections to the times they were computed from. -/
theorem corr_sum {T : Tree α} (hT : T.Regular) (o v : Path → ℤ) (h0 : v (lm T) = 0)
    (h : ∀ k f d, (k, Ref.key f, d) ∈ (refsT T [] .root 0).1 → v k = o k - o f - d) :
    ∀ (n : ℕ) (k : Path), k ∈ keys T → (gT T k).length = n → starT T k + o (lm T) + (v k + ((gT T k).map v).sum) = o k := by
  intro n
  induction n with
  | zero =>
    intro k hk hl
    obtain ⟨r, d, he, hh | ⟨f, hf, hr, hs, hp⟩⟩ := entry_of_key hT hk
    · rw [hh.1, gT_lm T hT, starT_lm T hT, h0]; simp
    · have := hp.length_eq; simp at this; omega
  | succ n ih =>
    intro k hk hl
    obtain ⟨r, d, he, hh | ⟨f, hf, hr, hs, hp⟩⟩ := entry_of_key hT hk
    · rw [hh.1, gT_lm T hT] at hl; simp at hl
    · have hl' : (gT T f).length = n := by have := hp.length_eq; simp at this; omega
      have i := ih f hf hl'
      rw [(hp.map v).sum_eq]
      simp only [List.map_cons, List.sum_cons]
      subst hr
      have := h k f d he
      linarith

theorem corr_sum' {T : Tree α} (o v : Path → ℤ) (t0 : ℤ)
    (ho : ∀ k, o k = starT T k + t0 + (v k + ((gT T k).map v).sum)) (hT : T.Regular) :
    ∀ k f d, (k, Ref.key f, d) ∈ (refsT T [] .root 0).1 → v k = o k - o f - d := by
  intro k f d he
  obtain ⟨-, h2, h3⟩ := refsT_spec T hT [] .root 0
  obtain ⟨q, e1, e2, e3⟩ := h3 _ he
  simp only [List.reverse_nil, List.nil_append] at e1 e3
  subst e1
  rcases e3 with ⟨a, b⟩ | ⟨q', m, a, b, c⟩
  · simp at b
  · simp only [Ref.key.injEq] at a
    subst a
    rw [ho k, ho f, (c.map v).sum_eq]
    simp only [List.map_cons, List.sum_cons]
    linarith

end Verif.PTree
