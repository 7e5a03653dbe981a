import Verif.PTree.Lemmas

set_option autoImplicit false
set_option linter.unusedSectionVars false

namespace Verif.PTree

variable {α : Type}

/-! ### The references form chains that match the correction keys -/

/-- What an entry of the references of a tree says. -/
def GoodT (t : Tree α) (P : Path) (cnref : Ref) (off : ℤ) (e : Path × Ref × ℤ) : Prop :=
  ∃ q, e.1 = P ++ q ∧ q ∈ (pos t).map Prod.fst ∧
    ((q = lm t ∧ e.2 = (cnref, off)) ∨
      ∃ q', q' ∈ (pos t).map Prod.fst ∧ e.2.1 = .key (P ++ q') ∧ starT t q = starT t q' + e.2.2 ∧ (gT t q).Perm (q' :: gT t q'))

/-- What an entry of the references of successive children says. -/
def GoodF (ch : Forest α) (ni i : ℕ) (P : Path) (next : Ref) (off0 : ℤ) (e : Path × Ref × ℤ) : Prop :=
  ∃ c q, e.1 = P ++ (ni + c, i) :: q ∧ ((ni + c, i) :: q) ∈ (posF ch ni i).map Prod.fst ∧
    ((c = 0 ∧ q = lmF ch ∧ e.2 = (next, if ni = 0 then off0 else ch.firstDist)) ∨
      ∃ c' q', ((ni + c', i) :: q') ∈ (posF ch ni i).map Prod.fst ∧ e.2.1 = .key (P ++ (ni + c', i) :: q') ∧
        starF ch c q = starF ch c' q' + e.2.2 ∧ (gF ch ni i c q).Perm (((ni + c', i) :: q') :: gF ch ni i c' q'))

/-- The fold of `refsT` over the repetitions. -/
def nodeFold (ch : Forest α) (pref : Path) (cnref : Ref) (offset p : ℤ) (n : ℕ) : List (Path × Ref × ℤ) × Ref × Ref :=
  (List.range n).foldl (fun (s : List (Path × Ref × ℤ) × Ref × Ref) i =>
      let e := refsF ch 0 i pref (if i = 0 then cnref else s.2.2) (if i = 0 then offset else p)
      (s.1 ++ e.1, (if i = 0 then e.2 else s.2.1), e.2)) ([], .nothing, .nothing)

theorem nodeFold_succ (ch : Forest α) (pref : Path) (cnref : Ref) (offset p : ℤ) (n : ℕ) :
    nodeFold ch pref cnref offset p (n + 1) =
      (let s := nodeFold ch pref cnref offset p n
       let e := refsF ch 0 n pref (if n = 0 then cnref else s.2.2) (if n = 0 then offset else p)
       (s.1 ++ e.1, (if n = 0 then e.2 else s.2.1), e.2)) := by
  simp only [nodeFold, List.range_succ, List.foldl_append, List.foldl_cons, List.foldl_nil]

mutual
theorem refsT_spec : ∀ (t : Tree α), t.Regular → ∀ (pref : Path) (cnref : Ref) (off : ℤ),
    (refsT t pref cnref off).2 = .key (pref.reverse ++ lm t) ∧
    (refsT t pref cnref off).1.map Prod.fst = (pos t).map (fun x => pref.reverse ++ x.1) ∧
    ∀ e ∈ (refsT t pref cnref off).1, GoodT t pref.reverse cnref off e
  | .leaf ev, _, pref, cnref, off => by
    refine ⟨by simp [refsT, lm], by simp [refsT, pos], ?_⟩
    intro e he
    simp only [refsT, List.mem_singleton] at he
    subst he
    exact ⟨[], by simp, by simp [pos], Or.inl ⟨rfl, rfl⟩⟩
  | .node r p .nil, h, _, _, _ => by simp [Tree.Regular, Forest.NonEmpty] at h
  | .node r p (.cons d t rest), h, pref, cnref, off => by
    simp only [Tree.Regular] at h
    obtain ⟨hr, -, hd, hF⟩ := h
    have ihF := refsF_spec (.cons d t rest) hF 0
    have lmw : starT t (lm t) = 0 := starT_lm t (by simp only [Forest.Regular] at hF; exact hF.1)
    have lmg : gT t (lm t) = [] := gT_lm t (by simp only [Forest.Regular] at hF; exact hF.1)
    have lmm : lm t ∈ (pos t).map Prod.fst := lm_mem t (by simp only [Forest.Regular] at hF; exact hF.1)
    have key : refsT (.node r p (.cons d t rest)) pref cnref off =
        ((nodeFold (.cons d t rest) pref cnref off p r).1, (nodeFold (.cons d t rest) pref cnref off p r).2.1) := by
      rw [refsT]; rfl
    rw [key]
    obtain ⟨ch, hch⟩ : ∃ ch, ch = Forest.cons d t rest := ⟨_, rfl⟩
    have hlm : lmF ch = lm t := by rw [hch]; rfl
    have hfd : ch.firstDist = 0 := by rw [hch]; exact hd
    have inv : ∀ n, n ≤ r → (0 < n → (nodeFold ch pref cnref off p n).2.1 = .key (pref.reverse ++ (0, 0) :: lm t)) ∧
        (0 < n → (nodeFold ch pref cnref off p n).2.2 = .key (pref.reverse ++ (0, n - 1) :: lm t)) ∧
        (nodeFold ch pref cnref off p n).1.map Prod.fst = ((List.range n).flatMap (fun i => posF ch 0 i)).map (fun x => pref.reverse ++ x.1) ∧
        ∀ e ∈ (nodeFold ch pref cnref off p n).1, GoodT (.node r p ch) pref.reverse cnref off e := by
      intro n
      induction n with
      | zero => intro _; simp [nodeFold]
      | succ n ih =>
        intro hn
        obtain ⟨i1, i2, i3, i4⟩ := ih (by omega)
        rw [nodeFold_succ]
        simp only
        obtain ⟨nx, hnx⟩ : ∃ nx, nx = (if n = 0 then cnref else (nodeFold ch pref cnref off p n).2.2) := ⟨_, rfl⟩
        obtain ⟨of, hof⟩ : ∃ of, of = (if n = 0 then off else p) := ⟨_, rfl⟩
        rw [← hnx, ← hof]
        rw [← hch] at ihF
        obtain ⟨f1, f2, f3⟩ := ihF n pref nx of
        have f1' := f1 (by rw [hch]; trivial)
        rw [hlm] at f1'
        refine ⟨?_, ?_, ?_, ?_⟩
        · intro _
          by_cases h0 : n = 0
          · subst h0; simpa using f1'
          · simp only [h0, if_false]; exact i1 (by omega)
        · intro _; simpa using f1'
        · simp only [List.map_append, i3, f2, List.range_succ, List.flatMap_append, List.flatMap_cons, List.flatMap_nil, List.append_nil]
        · intro e he
          rw [List.mem_append] at he
          rcases he with he | he
          · exact i4 e he
          · obtain ⟨c, q, e1, e2, e3⟩ := f3 e he
            simp only [Nat.zero_add] at e1 e2 e3
            have memN : ∀ (c : ℕ) (q : Path), ((c, n) :: q) ∈ (posF ch 0 n).map Prod.fst → ((c, n) :: q) ∈ (pos (.node r p ch)).map Prod.fst := by
              intro c q hm
              simp only [pos, List.map_flatMap, List.mem_flatMap]
              exact ⟨n, by simp; omega, hm⟩
            refine ⟨(c, n) :: q, e1, memN c q e2, ?_⟩
            rcases e3 with ⟨hc, hq, he2⟩ | ⟨c', q', m', r', s', g'⟩
            · subst hc
              rw [hlm] at hq
              subst hq
              simp only [if_true] at he2
              by_cases h0 : n = 0
              · subst h0
                left
                refine ⟨by rw [hch]; rfl, ?_⟩
                rw [he2, hnx, hof]; simp
              · right
                refine ⟨(0, n - 1) :: lm t, ?_, ?_, ?_, ?_⟩
                · simp only [pos, List.map_flatMap, List.mem_flatMap]
                  refine ⟨n - 1, by simp; omega, ?_⟩
                  rw [hch]
                  simp only [posF, List.map_append, List.mem_append, List.map_map]
                  left
                  obtain ⟨x, hx, hx'⟩ := List.mem_map.mp lmm
                  exact List.mem_map.mpr ⟨x, hx, by simp [hx']⟩
                · rw [he2, hnx, if_neg h0]
                  exact i2 (by omega)
                · rw [he2, hof, if_neg h0]
                  simp only [starT]
                  have : ((n - 1 : ℕ) : ℤ) = (n : ℤ) - 1 := by omega
                  rw [this]; ring
                · simp only [gT]
                  rw [hch]
                  simp only [gF, lmg, List.map_nil, List.nil_append, lmF]
                  have : n = (n - 1) + 1 := by omega
                  conv_lhs => rw [this, List.range_succ]
                  simp only [List.map_append, List.map_cons, List.map_nil]
                  exact List.perm_append_comm
            · right
              refine ⟨(c', n) :: q', memN c' q' m', r', ?_, ?_⟩
              · simp only [starT, s']; ring
              · simp only [gT]
                exact g'.append_right _
    have := inv r le_rfl
    rw [← hch]
    refine ⟨?_, ?_, this.2.2.2⟩
    · rw [hch] at this ⊢; simpa [lm] using this.1 (by omega)
    · simpa [pos] using this.2.2.1
theorem refsF_spec : ∀ (ch : Forest α), ch.Regular → ∀ (ni i : ℕ) (pref : Path) (next : Ref) (off0 : ℤ),
    (ch.NonEmpty → (refsF ch ni i pref next off0).2 = .key (pref.reverse ++ (ni, i) :: lmF ch)) ∧
    (refsF ch ni i pref next off0).1.map Prod.fst = (posF ch ni i).map (fun x => pref.reverse ++ x.1) ∧
    ∀ e ∈ (refsF ch ni i pref next off0).1, GoodF ch ni i pref.reverse next off0 e
  | .nil, _, ni, i, pref, next, off0 => by simp [refsF, posF, Forest.NonEmpty]
  | .cons d t rest, h, ni, i, pref, next, off0 => by
    simp only [Forest.Regular] at h
    have lmw : starT t (lm t) = 0 := starT_lm t h.1
    have lmg : gT t (lm t) = [] := gT_lm t h.1
    have lmm : lm t ∈ (pos t).map Prod.fst := lm_mem t h.1
    obtain ⟨a1, a2, a3⟩ := refsT_spec t h.1 ((ni, i) :: pref) next (if ni = 0 then off0 else d)
    have keyr : (pref.reverse ++ (ni, i) :: lm t) = ((ni, i) :: pref).reverse ++ lm t := by simp
    obtain ⟨b1, b2, b3⟩ := refsF_spec rest h.2 (ni + 1) i pref (refsT t ((ni, i) :: pref) next (if ni = 0 then off0 else d)).2 off0
    have memH : ∀ q, q ∈ (pos t).map Prod.fst → ((ni, i) :: q) ∈ (posF (.cons d t rest) ni i).map Prod.fst := by
      intro q hq
      simp only [posF, List.map_append, List.mem_append, List.map_map]
      left
      obtain ⟨x, hx, hx'⟩ := List.mem_map.mp hq
      exact List.mem_map.mpr ⟨x, hx, by simp [hx']⟩
    have memR : ∀ k, k ∈ (posF rest (ni + 1) i).map Prod.fst → k ∈ (posF (.cons d t rest) ni i).map Prod.fst := by
      intro q hq
      simp only [posF, List.map_append, List.mem_append, List.map_map]
      exact Or.inr hq
    simp only [refsF]
    refine ⟨?_, ?_, ?_⟩
    · intro _; rw [a1]; simp [lmF]
    · simp only [List.map_append, a2, b2, posF, List.map_map]
      congr 1
      apply List.map_congr_left
      intro x _; simp
    · intro e he
      rw [List.mem_append] at he
      rcases he with he | he
      · obtain ⟨q, e1, e2, e3⟩ := a3 e he
        refine ⟨0, q, by simpa using e1, memH q e2, ?_⟩
        rcases e3 with ⟨hq, h2⟩ | ⟨q', m', r', s', g'⟩
        · exact Or.inl ⟨rfl, hq, by simpa [Forest.firstDist] using h2⟩
        · right
          refine ⟨0, q', memH q' m', by simpa using r', ?_, ?_⟩
          · simp only [starF, s']; ring
          · simp only [gF, Nat.add_zero]
            exact (g'.map _)
      · obtain ⟨c, q, e1, e2, e3⟩ := b3 e he
        have hcc : ∀ c, ni + 1 + c = ni + (c + 1) := by intro c; omega
        rw [hcc] at e1 e2
        refine ⟨c + 1, q, e1, memR _ e2, Or.inr ?_⟩
        rcases e3 with ⟨hc, hq, he2⟩ | ⟨c', q', m', r', s', g'⟩
        · subst hc
          subst hq
          refine ⟨0, lm t, memH _ lmm, ?_, ?_, ?_⟩
          · rw [he2, a1]; simp
          · simp only [starF, lmw, he2, Nat.add_eq_zero_iff, Nat.one_ne_zero, and_false, if_false]
            cases rest with
            | nil => simp [posF] at e2
            | cons d' t' rest' =>
              simp only [starF, lmF, Forest.firstDist]
              have : starT t' (lm t') = 0 := starT_lm t' (by have := h.2; simp only [Forest.Regular] at this; exact this.1)
              rw [this]; ring
          · simp only [gF, lmg, List.map_nil, Nat.add_zero]
            cases rest with
            | nil => simp [gF]
            | cons d' t' rest' =>
              have : gT t' (lm t') = [] := gT_lm t' (by have := h.2; simp only [Forest.Regular] at this; exact this.1)
              simp [gF, lmF, this]
        · rw [hcc] at m' r' g'
          refine ⟨c' + 1, q', memR _ m', r', ?_, ?_⟩
          · simp only [starF, s']; ring
          · simp only [gF]
            exact g'.append_right _
end

end Verif.PTree
