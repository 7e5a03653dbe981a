import Verif.PTree.Corr

set_option autoImplicit false
set_option linter.unusedSectionVars false

namespace Verif.PTree

variable {α : Type}

mutual
theorem gen_eq : ∀ (t : Tree α) (pref : Path) (time : ℤ), gen t time = (occsStar t pref time).map (fun o => (o.1, o.2.1))
  | .leaf ev, pref, time => by simp [gen, occsStar]
  | .node r p ch, pref, time => by
    simp only [gen, occsStar, List.map_flatMap]
    apply List.flatMap_congr
    intro i _
    exact genF_eq ch 0 i pref _
theorem genF_eq : ∀ (ch : Forest α) (ni i : ℕ) (pref : Path) (time : ℤ), genF ch time = (occsStarF ch ni i pref time).map (fun o => (o.1, o.2.1))
  | .nil, _, _, _, _ => by simp [genF, occsStarF]
  | .cons d t rest, ni, i, pref, time => by
    simp only [genF, occsStarF, List.map_append]
    rw [← gen_eq t, ← genF_eq rest]
end

mutual
theorem length_gen : ∀ (t : Tree α) (time : ℤ), (gen t time).length = nbOccs t
  | .leaf ev, time => by simp [gen, nbOccs]
  | .node r p ch, time => by
    simp only [gen, nbOccs, List.length_flatMap, length_genF ch]
    simp
theorem length_genF : ∀ (ch : Forest α) (time : ℤ), (genF ch time).length = nbOccsF ch
  | .nil, _ => by simp [genF, nbOccsF]
  | .cons d t rest, time => by simp [genF, nbOccsF, length_gen t, length_genF rest]
end

mutual
theorem gen_shift : ∀ (t : Tree α) (time s : ℤ), gen t (time + s) = (gen t time).map (fun x => (x.1 + s, x.2))
  | .leaf ev, time, s => by simp [gen]
  | .node r p ch, time, s => by
    simp only [gen, List.map_flatMap]
    apply List.flatMap_congr
    intro i _
    rw [← genF_shift ch]
    congr 1; ring
theorem genF_shift : ∀ (ch : Forest α) (time s : ℤ), genF ch (time + s) = (genF ch time).map (fun x => (x.1 + s, x.2))
  | .nil, _, _ => by simp [genF]
  | .cons d t rest, time, s => by
    simp only [genF, List.map_append]
    rw [← gen_shift t, ← genF_shift rest]
    have : time + s + d = time + d + s := by ring
    rw [this]
end

mutual
theorem mem_alphabet [DecidableEq α] : ∀ (t : Tree α), t.Regular → ∀ (time : ℤ) (a : α), a ∈ alphabet t ↔ a ∈ (gen t time).map Prod.snd
  | .leaf ev, _, time, a => by simp [alphabet, gen]
  | .node r p ch, h, time, a => by
    simp only [Tree.Regular] at h
    simp only [alphabet, gen, List.map_flatMap, List.mem_flatMap, List.mem_range]
    constructor
    · intro ha
      exact ⟨0, h.1, (mem_alphabetF ch h.2.2.2 _ a).mp ha⟩
    · rintro ⟨i, _, hi⟩
      exact (mem_alphabetF ch h.2.2.2 _ a).mpr hi
theorem mem_alphabetF [DecidableEq α] : ∀ (ch : Forest α), ch.Regular → ∀ (time : ℤ) (a : α), a ∈ alphabetF ch ↔ a ∈ (genF ch time).map Prod.snd
  | .nil, _, _, _ => by simp [alphabetF, genF]
  | .cons d t rest, h, time, a => by
    simp only [Forest.Regular] at h
    simp only [alphabetF, genF, Finset.mem_union, List.map_append, List.mem_append]
    rw [mem_alphabet t h.1 (time + d) a, mem_alphabetF rest h.2 (time + d) a]
end

/-! ### Factorisation -/

theorem flatMap_append_perm' {β γ : Type} (l : List β) (f g : β → List γ) : (l.flatMap f ++ l.flatMap g).Perm (l.flatMap fun x => f x ++ g x) := by
  induction l with
  | nil => simp
  | cons a l ih =>
    simp only [List.flatMap_cons]
    have : (f a ++ l.flatMap f ++ (g a ++ l.flatMap g)).Perm (f a ++ g a ++ (l.flatMap f ++ l.flatMap g)) := by
      simp only [List.append_assoc]
      refine List.Perm.append_left _ ?_
      rw [← List.append_assoc, ← List.append_assoc]
      exact List.perm_append_comm.append_right _
    exact this.trans (ih.append_left _)

theorem grand_gen (p : ℤ) (r : ℕ) : ∀ (ch : Forest α), sameCycle p r ch = true → ch.Regular → ∃ nch, grandChildren ch = some nch ∧
    nch.Regular ∧ nch.firstDist = ch.firstDist ∧ (ch.NonEmpty → nch.NonEmpty) ∧ (nbOccsF ch = r * nbOccsF nch) ∧
    ∀ time, (genF ch time).Perm ((List.range r).flatMap (fun j : ℕ => genF nch (time + (j : ℤ) * p)))
  | .nil, _, _ => ⟨.nil, rfl, trivial, rfl, id, by simp [nbOccsF], by intro time; simp [genF]⟩
  | .cons d t rest, h, hr => by
    simp only [sameCycle] at h
    cases t with
    | leaf ev => simp [onlyChild] at h
    | node r' p' ch' =>
      cases ch' with
      | nil => simp [onlyChild] at h
      | cons d' g rest' =>
        cases rest' with
        | cons _ _ _ => simp [onlyChild] at h
        | nil =>
          simp only [onlyChild, Bool.and_eq_true, beq_iff_eq] at h
          obtain ⟨⟨rfl, rfl⟩, hs⟩ := h
          simp only [Forest.Regular, Tree.Regular, Forest.firstDist] at hr
          obtain ⟨⟨h1, h2, h3, h4, _⟩, h5⟩ := hr
          obtain ⟨nch, n1, n2, n3, n4, n5, n6⟩ := grand_gen p' r' rest hs h5
          refine ⟨.cons d g nch, by simp [grandChildren, n1], ?_, rfl, fun _ => trivial, ?_, ?_⟩
          · simp only [Forest.Regular]; exact ⟨h4, n2⟩
          · simp only [nbOccsF, nbOccs, n5]; ring
          · intro time
            simp only [genF, gen]
            subst h3
            refine (List.Perm.append_left _ (n6 (time + d))).trans ?_
            refine (flatMap_append_perm' _ _ _).trans ?_
            apply List.Perm.of_eq
            apply List.flatMap_congr
            intro j _
            simp only [List.append_nil]
            have e : time + d + (j : ℤ) * p' = time + (j : ℤ) * p' + d := by ring
            rw [add_zero, e]

theorem here_gen (t : Tree α) (h : canFactorizeHere t = true) (hr : t.Regular) :
    ∃ t', factorizeHere t = some t' ∧ t'.Regular ∧ nbOccs t' = nbOccs t ∧ ∀ time, (gen t' time).Perm (gen t time) := by
  cases t with
  | leaf ev => simp [canFactorizeHere] at h
  | node r p ch =>
    cases ch with
    | nil => simp [canFactorizeHere] at h
    | cons d t rest =>
      cases rest with
      | nil => simp [canFactorizeHere] at h
      | cons d2 t2 rest =>
        cases t with
        | leaf ev => simp [canFactorizeHere, onlyChild] at h
        | node r' p' ch' =>
          cases ch' with
          | nil => simp [canFactorizeHere, onlyChild] at h
          | cons d' g rest' =>
            cases rest' with
            | cons _ _ _ => simp [canFactorizeHere, onlyChild] at h
            | nil =>
              have hs : sameCycle p' r' (.cons d (.node r' p' (.cons d' g .nil)) (.cons d2 t2 rest)) = true := by
                simp only [canFactorizeHere, onlyChild] at h
                rw [sameCycle]
                simp [onlyChild, h]
              simp only [Tree.Regular] at hr
              obtain ⟨h1, h2, h3, h4⟩ := hr
              obtain ⟨nch, n1, n2, n3, n4, n5, n6⟩ := grand_gen p' r' _ hs h4
              have hr' : 1 ≤ r' := by
                simp only [Forest.Regular, Tree.Regular] at h4
                exact h4.1.1
              refine ⟨.node r p (.cons 0 (.node r' p' nch) .nil), by simp [factorizeHere, n1], ?_, ?_, ?_⟩
              · simp only [Tree.Regular, Forest.Regular]
                exact ⟨h1, trivial, rfl, ⟨hr', n4 trivial, by rw [n3]; exact h3, n2⟩, trivial⟩
              · show r * nbOccsF (.cons 0 (.node r' p' nch) .nil) = r * nbOccsF _
                rw [n5]
                simp [nbOccsF, nbOccs]
              · intro time
                simp only [gen]
                apply List.Perm.flatMap_left
                intro i _
                refine List.Perm.trans ?_ (n6 _).symm
                simp [genF, gen]

theorem at_gen : ∀ (k : List ℕ) (t : Tree α), k ∈ canFactorize t → t.Regular →
    ∃ t', factorizeAt k t = some t' ∧ t'.Regular ∧ nbOccs t' = nbOccs t ∧ ∀ time, (gen t' time).Perm (gen t time) := by
  intro k
  induction k with
  | nil =>
    intro t h hr
    have : canFactorizeHere t = true := by
      cases t with
      | leaf ev => simp [canFactorize] at h
      | node r p ch =>
        simp only [canFactorize, List.mem_append] at h
        rcases h with h | h
        · exfalso
          have : ∀ (ch : Forest α) (c : ℕ), [] ∉ canFactorizeF ch c := by
            intro ch
            induction ch using Forest.rec (motive_1 := fun _ => True) with
            | leaf => trivial
            | node => trivial
            | nil => intro c; simp [canFactorizeF]
            | cons d t rest _ ih => intro c; simp [canFactorizeF, ih]
          exact this ch 0 h
        · split at h
          · assumption
          · simp at h
    exact here_gen t this hr
  | cons c k ih =>
    intro t h hr
    cases t with
    | leaf ev => simp [canFactorize] at h
    | node r p ch =>
      simp only [canFactorize, List.mem_append] at h
      have hF : (c :: k) ∈ canFactorizeF ch 0 := by
        rcases h with h | h
        · exact h
        · split at h <;> simp at h
      simp only [Tree.Regular] at hr
      have aux : ∀ (ch : Forest α) (c0 j : ℕ), ((c0 + j) :: k) ∈ canFactorizeF ch c0 → ch.Regular → ∃ ch', ch.modify? j (factorizeAt k) = some ch' ∧
          ch'.Regular ∧ (ch.NonEmpty → ch'.NonEmpty) ∧ ch'.firstDist = ch.firstDist ∧ nbOccsF ch' = nbOccsF ch ∧
          ∀ time, (genF ch' time).Perm (genF ch time) := by
        intro ch
        induction ch using Forest.rec (motive_1 := fun _ => True) with
        | leaf => trivial
        | node => trivial
        | nil => intro c0 j h; simp [canFactorizeF] at h
        | cons d t rest _ ihF =>
          intro c0 j h hr
          simp only [canFactorizeF, List.mem_append, List.mem_map] at h
          simp only [Forest.Regular] at hr
          have hge : ∀ (ch : Forest α) (c1 x : ℕ), (x :: k) ∈ canFactorizeF ch c1 → c1 ≤ x := by
            intro ch
            induction ch using Forest.rec (motive_1 := fun _ => True) with
            | leaf => trivial
            | node => trivial
            | nil => intro c1 x h; simp [canFactorizeF] at h
            | cons d t rest _ ih2 =>
              intro c1 x h
              simp only [canFactorizeF, List.mem_append, List.mem_map] at h
              rcases h with ⟨y, _, hy⟩ | h
              · simp only [List.cons.injEq] at hy; omega
              · have := ih2 (c1 + 1) x h; omega
          cases j with
          | zero =>
            rcases h with ⟨y, hy, hyk⟩ | h
            · simp only [List.cons.injEq] at hyk
              rw [hyk.2] at hy
              obtain ⟨t', a1, a2, a3, a4⟩ := ih t hy hr.1
              refine ⟨.cons d t' rest, by simp [Forest.modify?, a1], ?_, fun _ => trivial, rfl, ?_, ?_⟩
              · simp only [Forest.Regular]; exact ⟨a2, hr.2⟩
              · simp [nbOccsF, a3]
              · intro time; simp only [genF]; exact (a4 _).append_right _
            · have := hge rest (c0 + 1) (c0 + 0) h; omega
          | succ j =>
            rcases h with ⟨y, hy, hyk⟩ | h
            · simp only [List.cons.injEq] at hyk; omega
            · have e : c0 + (j + 1) = c0 + 1 + j := by omega
              rw [e] at h
              obtain ⟨ch', a1, a2, a3, a4, a5, a6⟩ := ihF (c0 + 1) j h hr.2
              refine ⟨.cons d t ch', by simp [Forest.modify?, a1], ?_, fun _ => trivial, rfl, ?_, ?_⟩
              · simp only [Forest.Regular]; exact ⟨hr.1, a2⟩
              · simp [nbOccsF, a5]
              · intro time; simp only [genF]; exact (a6 _).append_left _
      obtain ⟨ch', a1, a2, a3, a4, a5, a6⟩ := aux ch 0 c (by simpa using hF) hr.2.2.2
      refine ⟨.node r p ch', by simp [factorizeAt, a1], ?_, ?_, ?_⟩
      · simp only [Tree.Regular]; exact ⟨hr.1, a3 hr.2.1, by rw [a4]; exact hr.2.2.1, a2⟩
      · simp [nbOccs, a5]
      · intro time
        simp only [gen]
        apply List.Perm.flatMap_left
        intro i _
        exact a6 _

end Verif.PTree
