import Verif.Mdlp.Model
import Verif.Mdlp.Spec
import Mathlib.Tactic.Linarith
import Mathlib.Tactic.Ring

/-! # Lemmas for the MDLP discretizer -/

set_option autoImplicit false
set_option linter.unusedSectionVars false

namespace Verif.Mdlp

variable {E : Type*} [LinearOrder E]

/-- `k` is the first best boundary in `(s, e)`. -/
def Best (y : List ℕ) (score : ℕ → E) (s e k : ℕ) : Prop :=
  s < k ∧ k < e ∧ Boundary y k ∧ ∀ j, s < j → j < e → Boundary y j → score k ≤ score j ∧ (j < k → score k < score j)

theorem fold_spec (y : List ℕ) (score : ℕ → E) (s m : ℕ) (hm : s + 1 + m ≤ y.length) :
    (((List.range' (s + 1) m).foldl (cutStep y score) none = none) ∧ ∀ j, s < j → j < s + 1 + m → ¬ Boundary y j) ∨
    ∃ k, (List.range' (s + 1) m).foldl (cutStep y score) none = some (k, score k) ∧ Best y score s (s + 1 + m) k := by
  induction m with
  | zero => left; exact ⟨rfl, fun j h1 h2 => by omega⟩
  | succ m ih =>
    have hr : List.range' (s + 1) (m + 1) = List.range' (s + 1) m ++ [s + 1 + m] := by
      rw [List.range'_concat]; simp
    rw [hr, List.foldl_append, List.foldl_cons, List.foldl_nil]
    have hB : Boundary y (s + 1 + m) ↔ ¬ y[s + 1 + m - 1]? = y[s + 1 + m]? :=
      ⟨fun h => h.2.2, fun h => ⟨by omega, by omega, h⟩⟩
    rcases ih (by omega) with ⟨h1, h2⟩ | ⟨k, h1, hk1, hk2, hk3, hk4⟩
    · rw [h1]
      by_cases hb : Boundary y (s + 1 + m)
      · right
        refine ⟨s + 1 + m, ?_, by omega, by omega, hb, fun j j1 j2 j3 => ?_⟩
        · rw [cutStep, if_neg (hB.1 hb)]
        · rcases Nat.lt_or_ge j (s + 1 + m) with hlt | hge
          · exact absurd j3 (h2 j j1 hlt)
          · have : j = s + 1 + m := by omega
            subst this
            exact ⟨le_refl _, fun h => absurd h (lt_irrefl _)⟩
      · left
        refine ⟨?_, fun j j1 j2 => ?_⟩
        · rw [cutStep, if_pos (not_not.1 (fun h => hb (hB.2 h)))]
        · rcases Nat.lt_or_ge j (s + 1 + m) with hlt | hge
          · exact h2 j j1 hlt
          · have : j = s + 1 + m := by omega
            subst this; exact hb
    · right
      rw [h1]
      by_cases hb : Boundary y (s + 1 + m)
      · rw [cutStep, if_neg (hB.1 hb)]
        simp only
        by_cases hlt : score (s + 1 + m) < score k
        · rw [if_pos hlt]
          refine ⟨s + 1 + m, rfl, by omega, by omega, hb, fun j j1 j2 j3 => ?_⟩
          rcases Nat.lt_or_ge j (s + 1 + m) with hj | hj
          · have := (hk4 j j1 hj j3).1
            exact ⟨(hlt.trans_le this).le, fun _ => hlt.trans_le this⟩
          · have : j = s + 1 + m := by omega
            subst this
            exact ⟨le_refl _, fun h => absurd h (lt_irrefl _)⟩
        · rw [if_neg hlt]
          refine ⟨k, rfl, hk1, by omega, hk3, fun j j1 j2 j3 => ?_⟩
          rcases Nat.lt_or_ge j (s + 1 + m) with hj | hj
          · exact hk4 j j1 hj j3
          · have : j = s + 1 + m := by omega
            subst this
            exact ⟨not_lt.1 hlt, fun h => by omega⟩
      · rw [cutStep, if_pos (not_not.1 (fun h => hb (hB.2 h)))]
        refine ⟨k, rfl, hk1, by omega, hk3, fun j j1 j2 j3 => ?_⟩
        rcases Nat.lt_or_ge j (s + 1 + m) with hj | hj
        · exact hk4 j j1 hj j3
        · have : j = s + 1 + m := by omega
          subst this
          exact absurd j3 hb

theorem generateCut_spec (y : List ℕ) (score : ℕ → ℕ → ℕ → E) (s e : ℕ) (hse : s < e) (he : e ≤ y.length) :
    (generateCut y score s e = none ∧ ∀ j, s < j → j < e → ¬ Boundary y j) ∨
    ∃ k, generateCut y score s e = some k ∧ Best y (score s e) s e k := by
  have hm : s + 1 + (e - (s + 1)) = e := by omega
  rcases fold_spec y (score s e) s (e - (s + 1)) (by omega) with ⟨h1, h2⟩ | ⟨k, h1, h2⟩
  · left; rw [hm] at h2; exact ⟨by rw [generateCut, h1]; rfl, h2⟩
  · right; rw [hm] at h2; exact ⟨k, by rw [generateCut, h1]; rfl, h2⟩

theorem best_unique {y : List ℕ} {score : ℕ → E} {s e k k' : ℕ} (h : Best y score s e k) (h' : Best y score s e k') : k = k' := by
  obtain ⟨a1, a2, a3, a4⟩ := h
  obtain ⟨b1, b2, b3, b4⟩ := h'
  rcases lt_trichotomy k k' with hlt | heq | hlt
  · exact absurd ((b4 k a1 a2 a3).2 hlt) (not_lt.2 (a4 k' b1 b2 b3).1)
  · exact heq
  · exact absurd ((a4 k' b1 b2 b3).2 hlt) (not_lt.2 (b4 k a1 a2 a3).1)

theorem split_best {y : List ℕ} {score : ℕ → ℕ → ℕ → E} {better : ℕ → ℕ → ℕ → Bool} {s e k : ℕ} :
    Split y score better s e k ↔ Best y (score s e) s e k ∧ better s e k = true :=
  ⟨fun ⟨h1, h2, h3, h4, h5⟩ => ⟨⟨h1, h2, h3, h5⟩, h4⟩, fun ⟨⟨h1, h2, h3, h5⟩, h4⟩ => ⟨h1, h2, h3, h4, h5⟩⟩

theorem split_unique {y : List ℕ} {score : ℕ → ℕ → ℕ → E} {better : ℕ → ℕ → ℕ → Bool} {s e k k' : ℕ}
    (h : Split y score better s e k) (h' : Split y score better s e k') : k = k' :=
  best_unique (split_best.1 h).1 (split_best.1 h').1

/-- `j` is a split position of the recursion started on `(s, e)`. -/
inductive Under (y : List ℕ) (score : ℕ → ℕ → ℕ → E) (better : ℕ → ℕ → ℕ → Bool) : ℕ → ℕ → ℕ → Prop
  | here (s e k : ℕ) : Split y score better s e k → Under y score better s e k
  | left (s e k j : ℕ) : Split y score better s e k → Under y score better s k j → Under y score better s e j
  | right (s e k j : ℕ) : Split y score better s e k → Under y score better k e j → Under y score better s e j

theorem cutAt_iff (y : List ℕ) (score : ℕ → ℕ → ℕ → E) (better : ℕ → ℕ → ℕ → Bool) (j : ℕ) :
    CutAt y score better j ↔ Under y score better 0 y.length j := by
  constructor
  · rintro ⟨s, e, hi, hs⟩
    have : ∀ s e, Interval y score better s e → ∀ j, Under y score better s e j → Under y score better 0 y.length j := by
      intro s e hi
      induction hi with
      | all => exact fun j h => h
      | left s e k _ hs ih => exact fun j h => ih j (Under.left s e k j hs h)
      | right s e k _ hs ih => exact fun j h => ih j (Under.right s e k j hs h)
    exact this s e hi j (Under.here s e j hs)
  · have : ∀ s e j, Under y score better s e j → Interval y score better s e → CutAt y score better j := by
      intro s e j h
      induction h with
      | here s e k hs => exact fun hi => ⟨s, e, hi, hs⟩
      | left s e k j hs _ ih => exact fun hi => ih (Interval.left s e k hi hs)
      | right s e k j hs _ ih => exact fun hi => ih (Interval.right s e k hi hs)
    exact fun h => this _ _ _ h Interval.all

/-- Midpoint before position `k`. -/
def midAt (X : List ℚ) (k : ℕ) : ℚ := (X.getD (k - 1) 0 + X.getD k 0) / 2

theorem mem_ends (X : List ℚ) (s e : ℕ) (c : ℚ) :
    c ∈ ends X s e ↔ (s ≠ 0 ∧ c = midAt X s) ∨ (e ≠ X.length ∧ c = midAt X e) := by
  unfold ends midAt
  by_cases h1 : s = 0 <;> by_cases h2 : e = X.length <;> simp [h1, h2]

/-- Weight of the stack: number of turns that suffices. -/
def weight (stack : List (ℕ × ℕ)) : ℕ := (stack.map (fun iv => 2 * (iv.2 - iv.1) - 1)).sum

theorem loop_spec (y : List ℕ) (score : ℕ → ℕ → ℕ → E) (better : ℕ → ℕ → ℕ → Bool) (X : List ℚ) (hX : X.length = y.length)
    (fuel : ℕ) (stack : List (ℕ × ℕ)) (acc : List ℚ) (hst : ∀ iv ∈ stack, iv.1 < iv.2 ∧ iv.2 ≤ y.length)
    (hf : weight stack ≤ fuel) :
    ∃ r, loop y score better X fuel stack acc = some (.ok r) ∧
      ∀ c, c ∈ r ↔ c ∈ acc ∨ ∃ iv ∈ stack, c ∈ ends X iv.1 iv.2 ∨ ∃ k, Under y score better iv.1 iv.2 k ∧ c = midAt X k := by
  induction fuel generalizing stack acc with
  | zero =>
    cases stack with
    | nil => exact ⟨acc, rfl, fun c => by simp⟩
    | cons iv stack =>
      have := (hst iv List.mem_cons_self).1
      rw [weight, List.map_cons, List.sum_cons] at hf
      omega
  | succ fuel ih =>
    cases stack with
    | nil => exact ⟨acc, rfl, fun c => by simp⟩
    | cons iv stack =>
      obtain ⟨s, e⟩ := iv
      obtain ⟨hse, he⟩ := hst _ List.mem_cons_self
      simp only at hse he
      have hw : weight ((s, e) :: stack) = (2 * (e - s) - 1) + weight stack := by
        rw [weight, List.map_cons, List.sum_cons]; rfl
      rw [hw] at hf
      have hst' : ∀ iv ∈ stack, iv.1 < iv.2 ∧ iv.2 ≤ y.length := fun iv h => hst iv (List.mem_cons_of_mem _ h)
      rw [loop, if_neg (by omega)]
      have hleaf : (∀ k, ¬ Split y score better s e k) → ∃ r, loop y score better X fuel stack (acc ++ ends X s e) = some (.ok r) ∧
          ∀ c, c ∈ r ↔ c ∈ acc ∨ ∃ iv ∈ (s, e) :: stack, c ∈ ends X iv.1 iv.2 ∨
            ∃ k, Under y score better iv.1 iv.2 k ∧ c = midAt X k := by
        intro hno
        obtain ⟨r, hr1, hr2⟩ := ih stack (acc ++ ends X s e) hst' (by omega)
        refine ⟨r, hr1, fun c => ?_⟩
        have hU : ∀ k, ¬ Under y score better s e k := by
          intro k hk
          cases hk with
          | here _ _ _ h => exact hno _ h
          | left _ _ _ _ h _ => exact hno _ h
          | right _ _ _ _ h _ => exact hno _ h
        rw [hr2, List.mem_append, or_assoc]
        constructor
        · rintro (h | h | ⟨iv, h1, h2⟩)
          · exact Or.inl h
          · exact Or.inr ⟨(s, e), List.mem_cons_self, Or.inl h⟩
          · exact Or.inr ⟨iv, List.mem_cons_of_mem _ h1, h2⟩
        · rintro (h | ⟨iv, h1, h2⟩)
          · exact Or.inl h
          · rcases List.mem_cons.1 h1 with heq | h1
            · subst heq
              rcases h2 with h2 | ⟨k, h2, _⟩
              · exact Or.inr (Or.inl h2)
              · exact absurd h2 (hU k)
            · exact Or.inr (Or.inr ⟨iv, h1, h2⟩)
      rcases generateCut_spec y score s e hse he with ⟨hg, hno⟩ | ⟨k, hg, hb⟩
      · rw [hg]
        exact hleaf (fun k hk => hno k hk.1 hk.2.1 hk.2.2.1)
      · rw [hg]
        simp only
        obtain ⟨k1, k2, _⟩ := id hb
        by_cases hbt : better s e k = true
        · rw [if_pos hbt]
          have hS : Split y score better s e k := split_best.2 ⟨hb, hbt⟩
          obtain ⟨r, hr1, hr2⟩ := ih ((k, e) :: (s, k) :: stack) acc (by
              intro iv hiv
              rcases List.mem_cons.1 hiv with heq | hiv
              · subst heq; exact ⟨k2, he⟩
              · rcases List.mem_cons.1 hiv with heq | hiv
                · subst heq; exact ⟨k1, by simp only; omega⟩
                · exact hst' iv hiv) (by
              have : weight ((k, e) :: (s, k) :: stack) = (2 * (e - k) - 1) + ((2 * (k - s) - 1) + weight stack) := by
                rw [weight, List.map_cons, List.sum_cons, List.map_cons, List.sum_cons]; rfl
              rw [this]; omega)
          refine ⟨r, hr1, fun c => ?_⟩
          have hends : c ∈ ends X k e ∨ c ∈ ends X s k ↔ c ∈ ends X s e ∨ c = midAt X k := by
            rw [mem_ends, mem_ends, mem_ends]
            have h0 : k ≠ 0 := by omega
            have h1 : k ≠ X.length := by omega
            tauto
          have hU : ∀ j, Under y score better s e j ↔ j = k ∨ Under y score better s k j ∨ Under y score better k e j := by
            intro j
            constructor
            · intro h
              cases h with
              | here _ _ _ h => exact Or.inl (split_unique h hS)
              | left _ _ k' _ h h' => rw [split_unique h hS] at h'; exact Or.inr (Or.inl h')
              | right _ _ k' _ h h' => rw [split_unique h hS] at h'; exact Or.inr (Or.inr h')
            · rintro (h | h | h)
              · rw [h]; exact Under.here _ _ _ hS
              · exact Under.left _ _ _ _ hS h
              · exact Under.right _ _ _ _ hS h
          rw [hr2]
          constructor
          · rintro (h | ⟨iv, h1, h2⟩)
            · exact Or.inl h
            · right
              rcases List.mem_cons.1 h1 with heq | h1
              · subst heq
                refine ⟨(s, e), List.mem_cons_self, ?_⟩
                rcases h2 with h2 | ⟨j, h2, h3⟩
                · rcases hends.1 (Or.inl h2) with h | h
                  · exact Or.inl h
                  · exact Or.inr ⟨k, (hU k).2 (Or.inl rfl), h⟩
                · exact Or.inr ⟨j, (hU j).2 (Or.inr (Or.inr h2)), h3⟩
              · rcases List.mem_cons.1 h1 with heq | h1
                · subst heq
                  refine ⟨(s, e), List.mem_cons_self, ?_⟩
                  rcases h2 with h2 | ⟨j, h2, h3⟩
                  · rcases hends.1 (Or.inr h2) with h | h
                    · exact Or.inl h
                    · exact Or.inr ⟨k, (hU k).2 (Or.inl rfl), h⟩
                  · exact Or.inr ⟨j, (hU j).2 (Or.inr (Or.inl h2)), h3⟩
                · exact ⟨iv, List.mem_cons_of_mem _ h1, h2⟩
          · rintro (h | ⟨iv, h1, h2⟩)
            · exact Or.inl h
            · right
              rcases List.mem_cons.1 h1 with heq | h1
              · subst heq
                have m1 : (k, e) ∈ (k, e) :: (s, k) :: stack := List.mem_cons_self
                have m2 : (s, k) ∈ (k, e) :: (s, k) :: stack := List.mem_cons_of_mem _ List.mem_cons_self
                rcases h2 with h2 | ⟨j, h2, h3⟩
                · rcases hends.2 (Or.inl h2) with h | h
                  · exact ⟨_, m1, Or.inl h⟩
                  · exact ⟨_, m2, Or.inl h⟩
                · rcases (hU j).1 h2 with h | h | h
                  · rw [h] at h3
                    rcases hends.2 (Or.inr h3) with h | h
                    · exact ⟨_, m1, Or.inl h⟩
                    · exact ⟨_, m2, Or.inl h⟩
                  · exact ⟨_, m2, Or.inr ⟨j, h, h3⟩⟩
                  · exact ⟨_, m1, Or.inr ⟨j, h, h3⟩⟩
              · exact ⟨iv, List.mem_cons_of_mem _ (List.mem_cons_of_mem _ h1), h2⟩
        · rw [if_neg hbt]
          exact hleaf (fun j hj => hbt (by
            rw [best_unique hb (split_best.1 hj).1]; exact (split_best.1 hj).2))

theorem searchSorted_spec (cuts : List ℚ) (v : ℚ) (hs : cuts.Pairwise (· ≤ ·)) (lo hi : ℕ) (hlh : lo ≤ hi) (hh : hi ≤ cuts.length)
    (h1 : ∀ i, i < lo → ∀ c, cuts[i]? = some c → c < v) (h2 : ∀ i, hi ≤ i → ∀ c, cuts[i]? = some c → v ≤ c) :
    searchSorted cuts v lo hi ≤ cuts.length ∧
    (∀ i, i < searchSorted cuts v lo hi → ∀ c, cuts[i]? = some c → c < v) ∧
    (∀ i, searchSorted cuts v lo hi ≤ i → ∀ c, cuts[i]? = some c → v ≤ c) := by
  have hpw : ∀ (i j : ℕ) (a b : ℚ), i ≤ j → cuts[i]? = some a → cuts[j]? = some b → a ≤ b := by
    intro i j a b hij ha hb
    rcases Nat.lt_or_ge i j with hlt | hge
    · obtain ⟨hi', ha⟩ := List.getElem?_eq_some_iff.1 ha
      obtain ⟨hj', hb⟩ := List.getElem?_eq_some_iff.1 hb
      rw [← ha, ← hb]
      exact List.pairwise_iff_getElem.1 hs i j hi' hj' hlt
    · have : i = j := by omega
      subst this
      rw [ha] at hb
      exact (Option.some.inj hb).le
  induction hn : hi - lo using Nat.strong_induction_on generalizing lo hi with
  | _ n ih =>
    rw [searchSorted]
    by_cases hlt : lo < hi
    · rw [dif_pos hlt]
      have hm : (lo + hi) / 2 < cuts.length := by omega
      have hget : cuts[(lo + hi) / 2]? = some (cuts.getD ((lo + hi) / 2) 0) := by
        rw [List.getD_eq_getElem?_getD, List.getElem?_eq_getElem hm]; rfl
      by_cases hc : cuts.getD ((lo + hi) / 2) 0 < v
      · rw [if_pos hc]
        refine ih (hi - ((lo + hi) / 2 + 1)) (by omega) _ _ (by omega) hh ?_ h2 rfl
        intro i hi' c hci
        exact (hpw i _ c _ (by omega) hci hget).trans_lt hc
      · rw [if_neg hc]
        refine ih ((lo + hi) / 2 - lo) (by omega) _ _ (by omega) (by omega) h1 ?_ rfl
        intro i hi' c hci
        exact (not_lt.1 hc).trans (hpw _ i _ c (by omega) hget hci)
    · rw [dif_neg hlt]
      have : lo = hi := by omega
      subst this
      exact ⟨hh, h1, h2⟩

theorem searchSorted_count (cuts : List ℚ) (v : ℚ) (hs : cuts.Pairwise (· ≤ ·)) :
    searchSorted cuts v 0 cuts.length = cuts.countP (· < v) := by
  obtain ⟨h0, h1, h2⟩ := searchSorted_spec cuts v hs 0 cuts.length (Nat.zero_le _) (le_refl _) (fun i h => by omega)
    (fun i h c hc => by rw [List.getElem?_eq_none h] at hc; cases hc)
  generalize searchSorted cuts v 0 cuts.length = r at h0 h1 h2
  rw [← List.take_append_drop r cuts, List.countP_append]
  have e1 : (cuts.take r).countP (· < v) = r := by
    have : (cuts.take r).countP (· < v) = (cuts.take r).length := by
      rw [List.countP_eq_length]
      intro c hc
      obtain ⟨i, hi⟩ := List.getElem?_of_mem hc
      rw [List.getElem?_take] at hi
      split at hi
      · next hlt => simpa using h1 i hlt c hi
      · cases hi
    rw [this, List.length_take]; omega
  have e2 : (cuts.drop r).countP (· < v) = 0 := by
    rw [List.countP_eq_zero]
    intro c hc
    obtain ⟨i, hi⟩ := List.getElem?_of_mem hc
    rw [List.getElem?_drop] at hi
    simpa using h2 (r + i) (Nat.le_add_right _ _) c hi
  rw [e1, e2]
  rfl

end Verif.Mdlp
