import Verif.Checks.Model

/-!
# The checks of tables (C158)
-/

set_option autoImplicit false
set_option linter.unusedSectionVars false

namespace Verif.Checks

/-! ## Specification -/

/-- The table can be used: it has a column, no column of objects, no missing and no infinite value. -/
def Usable (tab : List Column) : Prop := tab ≠ [] ∧ ∀ c ∈ tab, c.isObject = false ∧ ∀ x ∈ c.cells, x = .value

/-- The table has a value that is missing or infinite, and nothing worse. -/
def Holes (tab : List Column) : Prop := (∀ c ∈ tab, c.isObject = false) ∧ ∃ c ∈ tab, ∃ x ∈ c.cells, x ≠ .value

/-- The tables given to the checks. -/
def tables : List Call → List (List Column)
  | [] => []
  | .setOption _ :: cs => tables cs
  | .check tab :: cs => tab :: tables cs

/-- The last value the program itself gave to the option. -/
def own (option : Bool) : List Call → Bool
  | [] => option
  | .setOption b :: cs => own b cs
  | .check _ :: cs => own option cs

/-! ## Lemmas -/

theorem anyNull_iff (tab : List Column) : anyNull true tab = true ↔ ∃ c ∈ tab, ∃ x ∈ c.cells, x ≠ .value := by
  unfold anyNull
  simp only [List.any_eq_true]
  have : ∀ x : Cell, isnull true x = true ↔ x ≠ .value := by intro x; cases x <;> simp [isnull]
  simp only [this]

/-! ## C158 -/

/-- C158. The verdict on a table depends on the table alone: it is accepted when it can be used, `TypeError` when it has a column of objects,
`ValueError` otherwise. -/
theorem verdict_right (option : Bool) (tab : List Column) :
    ((checkTable option tab).1 = .accepted ↔ Usable tab) ∧ ((checkTable option tab).1 = .typeError ↔ ∃ c ∈ tab, c.isObject = true) ∧
    ((checkTable option tab).1 = .valueError ↔ tab = [] ∨ Holes tab) := by
  unfold checkTable Usable Holes
  by_cases h1 : ∃ c ∈ tab, c.isObject = true
  · rw [if_pos (by rw [List.any_eq_true]; exact h1)]
    obtain ⟨c, hc, h⟩ := h1
    refine ⟨⟨fun h2 => (nomatch h2), fun h2 => ?_⟩, ⟨fun _ => ⟨c, hc, h⟩, fun _ => rfl⟩, fun h2 => (nomatch h2), ?_⟩
    · have := (h2.2 c hc).1
      rw [h] at this; cases this
    · rintro (rfl | h2)
      · cases hc
      · have := h2.1 c hc
        rw [h] at this; cases this
  · rw [if_neg (by rw [List.any_eq_true]; exact h1)]
    have hno : ∀ c ∈ tab, c.isObject = false := by
      intro c hc
      by_contra h
      exact h1 ⟨c, hc, by simpa using h⟩
    by_cases h2 : tab = []
    · subst h2
      simp
    · rw [if_neg (by simpa using h2)]
      by_cases h3 : anyNull true tab = true
      · rw [if_pos h3]
        rw [anyNull_iff] at h3
        refine ⟨⟨fun h => (nomatch h), fun h => ?_⟩, ⟨fun h => (nomatch h), fun h => absurd h h1⟩, fun _ => Or.inr ⟨hno, h3⟩, fun _ => rfl⟩
        obtain ⟨c, hc, x, hx, h4⟩ := h3
        exact absurd ((h.2 c hc).2 x hx) h4
      · rw [if_neg h3]
        rw [anyNull_iff] at h3
        refine ⟨⟨fun _ => ⟨h2, fun c hc => ⟨hno c hc, fun x hx => ?_⟩⟩, fun _ => rfl⟩, ⟨fun h => (nomatch h), fun h => absurd h h1⟩,
          fun h => (nomatch h), ?_⟩
        · by_contra h4
          exact h3 ⟨c, hc, x, hx, h4⟩
        · rintro (h | h)
          · exact absurd h h2
          · exact absurd h.2 h3

/-- C158. Nothing done before changes a verdict: neither the option nor earlier tables. -/
theorem verdicts_alone (option : Bool) (cs : List Call) : (run option cs).2 = (tables cs).map (fun tab => (checkTable false tab).1) := by
  have h : ∀ (o o' : Bool) (tab : List Column), (checkTable o tab).1 = (checkTable o' tab).1 := by
    intro o o' tab
    unfold checkTable
    split_ifs <;> rfl
  induction cs generalizing option with
  | nil => rfl
  | cons c cs ih =>
    cases c with
    | setOption b => simpa [run, call, tables] using ih b
    | check tab => simp [run, call, tables, ih, h option false tab]

/-- C158, where it holds: a program that leaves the option alone, or sets it to `False`, and gives tables without missing and infinite values, has
the option as it set it. -/
theorem option_kept_partial (cs : List Call) (h : ∀ tab ∈ tables cs, ¬ Holes tab) (hset : ∀ b, Call.setOption b ∈ cs → b = false) :
    (run false cs).1 = own false cs ∧ own false cs = false := by
  have key : ∀ cs : List Call, (∀ tab ∈ tables cs, ¬ Holes tab) → (∀ b, Call.setOption b ∈ cs → b = false) →
      (run false cs).1 = false ∧ own false cs = false := by
    intro cs
    induction cs with
    | nil => intro _ _; exact ⟨rfl, rfl⟩
    | cons c cs ih =>
      intro h hset
      have hset' : ∀ b, Call.setOption b ∈ cs → b = false := fun b hb => hset b (List.mem_cons_of_mem _ hb)
      cases c with
      | setOption b =>
        obtain rfl := hset b List.mem_cons_self
        exact ih h hset'
      | check tab =>
        have ih' := ih (fun t ht => h t (List.mem_cons_of_mem _ ht)) hset'
        have h0 : (checkTable false tab).2 = false := by
          have hn := h tab List.mem_cons_self
          unfold checkTable
          split_ifs with h1 h2 h3
          · rfl
          · rfl
          · exfalso
            apply hn
            rw [anyNull_iff] at h3
            refine ⟨fun c hc => ?_, h3⟩
            by_contra h4
            exact h1 (List.any_eq_true.2 ⟨c, hc, by simpa using h4⟩)
          · rfl
        change (run (checkTable false tab).2 cs).1 = false ∧ own false cs = false
        rw [h0]
        exact ih'
  have := key cs h hset
  exact ⟨by rw [this.1, this.2], this.2⟩

/-- C158 fails: after any table with a missing or infinite value the option is set, whatever it was: from then on pandas takes infinite values for
missing ones in the whole program. -/
theorem option_left_set (option : Bool) (tab : List Column) (h : Holes tab) :
    (checkTable option tab).2 = true ∧ isnull (checkTable option tab).2 .infinite = true ∧ isnull false .infinite = false := by
  have : (checkTable option tab).2 = true := by
    unfold checkTable
    rw [if_neg, if_neg, if_pos ((anyNull_iff tab).2 h.2)]
    · obtain ⟨c, hc, _⟩ := h.2
      intro h0
      rw [List.length_eq_zero_iff] at h0
      rw [h0] at hc; cases hc
    · rw [List.any_eq_true]
      rintro ⟨c, hc, h1⟩
      rw [h.1 c hc] at h1; cases h1
  rw [this]
  exact ⟨rfl, rfl, rfl⟩

/-- C158 fails: a usable table takes the option back even when the program had set it. -/
theorem option_taken_back (option : Bool) (tab : List Column) (h : Usable tab) : (checkTable option tab).2 = false := by
  have h1 := ((verdict_right option tab).1).2 h
  unfold checkTable at h1 ⊢
  split_ifs at h1 ⊢
  rfl

/-- The hypotheses are met. -/
example : Holes [⟨false, [.value, .missing]⟩, ⟨false, [.value, .value]⟩] ∧ Usable [⟨false, [.value, .value]⟩] ∧
    (run false [.check [⟨true, [.missing]⟩], .setOption false, .check [], .check [⟨false, [.value]⟩]]) = (false, [.typeError, .valueError, .accepted]) ∧
    (run false [.check [⟨false, [.infinite]⟩], .check [⟨true, [.value]⟩]]) = (true, [.valueError, .typeError]) := by
  refine ⟨⟨by simp, ⟨false, [.value, .missing]⟩, by simp, .missing, by simp, by simp⟩, ⟨by simp, by simp⟩, by decide, by decide⟩

/-- The hypotheses of `option_kept_partial` are met. -/
example : (∀ tab ∈ tables [.check [⟨true, [.missing]⟩], .setOption false, .check [⟨false, [.value]⟩]], ¬ Holes tab) := by
  simp [tables, Holes]

end Verif.Checks
