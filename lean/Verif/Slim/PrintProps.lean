import Verif.Slim.PrintModel
import Verif.Slim.Props
import Mathlib.Tactic.Linarith

/-!
# Printing the progress of SLIM: properties (C172)
-/

set_option autoImplicit false
set_option linter.unusedSectionVars false

namespace Verif.Slim

variable {α κ : Type*} [LinearOrder α] [LinearOrder κ]

/-! ### Specification -/

/-- The candidates of a turn of the main loop. -/
def turnCands (O : Oracle α) (i : ℕ) (st : State α ℚ) : List (Finset α × ℚ) :=
  (generateCandidates (O.gain i (O.enum i st.ct)) (O.enum i st.ct) (st.ct.map Prod.fst).toFinset).1

/-- From `st`, the main loop goes from turn `i` through the given states, each reached by accepting a candidate, and stops in `st'`, either because no candidate helps (`true`) or because of the time (`false`). -/
inductive Goes (P : Params α κ ℚ) (O : Oracle α) : ℕ → State α ℚ → List (State α ℚ) → Bool → State α ℚ → Prop
  | stop (i : ℕ) (st : State α ℚ) : tryCandidates P (O.choose i) st (turnCands O i st) = some (.ok none) → Goes P O i st [] true st
  | late (i : ℕ) (st st2 : State α ℚ) : tryCandidates P (O.choose i) st (turnCands O i st) = some (.ok (some st2)) → O.timeUp i = true → Goes P O i st [st2] false st2
  | step (i : ℕ) (st st2 st' : State α ℚ) (l : List (State α ℚ)) (b : Bool) : tryCandidates P (O.choose i) st (turnCands O i st) = some (.ok (some st2)) → O.timeUp i = false →
      Goes P O (i + 1) st2 l b st' → Goes P O i st (st2 :: l) b st'

/-- The total sizes in the printed lines. -/
def sizesIn (l : List Line) : List ℚ := l.filterMap (fun | .sizes v => some v | .candidates _ => none)

/-- The numbers of candidates in the printed lines. -/
def countsIn (l : List Line) : List ℕ := l.filterMap (fun | .sizes _ => none | .candidates n => some n)

/-- The states in which a turn begins: all but the last when the time is up. -/
def begun (st : State α ℚ) (l : List (State α ℚ)) (b : Bool) : List (State α ℚ) := if b then st :: l else (st :: l).dropLast

/-- The totals, starting from `cur`, that are more than a hundredth below the one before. -/
def savings : ℚ → List ℚ → List ℚ
  | _, [] => []
  | cur, v :: vs => if 1 / 100 < cur - v then v :: savings v vs else savings v vs

/-! ### Lemmas -/

theorem sizesIn_append (a b : List Line) : sizesIn (a ++ b) = sizesIn a ++ sizesIn b := List.filterMap_append
theorem countsIn_append (a b : List Line) : countsIn (a ++ b) = countsIn a ++ countsIn b := List.filterMap_append

theorem sizesIn_gain (a b : ℚ) : sizesIn (printGain a b) = if 1 / 100 < a - b then [b] else [] := by
  unfold printGain sizesIn
  split <;> rfl

theorem countsIn_gain (a b : ℚ) : countsIn (printGain a b) = [] := by
  unfold printGain countsIn
  split <;> rfl

theorem tryPrint_result (P : Params α κ ℚ) (choose : Finset α → Chooser α) (st : State α ℚ) (cs : List (Finset α × ℚ)) :
    (tryPrint P choose st cs).2 = tryCandidates P choose st cs := by
  induction cs with
  | nil => rfl
  | cons c cs ih =>
    unfold tryPrint tryCandidates
    rcases evaluate P (choose c.1) st c.1 with _ | e | r
    · rfl
    · rfl
    · simp only
      split
      · rfl
      · exact ih

theorem tryPrint_counts (P : Params α κ ℚ) (choose : Finset α → Chooser α) (st : State α ℚ) (cs : List (Finset α × ℚ)) :
    countsIn (tryPrint P choose st cs).1 = [] := by
  induction cs with
  | nil => rfl
  | cons c cs ih =>
    unfold tryPrint
    rcases evaluate P (choose c.1) st c.1 with _ | e | r
    · rfl
    · rfl
    · simp only
      split
      · exact countsIn_gain _ _
      · simp only [countsIn_append, countsIn_gain, ih, List.append_nil]

theorem tryPrint_sizes (P : Params α κ ℚ) (choose : Finset α → Chooser α) (st : State α ℚ) (cs : List (Finset α × ℚ)) (r : Option (State α ℚ))
    (h : tryCandidates P choose st cs = some (.ok r)) :
    sizesIn (tryPrint P choose st cs).1 = savings st.size (r.toList.map State.size) := by
  induction cs with
  | nil => cases h; rfl
  | cons c cs ih =>
    unfold tryCandidates at h
    unfold tryPrint
    rcases he : evaluate P (choose c.1) st c.1 with _ | e | q
    · rw [he] at h; cases h
    · rw [he] at h; cases h
    · rw [he] at h
      simp only at h ⊢
      split at h
      · next hlt =>
        cases h
        rw [if_pos hlt, sizesIn_gain]
        simp only [Option.toList_some, List.map_cons, List.map_nil, savings]
        rfl
      · next hlt =>
        rw [if_neg hlt]
        simp only
        rw [sizesIn_append, ih h, sizesIn_gain, if_neg (by linarith), List.nil_append]

theorem savings_append : ∀ (cur : ℚ) (v : ℚ) (vs : List ℚ), savings cur (v :: vs) = savings cur [v] ++ savings v vs := by
  intro cur v vs
  simp only [savings]
  split <;> rfl

/-- The totals printed are among the totals reached, in order, each more than a hundredth below all before it. -/
theorem savings_decrease : ∀ (vs : List ℚ) (cur : ℚ), (cur :: vs).Pairwise (fun a b => b < a) →
    (savings cur vs).Pairwise (fun a b => b + 1 / 100 < a) ∧ ∀ v ∈ savings cur vs, v + 1 / 100 < cur
  | [], _, _ => by simp [savings]
  | v :: vs, cur, h => by
    obtain ⟨h1, h2⟩ := List.pairwise_cons.1 h
    obtain ⟨h3, h4⟩ := savings_decrease vs v h2
    have h5 := h1 v List.mem_cons_self
    unfold savings
    split
    · next hg =>
      refine ⟨List.pairwise_cons.2 ⟨h4, h3⟩, fun u hu => ?_⟩
      rcases List.mem_cons.1 hu with rfl | hu
      · linarith
      · have := h4 u hu
        linarith
    · exact ⟨h3, fun u hu => by have := h4 u hu; linarith⟩

theorem tryPrint_less (P : Params α κ ℚ) (choose : Finset α → Chooser α) (st st2 : State α ℚ) (cs : List (Finset α × ℚ))
    (h : tryCandidates P choose st cs = some (.ok (some st2))) : st2.size < st.size := by
  induction cs with
  | nil => cases h
  | cons c cs ih =>
    unfold tryCandidates at h
    rcases he : evaluate P (choose c.1) st c.1 with _ | e | q
    · rw [he] at h; cases h
    · rw [he] at h; cases h
    · rw [he] at h
      simp only at h
      split at h
      · next hlt => cases h; exact hlt
      · exact ih h

theorem loopPrint_result (P : Params α κ ℚ) (O : Oracle α) : ∀ (n i : ℕ) (st : State α ℚ), (loopPrint P O n i st).2 = fitLoop P O n i st
  | 0, _, _ => rfl
  | n + 1, i, st => by
    unfold loopPrint fitLoop
    simp only
    rw [tryPrint_result]
    rcases tryCandidates P (O.choose i) st _ with _ | e | _ | st2
    · rfl
    · rfl
    · rfl
    · simp only
      split
      · rfl
      · exact loopPrint_result P O n (i + 1) st2

theorem loopPrint_goes (P : Params α κ ℚ) (O : Oracle α) : ∀ (n i : ℕ) (st st' : State α ℚ), fitLoop P O n i st = some (.ok st') →
    ∃ (l : List (State α ℚ)) (b : Bool), Goes P O i st l b st' ∧ sizesIn (loopPrint P O n i st).1 = savings st.size (l.map State.size) ∧
      countsIn (loopPrint P O n i st).1 = (begun st l b).mapIdx (fun k s => (turnCands O (i + k) s).length)
  | 0, _, _, _, h => by cases h
  | n + 1, i, st, st', h => by
    unfold fitLoop at h
    unfold loopPrint
    simp only at h ⊢
    rw [tryPrint_result]
    rcases ht : tryCandidates P (O.choose i) st (generateCandidates (O.gain i (O.enum i st.ct)) (O.enum i st.ct) (st.ct.map Prod.fst).toFinset).1 with _ | e | _ | st2
    · rw [ht] at h; cases h
    · rw [ht] at h; cases h
    · rw [ht] at h
      cases h
      have h1 := tryPrint_sizes P (O.choose i) st _ _ ht
      have h2 := tryPrint_counts P (O.choose i) st (generateCandidates (O.gain i (O.enum i st.ct)) (O.enum i st.ct) (st.ct.map Prod.fst).toFinset).1
      refine ⟨[], true, .stop i st ht, ?_, ?_⟩
      · exact h1
      · exact congrArg (fun l => (turnCands O i st).length :: l) h2
    · rw [ht] at h
      simp only at h ⊢
      have h1 := tryPrint_sizes P (O.choose i) st _ _ ht
      have h2 := tryPrint_counts P (O.choose i) st (generateCandidates (O.gain i (O.enum i st.ct)) (O.enum i st.ct) (st.ct.map Prod.fst).toFinset).1
      by_cases hu : O.timeUp i = true
      · rw [if_pos hu] at h ⊢
        cases h
        refine ⟨[st'], false, .late i st st' ht hu, ?_, ?_⟩
        · exact h1
        · exact congrArg (fun l => (turnCands O i st).length :: l) h2
      · rw [if_neg hu] at h ⊢
        obtain ⟨l, b, hg, h3, h4⟩ := loopPrint_goes P O n (i + 1) st2 st' h
        refine ⟨st2 :: l, b, .step i st st2 st' l b ht (by simpa using hu) hg, ?_, ?_⟩
        · rw [sizesIn_append, h3, List.map_cons, savings_append]
          exact congrArg (fun x => x ++ savings st2.size (l.map State.size)) h1
        · have hb : begun st (st2 :: l) b = st :: begun st2 l b := by
            unfold begun
            cases b <;> simp
          have hc : countsIn (Line.candidates (generateCandidates (O.gain i (O.enum i st.ct)) (O.enum i st.ct) (st.ct.map Prod.fst).toFinset).1.length ::
              (tryPrint P (O.choose i) st (generateCandidates (O.gain i (O.enum i st.ct)) (O.enum i st.ct) (st.ct.map Prod.fst).toFinset).1).1) = [(turnCands O i st).length] :=
            congrArg (fun l => (turnCands O i st).length :: l) h2
          rw [countsIn_append, h4, hc, hb, List.mapIdx_cons, List.singleton_append]
          congr 2
          funext k s
          rw [Nat.add_right_comm, Nat.add_assoc]

theorem goes_decrease (P : Params α κ ℚ) (O : Oracle α) (i : ℕ) (st : State α ℚ) (l : List (State α ℚ)) (b : Bool) (st' : State α ℚ) (h : Goes P O i st l b st') :
    (st.size :: l.map State.size).Pairwise (fun a b => b < a) ∧ (st.size :: l.map State.size).getLast? = some st'.size := by
  induction h with
  | stop i st _ => exact ⟨List.pairwise_singleton _ _, rfl⟩
  | late i st st2 h _ =>
    have := tryPrint_less P _ st st2 _ h
    exact ⟨by simpa using this, rfl⟩
  | step i st st2 st' l b h _ _ ih =>
    have h1 := tryPrint_less P _ st st2 _ h
    refine ⟨List.pairwise_cons.2 ⟨fun v hv => ?_, ih.1⟩, by rw [List.map_cons, List.getLast?_cons_cons]; exact ih.2⟩
    rcases List.mem_cons.1 hv with rfl | hv
    · exact h1
    · exact lt_trans ((List.pairwise_cons.1 ih.1).1 v hv) h1

/-! ### C172 -/

/-- C172: printing does not change what `fit` returns or raises. -/
theorem print_same_result (P : Params α κ ℚ) (O : Oracle α) (items : List α) (fuel : ℕ) (D : List (List α)) :
    (fitPrint P O items fuel D).2 = fit P O items fuel D := loopPrint_result P O fuel 0 _

/-- C172: for a fit that ends, the totals printed are those of the tables accepted one after the other, without the ones that save at most a hundredth of a bit; and at the beginning of every turn the number of its candidates is printed. -/
theorem print_lines (P : Params α κ ℚ) (O : Oracle α) (items : List α) (fuel : ℕ) (D : List (List α)) (st' : State α ℚ) (h : fit P O items fuel D = some (.ok st')) :
    ∃ (l : List (State α ℚ)) (b : Bool), Goes P O 0 (prefit P items D) l b st' ∧ sizesIn (fitPrint P O items fuel D).1 = savings (prefit P items D).size (l.map State.size) ∧
      countsIn (fitPrint P O items fuel D).1 = (begun (prefit P items D) l b).mapIdx (fun k s => (turnCands O k s).length) := by
  simpa [fitPrint] using loopPrint_goes P O fuel 0 _ st' h

/-- C172: the printed totals decrease, each by more than a hundredth of a bit, from below the size before the fit, and none is smaller than the size of the fitted table. -/
theorem print_decreases (P : Params α κ ℚ) (O : Oracle α) (items : List α) (fuel : ℕ) (D : List (List α)) (st' : State α ℚ) (h : fit P O items fuel D = some (.ok st')) :
    (sizesIn (fitPrint P O items fuel D).1).Pairwise (fun a b => b + 1 / 100 < a) ∧
    ∀ v ∈ sizesIn (fitPrint P O items fuel D).1, v + 1 / 100 < (prefit P items D).size ∧ st'.size ≤ v := by
  obtain ⟨l, b, hg, h1, _⟩ := print_lines P O items fuel D st' h
  obtain ⟨h2, h3⟩ := goes_decrease P O 0 _ l b st' hg
  obtain ⟨h4, h5⟩ := savings_decrease (l.map State.size) _ h2
  rw [h1]
  refine ⟨h4, fun v hv => ⟨h5 v hv, ?_⟩⟩
  have hsub : ∀ (vs : List ℚ) (cur v : ℚ), v ∈ savings cur vs → v ∈ vs := by
    intro vs
    induction vs with
    | nil => intro cur v hv; cases hv
    | cons u us ih =>
      intro cur v hv
      unfold savings at hv
      split at hv
      · rcases List.mem_cons.1 hv with rfl | hv
        · exact List.mem_cons_self
        · exact List.mem_cons_of_mem _ (ih _ _ hv)
      · exact List.mem_cons_of_mem _ (ih _ _ hv)
  have hv' : v ∈ (prefit P items D).size :: l.map State.size := List.mem_cons_of_mem _ (hsub _ _ v hv)
  obtain ⟨pre, hpre⟩ := List.getLast?_eq_some_iff.1 h3
  rw [hpre] at h2 hv'
  rcases List.mem_append.1 hv' with hm | hm
  · exact le_of_lt ((List.pairwise_append.1 h2).2.2 v hm _ (by simp))
  · rw [List.mem_singleton.1 hm]

/-- A gain of one bit is printed, one of a hundredth is not. -/
example : savings 10 [9, 8999 / 1000, 899 / 100, 8] = [9, 8] ∧ sizesIn [.candidates 3, .sizes 9, .candidates 0] = [9] ∧ countsIn [.candidates 3, .sizes 9, .candidates 0] = [3, 0] := by
  refine ⟨?_, rfl, rfl⟩
  norm_num [savings]

/-- A fit that accepts `{1, 2}`, which is printed, and then finds no other candidate that helps. -/
example :
    let P : Params ℕ ℕ ℚ := ⟨fun X => 10 - X.card, fun tab => (tab.map (fun e => ((3 + e.2.card : ℕ) : ℚ))).sum,
      fun sct => (sct.map (fun e => ((3 + e.2.card : ℕ) : ℚ))).sum, false⟩
    let r := fitPrint P ⟨fun _ tab => tab, fun _ _ _ _ => 1, fun _ _ => exChoose, fun _ => false⟩ [] 5 [[1, 2], [1, 2], [2, 3], [3], [2]]
    (r.2.bind Except.toOption).map (fun st => st.size) = some 15 ∧ sizesIn r.1 = [15] ∧ (countsIn r.1).length = 2 := by
  decide +kernel

end Verif.Slim
