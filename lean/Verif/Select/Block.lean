import Verif.Select.Lemmas

/-!
# The selection, part by part (for C125)

The main loop of `/repo/skmine/periodic/run_mine.py:735-754`, seen as a greedy choice with arbitrary tests. Candidates that share no occurrence do not influence each other.
-/

set_option autoImplicit false
set_option linter.unusedSectionVars false

namespace Verif.Select

section Greedy

variable {ι ω V : Type} [DecidableEq ω] [LinearOrder V]

/-- The order of the candidates, the test for selection and the test for remaining in the list, given the occurrences not covered. -/
structure Rule (ι ω V : Type) where
  rank : ι → Finset ω → V
  good : ι → Finset ω → Bool
  keep : ι → Finset ω → Bool

/-- The greedy choice made by the main loop: what is selected, in order. -/
def greedy (G : Rule ι ω V) : ℕ → List ι → (ι → Finset ω) → List ι
  | 0, _, _ => []
  | _ + 1, [], _ => []
  | n + 1, x :: cis, u =>
    if G.good x (u x) then
      x :: greedy G n ((cis.filter (fun c => G.keep c (u c \ u x))).insertionSort (fun a b => G.rank a (u a \ u x) ≤ G.rank b (u b \ u x))) (fun c => u c \ u x)
    else greedy G n cis u

theorem greedy_nil (G : Rule ι ω V) (n : ℕ) (u : ι → Finset ω) : greedy G n [] u = [] := by cases n <;> rfl

/-- What is needed of the tests. -/
structure Rule.Ok (G : Rule ι ω V) : Prop where
  mono : ∀ x (S S' : Finset ω), S' ⊆ S → G.keep x S' = true → G.keep x S = true
  good_keep : ∀ x S, G.good x S = true → G.keep x S = true

theorem insertionSort_congr {r s : ι → ι → Prop} [DecidableRel r] [DecidableRel s] (l : List ι) (h : ∀ a ∈ l, ∀ b ∈ l, r a b ↔ s a b) : l.insertionSort r = l.insertionSort s := by
  have := List.map_insertionSort (r := r) (s := s) id l h
  rw [List.map_id, List.map_id] at this
  exact this

theorem greedy_congr (G : Rule ι ω V) : ∀ (n : ℕ) (l : List ι) (u v : ι → Finset ω), (∀ c ∈ l, u c = v c) → greedy G n l u = greedy G n l v := by
  intro n
  induction n with
  | zero => intros; rfl
  | succ n ih =>
    intro l u v h
    cases l with
    | nil => rfl
    | cons x l =>
      rw [greedy, greedy, h x (by simp)]
      have hl : ∀ c ∈ l, u c \ v x = v c \ v x := fun c hc => by rw [h c (by simp [hc])]
      have hf : l.filter (fun c => G.keep c (u c \ v x)) = l.filter (fun c => G.keep c (v c \ v x)) := List.filter_congr (fun c hc => by rw [hl c hc])
      have hs : (l.filter (fun c => G.keep c (v c \ v x))).insertionSort (fun a b => G.rank a (u a \ v x) ≤ G.rank b (u b \ v x)) =
          (l.filter (fun c => G.keep c (v c \ v x))).insertionSort (fun a b => G.rank a (v a \ v x) ≤ G.rank b (v b \ v x)) :=
        insertionSort_congr _ (fun a ha b hb => by rw [hl a (List.mem_filter.1 ha).1, hl b (List.mem_filter.1 hb).1])
      rw [hf, hs, ih _ (fun c => u c \ v x) (fun c => v c \ v x) (fun c hc => hl c (List.mem_filter.1 ((List.mem_insertionSort _).1 hc)).1), ih l u v (fun c hc => h c (by simp [hc]))]

/-- More iterations than candidates change nothing. -/
theorem greedy_fuel (G : Rule ι ω V) : ∀ (n m : ℕ) (l : List ι) (u : ι → Finset ω), l.length ≤ n → l.length ≤ m → greedy G n l u = greedy G m l u := by
  intro n
  induction n with
  | zero =>
    intro m l u hn _
    have : l = [] := by simpa using hn
    subst this
    rw [greedy_nil, greedy_nil]
  | succ n ih =>
    intro m l u hn hm
    cases l with
    | nil => rw [greedy_nil, greedy_nil]
    | cons x l =>
      cases m with
      | zero => simp at hm
      | succ m =>
        rw [List.length_cons] at hn hm
        have hlen : ((l.filter (fun c => G.keep c (u c \ u x))).insertionSort (fun a b => G.rank a (u a \ u x) ≤ G.rank b (u b \ u x))).length ≤ l.length := by
          rw [List.length_insertionSort]; exact List.length_filter_le _ _
        rw [greedy, greedy, ih m _ _ (by omega) (by omega), ih m l u (by omega) (by omega)]

/-- Candidates that would be dropped are never selected. -/
theorem greedy_keep (G : Rule ι ω V) (hG : G.Ok) : ∀ (n : ℕ) (l : List ι) (u : ι → Finset ω), l.length ≤ n → greedy G n (l.filter (fun c => G.keep c (u c))) u = greedy G n l u := by
  intro n
  induction n with
  | zero =>
    intro l u hn
    have : l = [] := by simpa using hn
    subst this
    rfl
  | succ n ih =>
    intro l u hn
    cases l with
    | nil => rfl
    | cons x l =>
      rw [List.length_cons] at hn
      have hl := List.length_filter_le (fun c => G.keep c (u c)) l
      cases hk : G.keep x (u x) with
      | false =>
        rw [List.filter_cons_of_neg (by rw [hk]; simp), greedy_fuel G (n + 1) n _ u (by omega) (by omega), ih l u (by omega), greedy, if_neg]
        intro hg
        rw [hG.good_keep x _ hg] at hk
        exact absurd hk (by simp)
      | true =>
        rw [List.filter_cons_of_pos (by exact hk), greedy, greedy, ih l u (by omega), List.filter_filter]
        have : l.filter (fun c => G.keep c (u c \ u x) && G.keep c (u c)) = l.filter (fun c => G.keep c (u c \ u x)) := List.filter_congr (fun c _ => by
          cases h1 : G.keep c (u c \ u x) with
          | false => rfl
          | true => rw [hG.mono c (u c) _ Finset.sdiff_subset h1]; rfl)
        rw [this]

theorem filter_orderedInsert {r : ι → ι → Prop} [DecidableRel r] (hr : ∀ a b c, r a b → r b c → r a c) (p : ι → Bool) (a : ι) : ∀ l : List ι, l.Pairwise r →
    (l.orderedInsert r a).filter p = if p a then (l.filter p).orderedInsert r a else l.filter p := by
  intro l
  induction l with
  | nil => intro _; cases h : p a <;> simp [h]
  | cons b l ih =>
    intro hl
    rw [List.pairwise_cons] at hl
    by_cases hab : r a b
    · rw [List.orderedInsert, if_pos hab]
      cases h : p a with
      | false => rw [List.filter_cons_of_neg (by rw [h]; simp)]; simp
      | true =>
        rw [List.filter_cons_of_pos h, if_pos rfl]
        have hall : ∀ y ∈ (b :: l).filter p, r a y := by
          intro y hy
          have := (List.mem_filter.1 hy).1
          rcases List.mem_cons.1 this with rfl | hy
          · exact hab
          · exact hr a b y hab (hl.1 y hy)
        cases hf : (b :: l).filter p with
        | nil => rfl
        | cons y m => rw [List.orderedInsert, if_pos (hall y (by rw [hf]; simp))]
    · rw [List.orderedInsert, if_neg hab]
      cases h : p b with
      | false => rw [List.filter_cons_of_neg (by rw [h]; simp), ih hl.2, List.filter_cons_of_neg (by rw [h]; simp)]
      | true =>
        rw [List.filter_cons_of_pos h, ih hl.2, List.filter_cons_of_pos h]
        cases h' : p a with
        | false => rfl
        | true => rw [if_pos rfl, if_pos rfl, List.orderedInsert, if_neg hab]

theorem filter_insertionSort (f : ι → V) (p : ι → Bool) : ∀ l : List ι, (l.insertionSort (fun a b => f a ≤ f b)).filter p = (l.filter p).insertionSort (fun a b => f a ≤ f b) := by
  intro l
  induction l with
  | nil => rfl
  | cons a l ih =>
    have : Std.Total (fun a b : ι => f a ≤ f b) := ⟨fun a b => le_total _ _⟩
    have : IsTrans ι (fun a b : ι => f a ≤ f b) := ⟨fun a b c h1 h2 => le_trans h1 h2⟩
    rw [List.insertionSort_cons, filter_orderedInsert (r := fun a b => f a ≤ f b) (fun a b c h1 h2 => le_trans h1 h2) p a _ (List.pairwise_insertionSort _ _), ih]
    cases h : p a with
    | false => rw [List.filter_cons_of_neg (by rw [h]; simp)]; simp
    | true => rw [List.filter_cons_of_pos h, if_pos rfl, List.insertionSort_cons]

/-- What is selected of one part of the candidates is what would be selected of this part alone, when it has no occurrence in common with the others. -/
theorem greedy_part (G : Rule ι ω V) (hG : G.Ok) (p : ι → Bool) : ∀ (n : ℕ) (l : List ι) (u : ι → Finset ω), l.length ≤ n → l.Pairwise (fun a b => G.rank a (u a) ≤ G.rank b (u b)) →
    (∀ a ∈ l, ∀ b ∈ l, p a = true → p b = false → Disjoint (u a) (u b)) → (greedy G n l u).filter p = greedy G n (l.filter p) u := by
  intro n
  induction n with
  | zero => intros; rfl
  | succ n ih =>
    intro l u hn hs hd
    cases l with
    | nil => rfl
    | cons x l =>
      rw [List.length_cons] at hn
      rw [List.pairwise_cons] at hs
      have hl := List.length_filter_le p l
      have hd' : ∀ a ∈ l, ∀ b ∈ l, p a = true → p b = false → Disjoint (u a) (u b) := fun a ha b hb => hd a (by simp [ha]) b (by simp [hb])
      rw [greedy]
      by_cases hg : G.good x (u x) = true
      · rw [if_pos hg]
        have hlen : ∀ m : List ι, ((m.filter (fun c => G.keep c (u c \ u x))).insertionSort (fun a b => G.rank a (u a \ u x) ≤ G.rank b (u b \ u x))).length ≤ m.length := by
          intro m; rw [List.length_insertionSort]; exact List.length_filter_le _ _
        have hrec := ih ((l.filter (fun c => G.keep c (u c \ u x))).insertionSort (fun a b => G.rank a (u a \ u x) ≤ G.rank b (u b \ u x))) (fun c => u c \ u x) ((hlen l).trans (by omega)) (by
          have : Std.Total (fun a b : ι => G.rank a (u a \ u x) ≤ G.rank b (u b \ u x)) := ⟨fun a b => le_total _ _⟩
          have : IsTrans ι (fun a b : ι => G.rank a (u a \ u x) ≤ G.rank b (u b \ u x)) := ⟨fun a b c h1 h2 => le_trans h1 h2⟩
          exact List.pairwise_insertionSort _ _) (fun a ha b hb pa pb => by
          have ha' := (List.mem_filter.1 ((List.mem_insertionSort _).1 ha)).1
          have hb' := (List.mem_filter.1 ((List.mem_insertionSort _).1 hb)).1
          exact (hd' a ha' b hb' pa pb).mono Finset.sdiff_subset Finset.sdiff_subset)
        rw [filter_insertionSort (fun a => G.rank a (u a \ u x)), List.filter_filter] at hrec
        have hswap : l.filter (fun c => p c && G.keep c (u c \ u x)) = (l.filter p).filter (fun c => G.keep c (u c \ u x)) := by
          rw [List.filter_filter]
          exact List.filter_congr (fun c _ => Bool.and_comm _ _)
        rw [hswap] at hrec
        cases hp : p x with
        | true => rw [List.filter_cons_of_pos hp, hrec, List.filter_cons_of_pos hp, greedy, if_pos hg]
        | false =>
          rw [List.filter_cons_of_neg (by rw [hp]; simp), hrec, List.filter_cons_of_neg (by rw [hp]; simp)]
          have hu : ∀ c ∈ l.filter p, u c \ u x = u c := by
            intro c hc
            obtain ⟨h1, h2⟩ := List.mem_filter.1 hc
            exact Finset.sdiff_eq_self_of_disjoint (hd c (by simp [h1]) x (by simp) h2 hp)
          have hf : (l.filter p).filter (fun c => G.keep c (u c \ u x)) = (l.filter p).filter (fun c => G.keep c (u c)) := List.filter_congr (fun c hc => by rw [hu c hc])
          have hsort : ((l.filter p).filter (fun c => G.keep c (u c))).insertionSort (fun a b => G.rank a (u a \ u x) ≤ G.rank b (u b \ u x)) = (l.filter p).filter (fun c => G.keep c (u c)) := by
            rw [insertionSort_congr (s := fun a b => G.rank a (u a) ≤ G.rank b (u b)) _ (fun a ha b hb => by rw [hu a (List.mem_filter.1 ha).1, hu b (List.mem_filter.1 hb).1])]
            exact List.Pairwise.insertionSort_eq ((hs.2.filter _).filter _)
          rw [hf, hsort, greedy_congr G n _ (fun c => u c \ u x) u (fun c hc => hu c (List.mem_filter.1 hc).1), greedy_keep G hG n _ u (by omega)]
          exact greedy_fuel G n (n + 1) _ u (by omega) (by omega)
      · rw [if_neg hg, ih l u (by omega) hs.2 hd']
        cases hp : p x with
        | true => rw [List.filter_cons_of_pos hp, greedy, if_neg hg]
        | false =>
          rw [List.filter_cons_of_neg (by rw [hp]; simp)]
          exact greedy_fuel G n (n + 1) _ u (by omega) (by omega)

/-- Other numbers for the candidates, other names for the occurrences: the same choice. -/
theorem greedy_map {ι' ω' : Type} [DecidableEq ω'] (G : Rule ι ω V) (G' : Rule ι' ω' V) (f : ι → ι') (g : ω ↪ ω') : ∀ (n : ℕ) (l : List ι) (u : ι → Finset ω) (u' : ι' → Finset ω'),
    (∀ c ∈ l, ∀ S, G'.rank (f c) (S.map g) = G.rank c S ∧ G'.good (f c) (S.map g) = G.good c S ∧ G'.keep (f c) (S.map g) = G.keep c S) → (∀ c ∈ l, u' (f c) = (u c).map g) →
    greedy G' n (l.map f) u' = (greedy G n l u).map f := by
  intro n
  induction n with
  | zero => intros; rfl
  | succ n ih =>
    intro l u u' h hu
    cases l with
    | nil => rfl
    | cons x l =>
      rw [List.map_cons, greedy, greedy, hu x (by simp), (h x (by simp) _).2.1]
      have hl : ∀ c ∈ l, u' (f c) \ (u x).map g = (u c \ u x).map g := fun c hc => by rw [hu c (by simp [hc]), Finset.map_sdiff]
      have hf : (l.map f).filter (fun c => G'.keep c (u' c \ (u x).map g)) = (l.filter (fun c => G.keep c (u c \ u x))).map f := by
        rw [List.filter_map]
        congr 1
        exact List.filter_congr (fun c hc => by simp only [Function.comp]; rw [hl c hc, (h c (by simp [hc]) _).2.2])
      have hs : ((l.filter (fun c => G.keep c (u c \ u x))).map f).insertionSort (fun a b => G'.rank a (u' a \ (u x).map g) ≤ G'.rank b (u' b \ (u x).map g)) =
          ((l.filter (fun c => G.keep c (u c \ u x))).insertionSort (fun a b => G.rank a (u a \ u x) ≤ G.rank b (u b \ u x))).map f :=
        (List.map_insertionSort (r := fun a b => G.rank a (u a \ u x) ≤ G.rank b (u b \ u x)) (s := fun a b => G'.rank a (u' a \ (u x).map g) ≤ G'.rank b (u' b \ (u x).map g)) f _ (fun a ha b hb => by
          have ha' := (List.mem_filter.1 ha).1
          have hb' := (List.mem_filter.1 hb).1
          rw [hl a ha', hl b hb', (h a (by simp [ha']) _).1, (h b (by simp [hb']) _).1])).symm
      rw [hf, hs]
      by_cases hg : G.good x (u x) = true
      · rw [if_pos hg, if_pos hg, List.map_cons, ih _ (fun c => u c \ u x) _ (fun c hc => h c (by simp [(List.mem_filter.1 ((List.mem_insertionSort _).1 hc)).1])) (fun c hc => hl c (List.mem_filter.1 ((List.mem_insertionSort _).1 hc)).1)]
      · rw [if_neg hg, if_neg hg, ih l u u' (fun c hc => h c (by simp [hc])) (fun c hc => hu c (by simp [hc]))]

theorem greedy_subset (G : Rule ι ω V) : ∀ (n : ℕ) (l : List ι) (u : ι → Finset ω), ∀ c ∈ greedy G n l u, c ∈ l := by
  intro n
  induction n with
  | zero => intro l u c hc; simp [greedy] at hc
  | succ n ih =>
    intro l u c hc
    cases l with
    | nil => rw [greedy_nil] at hc; exact hc
    | cons x l =>
      rw [greedy] at hc
      by_cases hg : G.good x (u x) = true
      · rw [if_pos hg, List.mem_cons] at hc
        rcases hc with rfl | hc
        · simp
        · exact List.mem_cons_of_mem _ (List.mem_filter.1 ((List.mem_insertionSort _).1 (ih _ _ c hc))).1
      · rw [if_neg hg] at hc
        exact List.mem_cons_of_mem _ (ih _ _ c hc)

end Greedy

/-! ### The tests of the code -/

section Code

variable {K : Type} [Field K] [LinearOrder K] [IsStrictOrderedRing K] {ω β : Type} [DecidableEq ω] [BEq β] [LawfulBEq β]

/-- The tests of the main loop. -/
def codeRule (C : Cands K ω) (dcosts : List (β × K)) (ev : ω → β) (minCov : ℕ) (maxEff : K) : Rule ℕ ω (WithTop K) :=
  ⟨fun c S => ratio (C.cost c) S,
   fun c S => decide (ratio (C.cost c) S ≤ (maxEff : WithTop K)) && decide (minCov ≤ S.card) && decide (isEfficient dcosts ev (C.cost c) S = some true),
   fun c S => !(decide (S.card < minCov)) && !(decide (0 ≤ maxEff) && decide ((maxEff : WithTop K) < ratio (C.cost c) S))⟩

theorem codeRule_ok (C : Cands K ω) (dcosts : List (β × K)) (ev : ω → β) (minCov : ℕ) (maxEff : K) : (codeRule C dcosts ev minCov maxEff).Ok := by
  constructor
  · intro x S S' hsub h
    simp only [codeRule, Bool.and_eq_true, Bool.not_eq_true', decide_eq_false_iff_not, not_lt, Bool.and_eq_false_imp, decide_eq_true_eq] at h ⊢
    have hc := Finset.card_le_card hsub
    refine ⟨by omega, fun hm => ?_⟩
    have h2 := h.2 hm
    unfold ratio at h2 ⊢
    by_cases h0 : S'.card = 0
    · rw [if_pos h0] at h2; exact absurd h2 (by simp)
    · rw [if_neg h0, WithTop.coe_le_coe] at h2
      rw [if_neg (by omega), WithTop.coe_le_coe]
      have p' : (0 : K) < S'.card := by exact_mod_cast Nat.pos_of_ne_zero h0
      have p : (0 : K) < S.card := by exact_mod_cast Nat.pos_of_ne_zero (by omega)
      rw [div_le_iff₀ p'] at h2
      rw [div_le_iff₀ p]
      have : (S'.card : K) ≤ S.card := by exact_mod_cast hc
      exact h2.trans (mul_le_mul_of_nonneg_left this hm)
  · intro x S h
    simp only [codeRule, Bool.and_eq_true, Bool.not_eq_true', decide_eq_false_iff_not, not_lt, Bool.and_eq_false_imp, decide_eq_true_eq] at h ⊢
    exact ⟨h.1.2, fun _ => h.1.1⟩

/-- The main loop makes the greedy choice. -/
theorem loop_greedy (C : Cands K ω) (dcosts : List (β × K)) (ev : ω → β) (minCov : ℕ) (maxEff : K) : ∀ (n : ℕ) (cis : List ℕ) (u v : ℕ → Finset ω) (sel : List ℕ), cis.length ≤ n →
    (∀ c ∈ cis, u c = v c) → (∀ c ∈ cis, ∀ o ∈ u c, (dcosts.lookup (ev o)).isSome) → loop C dcosts ev minCov maxEff n cis u sel = some (sel ++ greedy (codeRule C dcosts ev minCov maxEff) n cis v) := by
  intro n
  induction n with
  | zero =>
    intro cis u v sel hn _ _
    have : cis = [] := by simpa using hn
    subst this
    simp [loop, greedy]
  | succ n ih =>
    intro cis u v sel hn huv hall
    cases cis with
    | nil => simp [loop, greedy]
    | cons x cis =>
      rw [List.length_cons] at hn
      have hx := huv x (by simp)
      have skip : loop C dcosts ev minCov maxEff n cis u sel = some (sel ++ greedy (codeRule C dcosts ev minCov maxEff) n cis v) :=
        ih cis u v sel (by omega) (fun c hc => huv c (by simp [hc])) (fun c hc => hall c (by simp [hc]))
      rw [loop, greedy]
      have hgood : (codeRule C dcosts ev minCov maxEff).good x (v x) = (decide (ratio (C.cost x) (u x) ≤ (maxEff : WithTop K)) && decide (minCov ≤ (u x).card) && decide (isEfficient dcosts ev (C.cost x) (u x) = some true)) := by
        rw [hx]; rfl
      rw [hgood]
      by_cases hcond : ratio (C.cost x) (u x) ≤ (maxEff : WithTop K) ∧ minCov ≤ (u x).card
      · rw [if_pos hcond]
        have hs : ∃ b, isEfficient dcosts ev (C.cost x) (u x) = some b := by
          unfold isEfficient sumCosts
          rw [if_pos (hall x (by simp))]
          exact ⟨_, rfl⟩
        obtain ⟨b, hb⟩ := hs
        rw [hb]
        cases b with
        | false => simpa [hcond.1, hcond.2] using skip
        | true =>
          simp only [hcond.1, hcond.2, decide_true, Bool.and_true, if_true]
          have hv : ∀ c ∈ cis, (if c ∈ cis then u c \ u x else u c) = v c \ v x := fun c hc => by rw [if_pos hc, huv c (by simp [hc]), hx]
          have hf : keepCis C minCov maxEff (fun c => if c ∈ cis then u c \ u x else u c) cis = cis.filter (fun c => (codeRule C dcosts ev minCov maxEff).keep c (v c \ v x)) := by
            unfold keepCis
            exact List.filter_congr (fun c hc => by simp only [hv c hc]; rfl)
          have hs : sortCis C (fun c => if c ∈ cis then u c \ u x else u c) (cis.filter (fun c => (codeRule C dcosts ev minCov maxEff).keep c (v c \ v x))) =
              (cis.filter (fun c => (codeRule C dcosts ev minCov maxEff).keep c (v c \ v x))).insertionSort (fun a b => (codeRule C dcosts ev minCov maxEff).rank a (v a \ v x) ≤ (codeRule C dcosts ev minCov maxEff).rank b (v b \ v x)) := by
            unfold sortCis
            exact insertionSort_congr _ (fun a ha b hb => by simp only [hv a (List.mem_filter.1 ha).1, hv b (List.mem_filter.1 hb).1]; rfl)
          rw [hf, hs, ih _ _ (fun c => v c \ v x) _ (by
            rw [List.length_insertionSort]
            exact (List.length_filter_le _ _).trans (by omega)) (fun c hc => hv c (List.mem_filter.1 ((List.mem_insertionSort _).1 hc)).1) (fun c hc o ho => by
            have hc' := (List.mem_filter.1 ((List.mem_insertionSort _).1 hc)).1
            simp only [if_pos hc'] at ho
            exact hall c (by simp [hc']) o (Finset.mem_sdiff.1 ho).1)]
          simp
      · rw [if_neg hcond, if_neg]
        · exact skip
        · intro h
          simp only [Bool.and_eq_true, decide_eq_true_eq] at h
          exact hcond h.1

/-- The least cost of an event. -/
def minCost (dcosts : List (β × K)) : Option K :=
  match dcosts.map Prod.snd with
  | [] => none
  | d :: ds => some (ds.foldl min d)

theorem filterCover_greedy (C : Cands K ω) (dcosts : List (β × K)) (ev : ω → β) (minCov : ℕ) (cis : List ℕ) (hall : ∀ c ∈ cis, ∀ o ∈ C.occs c, (dcosts.lookup (ev o)).isSome) (mx : K) (hm : minCost dcosts = some mx) :
    filterCover C dcosts ev minCov cis = some (greedy (codeRule C dcosts ev minCov mx) cis.length (cis.insertionSort (fun a b => ratio (C.cost a) (C.occs a) ≤ ratio (C.cost b) (C.occs b))) C.occs) := by
  unfold filterCover
  unfold minCost at hm
  revert hm
  cases dcosts.map Prod.snd with
  | nil => intro hm; cases hm
  | cons d ds =>
    intro hm
    obtain rfl := Option.some.inj hm
    simp only
    rw [loop_greedy C dcosts ev minCov _ _ _ C.occs C.occs [] (sortCis_perm C C.occs cis).length_eq.le (fun _ _ => rfl) (fun c hc => hall c ((sortCis_perm C C.occs cis).mem_iff.1 hc))]
    rfl

/-- What is selected of one part of the candidates, when it has no occurrence in common with the others. -/
theorem filterCover_part (C : Cands K ω) (dcosts : List (β × K)) (ev : ω → β) (minCov : ℕ) (cis : List ℕ) (hall : ∀ c ∈ cis, ∀ o ∈ C.occs c, (dcosts.lookup (ev o)).isSome) (mx : K) (hm : minCost dcosts = some mx)
    (p : ℕ → Bool) (hd : ∀ a ∈ cis, ∀ b ∈ cis, p a = true → p b = false → Disjoint (C.occs a) (C.occs b)) (sel : List ℕ) (hs : filterCover C dcosts ev minCov cis = some sel) (n : ℕ) (hn : (cis.filter p).length ≤ n) :
    sel.filter p = greedy (codeRule C dcosts ev minCov mx) n ((cis.filter p).insertionSort (fun a b => ratio (C.cost a) (C.occs a) ≤ ratio (C.cost b) (C.occs b))) C.occs := by
  rw [filterCover_greedy C dcosts ev minCov cis hall mx hm] at hs
  obtain rfl := Option.some.inj hs
  have : Std.Total (fun a b => ratio (C.cost a) (C.occs a) ≤ ratio (C.cost b) (C.occs b)) := ⟨fun a b => le_total _ _⟩
  have : IsTrans ℕ (fun a b => ratio (C.cost a) (C.occs a) ≤ ratio (C.cost b) (C.occs b)) := ⟨fun a b c h1 h2 => le_trans h1 h2⟩
  rw [greedy_part (codeRule C dcosts ev minCov mx) (codeRule_ok C dcosts ev minCov mx) p cis.length (cis.insertionSort (fun a b => ratio (C.cost a) (C.occs a) ≤ ratio (C.cost b) (C.occs b))) C.occs
    (by rw [List.length_insertionSort]) (List.pairwise_insertionSort _ _) (fun a ha b hb => hd a ((List.mem_insertionSort _).1 ha) b ((List.mem_insertionSort _).1 hb)), filter_insertionSort (fun a => ratio (C.cost a) (C.occs a))]
  exact greedy_fuel _ _ _ _ _ (by rw [List.length_insertionSort]; exact List.length_filter_le _ _) (by rw [List.length_insertionSort]; exact hn)

end Code

end Verif.Select
