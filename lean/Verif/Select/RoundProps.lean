import Verif.Select.RoundModel
import Verif.Select.Props
import Verif.Cycles.RoundProps

/-!
# Selection of patterns in floating point: property C141
-/

set_option autoImplicit false
set_option linter.unusedSectionVars false

namespace Verif.Select

/-! ## Specification -/

/-- `s` is a sum of the numbers of the list, added in some order and grouping, each partial sum being rounded by `fl`. numpy adds in blocks and pairwise, the set gives the order. -/
inductive SumsTo (fl : ℚ → ℚ) : List ℚ → ℚ → Prop
  | one (x : ℚ) : SumsTo fl [x] x
  | add (l m : List ℚ) (a b : ℚ) (hl : SumsTo fl l a) (hm : SumsTo fl m b) : SumsTo fl (l ++ m) (fl (a + b))
  | perm (l l' : List ℚ) (a : ℚ) (h : l.Perm l') (hl : SumsTo fl l a) : SumsTo fl l' a

section

variable {K : Type} [Field K] [LinearOrder K] [IsStrictOrderedRing K] {ω β : Type} [DecidableEq ω] [BEq β] [LawfulBEq β]

/-- With exact quotients and sums this is the selection of C38. -/
theorem filterWith_exact (C : Cands K ω) (dcosts : List (β × K)) (ev : ω → β) (minCov : ℕ) (cis : List ℕ) :
    filterWith (fun x n => x / (n : K)) (fun _ c u => isEfficient dcosts ev (C.cost c) u) C dcosts minCov cis = filterCover C dcosts ev minCov cis := by
  have h : ∀ (maxEff : K) (n : ℕ) (cis : List ℕ) (uncov : ℕ → Finset ω) (sel : List ℕ),
      loopWith (fun x n => x / (n : K)) (fun _ c u => isEfficient dcosts ev (C.cost c) u) C minCov maxEff n cis uncov sel = loop C dcosts ev minCov maxEff n cis uncov sel := by
    intro maxEff n
    induction n with
    | zero => intro cis uncov sel; cases cis <;> rfl
    | succ n ih =>
      intro cis uncov sel
      cases cis with
      | nil => rfl
      | cons c cis =>
        unfold loopWith loop
        simp only [ih]
        rfl
  unfold filterWith filterCover
  simp only [h]
  rfl

/-- The main loop with any quotient and any test: what is selected passed the test `P`, what is not selected was turned down by `Q`. -/
theorem loopWith_spec (div : K → ℕ → K) (eff : ℕ → ℕ → Finset ω → Option Bool) (C : Cands K ω) (minCov : ℕ) (maxEff : K) (hm : 0 ≤ maxEff) (all : List ℕ) (P Q : ℕ → Finset ω → Prop)
    (hsome : ∀ k, ∀ c ∈ all, ∀ u, u ⊆ C.occs c → ∃ b, eff k c u = some b)
    (hP : ∀ k, ∀ c ∈ all, ∀ u, u ⊆ C.occs c → u.card ≠ 0 → ratioWith div (C.cost c) u ≤ (maxEff : WithTop K) → eff k c u = some true → P c u)
    (hQ1 : ∀ c ∈ all, ∀ u, u ⊆ C.occs c → ¬ ratioWith div (C.cost c) u ≤ (maxEff : WithTop K) → Q c u)
    (hQ2 : ∀ k, ∀ c ∈ all, ∀ u, u ⊆ C.occs c → u.card ≠ 0 → eff k c u = some false → Q c u)
    (hQ3 : ∀ c u u', u' ⊆ u → Q c u → Q c u') :
    ∀ (n : ℕ) (cis : List ℕ) (uncov : ℕ → Finset ω) (sel : List ℕ), cis.length ≤ n → cis.Nodup → sel.Nodup → (∀ c ∈ cis, c ∉ sel) → (∀ c ∈ cis, c ∈ all) → (∀ c ∈ sel, c ∈ all) →
      (∀ c ∈ cis, uncov c = C.occs c \ covered C sel) →
      (∀ before c after, sel = before ++ c :: after → minCov ≤ (C.occs c \ covered C before).card ∧ P c (C.occs c \ covered C before)) →
      (∀ c ∈ all, c ∉ cis → c ∉ sel → (C.occs c \ covered C sel).card < minCov ∨ Q c (C.occs c \ covered C sel)) →
      ∃ out, loopWith div eff C minCov maxEff n cis uncov sel = some out ∧ out.Nodup ∧ (∀ c ∈ out, c ∈ all) ∧
        (∀ before c after, out = before ++ c :: after → minCov ≤ (C.occs c \ covered C before).card ∧ P c (C.occs c \ covered C before)) ∧
        ∀ c ∈ all, c ∉ out → (C.occs c \ covered C out).card < minCov ∨ Q c (C.occs c \ covered C out) := by
  intro n
  induction n with
  | zero =>
    intro cis uncov sel hn _ h1 _ _ h4 _ h6 h7
    have : cis = [] := by simpa using hn
    subst this
    exact ⟨sel, rfl, h1, h4, h6, fun c hc => h7 c hc (by simp)⟩
  | succ n ih =>
    intro cis uncov sel hn hnd h1 h2 h3 h4 h5 h6 h7
    cases cis with
    | nil => exact ⟨sel, rfl, h1, h4, h6, fun c hc => h7 c hc (by simp)⟩
    | cons nxti cis =>
      rw [List.nodup_cons] at hnd
      have hx := h5 nxti (by simp)
      have hxa := h3 nxti (by simp)
      have hsubx : uncov nxti ⊆ C.occs nxti := by rw [hx]; exact Finset.sdiff_subset
      have skip : ((uncov nxti).card < minCov ∨ Q nxti (uncov nxti)) → ∃ out, loopWith div eff C minCov maxEff n cis uncov sel = some out ∧ out.Nodup ∧ (∀ c ∈ out, c ∈ all) ∧
          (∀ before c after, out = before ++ c :: after → minCov ≤ (C.occs c \ covered C before).card ∧ P c (C.occs c \ covered C before)) ∧
          ∀ c ∈ all, c ∉ out → (C.occs c \ covered C out).card < minCov ∨ Q c (C.occs c \ covered C out) := by
        intro hu
        apply ih cis uncov sel (by simpa using hn) hnd.2 h1 (fun c hc => h2 c (by simp [hc])) (fun c hc => h3 c (by simp [hc])) h4 (fun c hc => h5 c (by simp [hc])) h6 ?_
        intro c hc hnc hns
        by_cases hcn : c = nxti
        · subst hcn; rw [← hx]; exact hu
        · exact h7 c hc (by simp [hcn, hnc]) hns
      have hstep : loopWith div eff C minCov maxEff (n + 1) (nxti :: cis) uncov sel =
          if ratioWith div (C.cost nxti) (uncov nxti) ≤ (maxEff : WithTop K) ∧ minCov ≤ (uncov nxti).card then
            match eff n nxti (uncov nxti) with
            | none => none
            | some false => loopWith div eff C minCov maxEff n cis uncov sel
            | some true =>
              loopWith div eff C minCov maxEff n (sortWith div C (fun c => if c ∈ cis then uncov c \ uncov nxti else uncov c)
                (keepWith div C minCov maxEff (fun c => if c ∈ cis then uncov c \ uncov nxti else uncov c) cis)) (fun c => if c ∈ cis then uncov c \ uncov nxti else uncov c) (sel ++ [nxti])
          else loopWith div eff C minCov maxEff n cis uncov sel := rfl
      rw [hstep]
      split
      · rename_i hcond
        have hne : (uncov nxti).card ≠ 0 := by
          intro h0
          have := hcond.1
          simp [ratioWith, h0] at this
        obtain ⟨b, hb⟩ := hsome n nxti hxa (uncov nxti) hsubx
        rw [hb]
        cases b with
        | false => exact skip (Or.inr (hQ2 n nxti hxa _ hsubx hne hb))
        | true =>
          simp only
          have hp := hP n nxti hxa _ hsubx hne hcond.1 hb
          obtain ⟨uncov', hu'⟩ : ∃ uncov' : ℕ → Finset ω, uncov' = fun c => if c ∈ cis then uncov c \ uncov nxti else uncov c := ⟨_, rfl⟩
          rw [← hu']
          have hperm : (sortWith div C uncov' (keepWith div C minCov maxEff uncov' cis)).Perm (keepWith div C minCov maxEff uncov' cis) := List.perm_insertionSort _ _
          have hkeep : ∀ c, c ∈ keepWith div C minCov maxEff uncov' cis ↔ c ∈ cis ∧ minCov ≤ (uncov' c).card ∧ ratioWith div (C.cost c) (uncov' c) ≤ (maxEff : WithTop K) := by
            intro c
            simp only [keepWith, List.mem_filter, Bool.and_eq_true, Bool.not_eq_true', decide_eq_false_iff_not, not_lt, Bool.and_eq_false_imp, decide_eq_true_eq]
            exact ⟨fun h => ⟨h.1, h.2.1, h.2.2 hm⟩, fun h => ⟨h.1, h.2.1, fun _ => h.2.2⟩⟩
          have hsub : ∀ c ∈ sortWith div C uncov' (keepWith div C minCov maxEff uncov' cis), c ∈ cis := fun c hc => ((hkeep c).1 (hperm.mem_iff.1 hc)).1
          have huc : ∀ c ∈ cis, uncov' c = C.occs c \ covered C (sel ++ [nxti]) := by
            intro c hc
            rw [hu']
            simp only [hc, if_true]
            rw [h5 c (by simp [hc]), hx, covered_append]
            ext o
            simp only [covered, Finset.mem_sdiff, Finset.mem_union, Finset.union_empty]
            tauto
          apply ih
          · rw [hperm.length_eq]
            have := List.length_filter_le (fun c => !(decide ((uncov' c).card < minCov)) && !(decide (0 ≤ maxEff) && decide ((maxEff : WithTop K) < ratioWith div (C.cost c) (uncov' c)))) cis
            simp only [List.length_cons] at hn
            unfold keepWith
            omega
          · exact hperm.nodup_iff.2 (hnd.2.filter _)
          · rw [List.nodup_append]
            refine ⟨h1, by simp, ?_⟩
            intro a ha b hb hab
            simp only [List.mem_singleton] at hb
            subst hab
            subst hb
            exact h2 a (by simp) ha
          · intro c hc hcs
            have := hsub c hc
            rcases List.mem_append.1 hcs with h | h
            · exact h2 c (by simp [this]) h
            · simp only [List.mem_singleton] at h
              subst h
              exact hnd.1 this
          · intro c hc; exact h3 c (by simp [hsub c hc])
          · intro c hc
            rcases List.mem_append.1 hc with h | h
            · exact h4 c h
            · simp only [List.mem_singleton] at h
              subst h
              exact hxa
          · intro c hc; exact huc c (hsub c hc)
          · intro before c after heq
            rcases List.eq_nil_or_concat after with rfl | ⟨as, a, rfl⟩
            · have heq' : sel = before ∧ nxti = c := by simpa using List.append_inj' heq rfl
              obtain ⟨rfl, rfl⟩ := heq'
              rw [← hx]
              exact ⟨hcond.2, hp⟩
            · have heq' : sel = before ++ c :: as ∧ nxti = a := by
                rw [List.concat_eq_append, ← List.cons_append, ← List.append_assoc] at heq
                have := List.append_inj' heq rfl
                simpa using this
              exact h6 before c as heq'.1
          · intro c hc hnc hns
            have hns' : c ∉ sel ∧ c ≠ nxti := by simpa using hns
            by_cases hcc : c ∈ cis
            · have hnk : c ∉ keepWith div C minCov maxEff uncov' cis := fun h => hnc (hperm.mem_iff.2 h)
              rw [hkeep] at hnk
              rw [← huc c hcc]
              by_cases hlt : (uncov' c).card < minCov
              · exact Or.inl hlt
              · refine Or.inr (hQ1 c hc _ ?_ (fun h => hnk ⟨hcc, not_lt.1 hlt, h⟩))
                rw [huc c hcc]
                exact Finset.sdiff_subset
            · have hsb : C.occs c \ covered C (sel ++ [nxti]) ⊆ C.occs c \ covered C sel := Finset.sdiff_subset_sdiff (Finset.Subset.refl _) (covered_mono C sel [nxti])
              rcases h7 c hc (by simp [hns'.2, hcc]) hns'.1 with h | h
              · exact Or.inl ((Finset.card_le_card hsb).trans_lt h)
              · exact Or.inr (hQ3 c _ _ hsb h)
      · rename_i hcond
        apply skip
        rcases not_and_or.1 hcond with h | h
        · exact Or.inr (hQ1 nxti hxa _ hsubx h)
        · exact Or.inl (not_le.1 h)

end

/-! ## Rounding -/

section

open Cycles (Rounds)

variable {u : ℚ} {fl : ℚ → ℚ}

theorem fl_nonneg (hu1 : u ≤ 1) (hfl : Rounds u fl) {x : ℚ} (hx : 0 ≤ x) : 0 ≤ fl x := le_trans (mul_nonneg (by linarith) hx) (hfl x hx).1

/-- A rounded sum of numbers that are not negative is near the sum. -/
theorem sums_near (hu0 : 0 ≤ u) (hu1 : u ≤ 1) (hfl : Rounds u fl) {l : List ℚ} {s : ℚ} (h : SumsTo fl l s) :
    (∀ x ∈ l, 0 ≤ x) → 0 < l.length ∧ 0 ≤ s ∧ (1 - u) ^ (l.length - 1) * l.sum ≤ s ∧ s ≤ (1 + u) ^ (l.length - 1) * l.sum := by
  induction h with
  | one x => intro hx; exact ⟨by simp, hx x (by simp), by simp, by simp⟩
  | add l m a b _ _ ihl ihm =>
    intro hx
    obtain ⟨l0, a0, a1, a2⟩ := ihl (fun x hx' => hx x (List.mem_append_left _ hx'))
    obtain ⟨m0, b0, b1, b2⟩ := ihm (fun x hx' => hx x (List.mem_append_right _ hx'))
    have hl : 0 ≤ l.sum := List.sum_nonneg (fun x hx' => hx x (List.mem_append_left _ hx'))
    have hm : 0 ≤ m.sum := List.sum_nonneg (fun x hx' => hx x (List.mem_append_right _ hx'))
    have hr := hfl (a + b) (add_nonneg a0 b0)
    refine ⟨by simp; omega, fl_nonneg hu1 hfl (add_nonneg a0 b0), ?_, ?_⟩
    · refine le_trans ?_ hr.1
      have e : (l ++ m).length - 1 = (l.length + m.length - 2) + 1 := by rw [List.length_append]; omega
      rw [e, pow_succ, List.sum_append, mul_comm _ (1 - u), mul_assoc]
      refine mul_le_mul_of_nonneg_left ?_ (by linarith)
      have p1 : (1 - u) ^ (l.length + m.length - 2) ≤ (1 - u) ^ (l.length - 1) := pow_le_pow_of_le_one (by linarith) (by linarith) (by omega)
      have p2 : (1 - u) ^ (l.length + m.length - 2) ≤ (1 - u) ^ (m.length - 1) := pow_le_pow_of_le_one (by linarith) (by linarith) (by omega)
      have q1 := mul_le_mul_of_nonneg_right p1 hl
      have q2 := mul_le_mul_of_nonneg_right p2 hm
      linarith
    · refine hr.2.trans ?_
      have e : (l ++ m).length - 1 = (l.length + m.length - 2) + 1 := by rw [List.length_append]; omega
      rw [e, pow_succ, List.sum_append, mul_comm _ (1 + u), mul_assoc]
      refine mul_le_mul_of_nonneg_left ?_ (by linarith)
      have p1 : (1 + u) ^ (l.length - 1) ≤ (1 + u) ^ (l.length + m.length - 2) := pow_le_pow_right₀ (by linarith) (by omega)
      have p2 : (1 + u) ^ (m.length - 1) ≤ (1 + u) ^ (l.length + m.length - 2) := pow_le_pow_right₀ (by linarith) (by omega)
      have q1 := mul_le_mul_of_nonneg_right p1 hl
      have q2 := mul_le_mul_of_nonneg_right p2 hm
      linarith
  | perm l l' a h _ ih =>
    intro hx
    have := ih (fun x hx' => hx x (h.mem_iff.1 hx'))
    rwa [h.length_eq, h.sum_eq] at this

theorem fl_div (hfl : Rounds u fl) {x : ℚ} (hx : 0 ≤ x) {n : ℕ} (hn : n ≠ 0) : (1 - u) * x ≤ fl (x / n) * n ∧ fl (x / n) * n ≤ (1 + u) * x := by
  have hp : (0 : ℚ) < n := by exact_mod_cast Nat.pos_of_ne_zero hn
  obtain ⟨h1, h2⟩ := hfl (x / n) (div_nonneg hx hp.le)
  have e : x / n * n = x := div_mul_cancel₀ x hp.ne'
  constructor
  · have := mul_le_mul_of_nonneg_right h1 hp.le
    rwa [mul_assoc, e] at this
  · have := mul_le_mul_of_nonneg_right h2 hp.le
    rwa [mul_assoc, e] at this

end

section

variable {ω β : Type} [DecidableEq ω] [BEq β] [LawfulBEq β]

/-- The sums of the run: in every test, the costs of the occurrences, each once, added in some order and grouping. -/
def Adds (fl : ℚ → ℚ) (dcosts : List (β × ℚ)) (ev : ω → β) (sum : ℕ → Finset ω → ℚ) : Prop :=
  ∀ k (v : Finset ω), v.Nonempty → ∃ l : List ω, l.Nodup ∧ l.toFinset = v ∧ SumsTo fl (l.map (single dcosts ev)) (sum k v)

/-- C141, with the factors as they come out: `(1 + 2 ^ -53) ^ N / (1 - 2 ^ -53)` for candidates of at most `N` occurrences. -/
theorem selection_rounded (C : Cands ℚ ω) (dcosts : List (β × ℚ)) (ev : ω → β) (minCov : ℕ) (cis : List ℕ) (hnd : cis.Nodup) (hcost : ∀ c ∈ cis, ∀ o ∈ C.occs c, (dcosts.lookup (ev o)).isSome)
    (hpos : ∀ x ∈ dcosts.map Prod.snd, 0 ≤ x) (hC : ∀ c ∈ cis, 0 ≤ C.cost c) (N : ℕ) (hN : ∀ c ∈ cis, (C.occs c).card ≤ N) (sum : ℕ → Finset ω → ℚ) (hsum : Adds MinSupp.dbl dcosts ev sum) :
    ∃ sel, filterDbl sum C dcosts ev minCov cis = some sel ∧ sel.Nodup ∧ (∀ c ∈ sel, c ∈ cis) ∧
      (∀ before c after, sel = before ++ c :: after → minCov ≤ (C.occs c \ covered C before).card ∧
        (1 - 1 / 2 ^ 53) * C.cost c < (1 + 1 / 2 ^ 53) ^ N * ∑ o ∈ C.occs c \ covered C before, single dcosts ev o) ∧
      ∀ cheapest ∈ dcosts.map Prod.snd, (∀ x ∈ dcosts.map Prod.snd, cheapest ≤ x) → ∀ c ∈ cis, c ∉ sel → (C.occs c \ covered C sel).card < minCov ∨ (C.occs c \ covered C sel).card = 0 ∨
        (1 - 1 / 2 ^ 53) ^ N * (cheapest * ((C.occs c \ covered C sel).card : ℚ)) ≤ (1 + 1 / 2 ^ 53) * C.cost c := by
  obtain ⟨u, hu⟩ : ∃ u : ℚ, u = 1 / 2 ^ 53 := ⟨_, rfl⟩
  rw [← hu]
  have hu0 : 0 ≤ u := by rw [hu]; positivity
  have hu1 : u ≤ 1 := by rw [hu]; norm_num
  have hfl : Cycles.Rounds u MinSupp.dbl := by rw [hu]; exact Cycles.dbl_rounds
  unfold filterDbl filterWith
  split
  · rename_i hd
    refine ⟨[], rfl, by simp, by simp, by intro b c a h; simp at h, fun ch hch => ?_⟩
    rw [hd] at hch
    cases hch
  · rename_i d ds hd
    have hmin : ∀ x ∈ dcosts.map Prod.snd, ds.foldl min d ≤ x := by
      rw [hd]
      intro x hx
      rcases List.mem_cons.1 hx with rfl | hx
      · exact (foldl_min_le ds x).1
      · exact (foldl_min_le ds d).2 x hx
    have hmem : ∀ (ds : List ℚ) (d : ℚ), ds.foldl min d ∈ d :: ds := by
      intro ds
      induction ds with
      | nil => simp
      | cons a ds ih =>
        intro d
        simp only [List.foldl_cons]
        rcases List.mem_cons.1 (ih (min d a)) with h | h
        · rw [h]
          rcases min_choice d a with h' | h' <;> rw [h'] <;> simp
        · simp [h]
    obtain ⟨m, hm⟩ : ∃ m, m = ds.foldl min d := ⟨_, rfl⟩
    rw [← hm] at hmin ⊢
    have hm0 : 0 ≤ m := hpos m (by rw [hd, hm]; exact hmem ds d)
    -- the sums
    have hs : ∀ k, ∀ c ∈ cis, ∀ v, v ⊆ C.occs c → v.card ≠ 0 →
        0 ≤ sum k v ∧ 0 ≤ ∑ o ∈ v, single dcosts ev o ∧ (1 - u) ^ (v.card - 1) * ∑ o ∈ v, single dcosts ev o ≤ sum k v ∧ sum k v ≤ (1 + u) ^ (v.card - 1) * ∑ o ∈ v, single dcosts ev o := by
      intro k c hc v hv hv0
      obtain ⟨l, l1, l2, l3⟩ := hsum k v (Finset.card_pos.1 (Nat.pos_of_ne_zero hv0))
      have hnn : ∀ x ∈ l.map (single dcosts ev), 0 ≤ x := by
        intro x hx
        obtain ⟨o, ho, rfl⟩ := List.mem_map.1 hx
        exact hpos _ (lookup_mem (hcost c hc o (hv (by rw [← l2, List.mem_toFinset]; exact ho))))
      obtain ⟨_, n1, n2, n3⟩ := sums_near hu0 hu1 hfl l3 hnn
      have e1 : (l.map (single dcosts ev)).length = v.card := by rw [List.length_map, ← l2, List.toFinset_card_of_nodup l1]
      have e2 : (l.map (single dcosts ev)).sum = ∑ o ∈ v, single dcosts ev o := by rw [← l2, List.sum_toFinset _ l1]
      rw [e1, e2] at n2 n3
      refine ⟨n1, ?_, n2, n3⟩
      rw [← e2]
      exact List.sum_nonneg hnn
    have hperm : (sortWith divDbl C C.occs cis).Perm cis := List.perm_insertionSort _ _
    obtain ⟨out, h1, h2, h3, h4, h5⟩ := loopWith_spec divDbl (effDbl sum C dcosts ev) C minCov m hm0 cis
      (fun c v => (1 - u) * C.cost c < (1 + u) ^ N * ∑ o ∈ v, single dcosts ev o)
      (fun c v => v.card = 0 ∨ (1 - u) ^ N * (m * (v.card : ℚ)) ≤ (1 + u) * C.cost c)
      (by
        intro k c hc v hv
        unfold effDbl
        rw [if_pos (fun o ho => hcost c hc o (hv ho))]
        exact ⟨_, rfl⟩)
      (by
        intro k c hc v hv hv0 _ he
        unfold effDbl at he
        rw [if_pos (fun o ho => hcost c hc o (hv ho)), Option.some.injEq, decide_eq_true_eq] at he
        unfold divDbl at he
        obtain ⟨s0, s1, _, s3⟩ := hs k c hc v hv hv0
        have hp : (0 : ℚ) < v.card := by exact_mod_cast Nat.pos_of_ne_zero hv0
        have a1 := (fl_div hfl (hC c hc) hv0).1
        have a2 := (fl_div hfl s0 hv0).2
        have a3 := mul_lt_mul_of_pos_right he hp
        have a4 : (1 + u) * sum k v ≤ (1 + u) ^ N * ∑ o ∈ v, single dcosts ev o := by
          have b1 := mul_le_mul_of_nonneg_left s3 (show 0 ≤ 1 + u by linarith)
          rw [← mul_assoc, mul_comm (1 + u) ((1 + u) ^ (v.card - 1)), ← pow_succ] at b1
          refine b1.trans (mul_le_mul_of_nonneg_right (pow_le_pow_right₀ (by linarith) ?_) s1)
          have := (Finset.card_le_card hv).trans (hN c hc)
          omega
        show (1 - u) * C.cost c < (1 + u) ^ N * ∑ o ∈ v, single dcosts ev o
        linarith)
      (by
        intro c hc v hv hr
        unfold ratioWith at hr
        split at hr
        · left; assumption
        · rename_i hv0
          right
          rw [not_le, WithTop.coe_lt_coe] at hr
          unfold divDbl at hr
          have hp : (0 : ℚ) < v.card := by exact_mod_cast Nat.pos_of_ne_zero hv0
          have a1 := (fl_div hfl (hC c hc) hv0).2
          have a2 := mul_lt_mul_of_pos_right hr hp
          have a3 : (1 - u) ^ N * (m * (v.card : ℚ)) ≤ 1 * (m * (v.card : ℚ)) := mul_le_mul_of_nonneg_right (pow_le_one₀ (by linarith) (by linarith)) (mul_nonneg hm0 hp.le)
          linarith)
      (by
        intro k c hc v hv hv0 he
        unfold effDbl at he
        rw [if_pos (fun o ho => hcost c hc o (hv ho)), Option.some.injEq, decide_eq_false_iff_not, not_lt] at he
        unfold divDbl at he
        obtain ⟨s0, s1, s2, _⟩ := hs k c hc v hv hv0
        have hp : (0 : ℚ) < v.card := by exact_mod_cast Nat.pos_of_ne_zero hv0
        have a1 := (fl_div hfl (hC c hc) hv0).2
        have a2 := (fl_div hfl s0 hv0).1
        have a3 := mul_le_mul_of_nonneg_right he hp.le
        have a4 : (1 - u) ^ N * ∑ o ∈ v, single dcosts ev o ≤ (1 - u) * sum k v := by
          have b1 := mul_le_mul_of_nonneg_left s2 (show 0 ≤ 1 - u by linarith)
          rw [← mul_assoc, mul_comm (1 - u) ((1 - u) ^ (v.card - 1)), ← pow_succ] at b1
          refine le_trans (mul_le_mul_of_nonneg_right (pow_le_pow_of_le_one (by linarith) (by linarith) ?_) s1) b1
          have := (Finset.card_le_card hv).trans (hN c hc)
          omega
        have a5 : m * (v.card : ℚ) ≤ ∑ o ∈ v, single dcosts ev o := by
          have := Finset.card_nsmul_le_sum v (single dcosts ev) m (fun o ho => hmin _ (lookup_mem (hcost c hc o (hv ho))))
          rwa [nsmul_eq_mul, mul_comm] at this
        have a6 := mul_le_mul_of_nonneg_left a5 (show 0 ≤ (1 - u) ^ N from pow_nonneg (by linarith) _)
        right
        linarith)
      (by
        intro c v v' hv h
        have hcard := Finset.card_le_card hv
        rcases h with h | h
        · left; omega
        · right
          refine le_trans (mul_le_mul_of_nonneg_left (mul_le_mul_of_nonneg_left ?_ hm0) (pow_nonneg (by linarith) _)) h
          exact_mod_cast hcard)
      cis.length (sortWith divDbl C C.occs cis) C.occs [] hperm.length_eq.le (hperm.nodup_iff.2 hnd) (by simp) (by simp) (fun c hc => hperm.mem_iff.1 hc) (by simp) (by intro c _; simp [covered]) (by intro b c a h; simp at h)
      (fun c hc hnc => absurd (hperm.mem_iff.2 hc) hnc)
    refine ⟨out, h1, h2, h3, h4, fun ch hch hle c hc hn => ?_⟩
    have heq : ch = m := le_antisymm (hle _ (by rw [hd, hm]; exact hmem ds d)) (hmin _ hch)
    rw [heq]
    exact h5 c hc hn

theorem pow_up : (1 + 1 / 2 ^ 53 : ℚ) ^ (2 ^ 20) ≤ (1 + 1 / 2 ^ 32) * (1 - 1 / 2 ^ 53) := by
  have h1 : 1 + ((2 ^ 20 : ℕ) : ℚ) * (-(1 / 2 ^ 53)) ≤ (1 + (-(1 / 2 ^ 53)) : ℚ) ^ (2 ^ 20) := one_add_mul_le_pow (by norm_num) _
  have h2 : (1 + 1 / 2 ^ 53 : ℚ) ^ (2 ^ 20) * (1 + (-(1 / 2 ^ 53)) : ℚ) ^ (2 ^ 20) ≤ 1 := by
    rw [← mul_pow]
    exact pow_le_one₀ (by norm_num) (by norm_num)
  obtain ⟨A, hA⟩ : ∃ A : ℚ, A = (1 + 1 / 2 ^ 53 : ℚ) ^ (2 ^ 20) := ⟨_, rfl⟩
  rw [← hA] at h2 ⊢
  have hA0 : 0 ≤ A := by rw [hA]; exact pow_nonneg (by norm_num) _
  have h3 : A * (1 + ((2 ^ 20 : ℕ) : ℚ) * (-(1 / 2 ^ 53))) ≤ 1 := (mul_le_mul_of_nonneg_left h1 hA0).trans h2
  have h4 : (0 : ℚ) < 1 + ((2 ^ 20 : ℕ) : ℚ) * (-(1 / 2 ^ 53)) := by norm_num
  have h5 : A ≤ 1 / (1 + ((2 ^ 20 : ℕ) : ℚ) * (-(1 / 2 ^ 53))) := (le_div_iff₀ h4).2 h3
  refine h5.trans ?_
  norm_num

theorem pow_down : (1 - 1 / 2 ^ 32) * (1 + 1 / 2 ^ 53) ≤ (1 - 1 / 2 ^ 53 : ℚ) ^ (2 ^ 20) := by
  have h1 : 1 + ((2 ^ 20 : ℕ) : ℚ) * (-(1 / 2 ^ 53)) ≤ (1 + (-(1 / 2 ^ 53)) : ℚ) ^ (2 ^ 20) := one_add_mul_le_pow (by norm_num) _
  rw [sub_eq_add_neg 1 (1 / 2 ^ 53 : ℚ)]
  refine le_trans ?_ h1
  norm_num

/-- C141. In doubles, for candidates of at most 2^20 occurrences: every selected pattern adds at least `minCov` occurrences and costs less than `1 + 2 ^ -32` times their costs on their own; every other candidate would add too few
occurrences, or cost at least `1 - 2 ^ -32` times what they cost at the price of the cheapest event. The full statement has no factor; see `rounding_overpays`. -/
theorem selection_double_partial (C : Cands ℚ ω) (dcosts : List (β × ℚ)) (ev : ω → β) (minCov : ℕ) (cis : List ℕ) (hnd : cis.Nodup) (hcost : ∀ c ∈ cis, ∀ o ∈ C.occs c, (dcosts.lookup (ev o)).isSome)
    (hpos : ∀ x ∈ dcosts.map Prod.snd, 0 ≤ x) (hC : ∀ c ∈ cis, 0 ≤ C.cost c) (hN : ∀ c ∈ cis, (C.occs c).card ≤ 2 ^ 20) (sum : ℕ → Finset ω → ℚ) (hsum : Adds MinSupp.dbl dcosts ev sum) :
    ∃ sel, filterDbl sum C dcosts ev minCov cis = some sel ∧ sel.Nodup ∧ (∀ c ∈ sel, c ∈ cis) ∧
      (∀ before c after, sel = before ++ c :: after → minCov ≤ (C.occs c \ covered C before).card ∧
        C.cost c < (1 + 1 / 2 ^ 32) * ∑ o ∈ C.occs c \ covered C before, single dcosts ev o) ∧
      ∀ cheapest ∈ dcosts.map Prod.snd, (∀ x ∈ dcosts.map Prod.snd, cheapest ≤ x) → ∀ c ∈ cis, c ∉ sel → (C.occs c \ covered C sel).card < minCov ∨ (C.occs c \ covered C sel).card = 0 ∨
        (1 - 1 / 2 ^ 32) * (cheapest * ((C.occs c \ covered C sel).card : ℚ)) ≤ C.cost c := by
  obtain ⟨sel, h1, h2, h3, h4, h5⟩ := selection_rounded C dcosts ev minCov cis hnd hcost hpos hC _ hN sum hsum
  refine ⟨sel, h1, h2, h3, fun before c after he => ⟨(h4 before c after he).1, ?_⟩, fun ch hch hle c hc hn => ?_⟩
  · have hs : 0 ≤ ∑ o ∈ C.occs c \ covered C before, single dcosts ev o := Finset.sum_nonneg (fun o ho => hpos _ (lookup_mem (hcost c (h3 c (by rw [he]; simp)) o (Finset.mem_sdiff.1 ho).1)))
    have a1 := (h4 before c after he).2.trans_le (mul_le_mul_of_nonneg_right pow_up hs)
    rw [mul_assoc, mul_comm (1 - 1 / 2 ^ 53 : ℚ) (∑ o ∈ C.occs c \ covered C before, single dcosts ev o), ← mul_assoc, mul_comm (1 - 1 / 2 ^ 53 : ℚ) (C.cost c)] at a1
    exact lt_of_mul_lt_mul_right a1 (by norm_num)
  · rcases h5 ch hch hle c hc hn with h | h | h
    · exact Or.inl h
    · exact Or.inr (Or.inl h)
    · right; right
      have hx : 0 ≤ ch * ((C.occs c \ covered C sel).card : ℚ) := mul_nonneg (hpos _ hch) (Nat.cast_nonneg _)
      have a1 := (mul_le_mul_of_nonneg_right pow_down hx).trans h
      rw [mul_assoc, mul_comm (1 + 1 / 2 ^ 53 : ℚ) (ch * _), ← mul_assoc, mul_comm (1 + 1 / 2 ^ 53 : ℚ) (C.cost c)] at a1
      exact le_of_mul_le_mul_right a1 (by norm_num)

/-- C141, the whole selection: it costs at most `1 + 2 ^ -32` times the costs of the covered occurrences on their own. -/
theorem total_double (C : Cands ℚ ω) (dcosts : List (β × ℚ)) (ev : ω → β) (sel : List ℕ)
    (h : ∀ before c after, sel = before ++ c :: after → C.cost c < (1 + 1 / 2 ^ 32) * ∑ o ∈ C.occs c \ covered C before, single dcosts ev o) :
    (sel.map C.cost).sum ≤ (1 + 1 / 2 ^ 32) * ∑ o ∈ covered C sel, single dcosts ev o := by
  induction sel using List.reverseRecOn with
  | nil => simp [covered]
  | append_singleton sel c ih =>
    have h1 := ih (fun b x a he => h b x (a ++ [c]) (by rw [he]; simp))
    have h2 := h sel c [] rfl
    rw [List.map_append, List.sum_append, covered_append]
    have : covered C sel ∪ covered C [c] = covered C sel ∪ (C.occs c \ covered C sel) := by
      simp [covered]
    rw [this, Finset.sum_union Finset.disjoint_sdiff, mul_add]
    simp only [List.map_cons, List.map_nil, List.sum_cons, List.sum_nil, add_zero]
    linarith

end

/-! ## Where rounding matters -/

/-- The cost of an occurrence: a double near 4.1651. -/
def overD : ℚ := 0x10a909b0bbd12e / 2 ^ 50

/-- One candidate: seven occurrences of the event 0, for a cost near 29.1555. -/
def overC : Cands ℚ ℕ := ⟨fun _ => 0x1d27d0f548ae11 / 2 ^ 48, fun _ => {0, 1, 2, 3, 4, 5, 6}⟩

/-- The costs are added one after the other. -/
def overSum (v : Finset ℕ) : ℚ := (List.replicate (v.card - 1) overD).foldl (fun a x => MinSupp.dbl (a + x)) overD

theorem overSum_adds : Adds MinSupp.dbl [(0, overD)] (fun _ : ℕ => 0) (fun _ => overSum) := by
  intro _ v hv
  refine ⟨v.toList, v.nodup_toList, v.toList_toFinset, ?_⟩
  have e : v.toList.map (single [(0, overD)] (fun _ : ℕ => 0)) = List.replicate (v.card - 1 + 1) overD := by
    rw [List.eq_replicate_iff]
    refine ⟨by rw [List.length_map, Finset.length_toList]; have := Finset.card_pos.2 hv; omega, ?_⟩
    intro x hx
    obtain ⟨o, _, rfl⟩ := List.mem_map.1 hx
    simp [single]
  rw [e]
  unfold overSum
  have key : ∀ (n : ℕ) (l : List ℚ) (a : ℚ), SumsTo MinSupp.dbl l a → SumsTo MinSupp.dbl (l ++ List.replicate n overD) ((List.replicate n overD).foldl (fun a x => MinSupp.dbl (a + x)) a) := by
    intro n
    induction n with
    | zero => intro l a h; simpa using h
    | succ n ih =>
      intro l a h
      rw [List.replicate_succ, List.foldl_cons]
      have := ih (l ++ [overD]) _ (.add _ _ _ _ h (.one overD))
      rwa [List.append_assoc, List.singleton_append] at this
  exact key (v.card - 1) [overD] overD (.one _)

/-- C141 fails without the factor: the pattern is selected although it costs more than its seven occurrences on their own. All numbers are doubles. -/
theorem rounding_overpays : filterDbl (fun _ => overSum) overC [(0, overD)] (fun _ : ℕ => 0) 3 [0] = some [0] ∧
    ∑ o ∈ overC.occs 0, single [(0, overD)] (fun _ : ℕ => 0) o < overC.cost 0 ∧ MinSupp.dbl overD = overD ∧ MinSupp.dbl (overC.cost 0) = overC.cost 0 := by
  decide +kernel

/-- The hypotheses of `selection_double_partial` hold for it. -/
example : ∃ sel, filterDbl (fun _ => overSum) overC [(0, overD)] (fun _ : ℕ => 0) 3 [0] = some sel ∧ sel.Nodup := by
  obtain ⟨sel, h1, h2, _⟩ := selection_double_partial overC [(0, overD)] (fun _ : ℕ => 0) 3 [0] (by decide) (by decide) (by decide +kernel) (by decide +kernel) (by decide +kernel) (fun _ => overSum) overSum_adds
  exact ⟨sel, h1, h2⟩

end Verif.Select
