import Verif.Select.Spec
import Mathlib.Algebra.Order.BigOperators.Group.Finset
import Mathlib.Tactic.Linarith
import Mathlib.Tactic.FieldSimp

set_option autoImplicit false
set_option linter.unusedSectionVars false

namespace Verif.Select

variable {K : Type} [Field K] [LinearOrder K] [IsStrictOrderedRing K] {ω β : Type} [DecidableEq ω] [BEq β] [LawfulBEq β]

theorem covered_append (C : Cands K ω) (a b : List ℕ) : covered C (a ++ b) = covered C a ∪ covered C b := by
  induction a with
  | nil => simp [covered]
  | cons c a ih => simp [covered, ih, Finset.union_assoc]

theorem covered_mono (C : Cands K ω) (a b : List ℕ) : covered C a ⊆ covered C (a ++ b) := by
  rw [covered_append]; exact Finset.subset_union_left

theorem sortCis_perm (C : Cands K ω) (uncov : ℕ → Finset ω) (cis : List ℕ) : (sortCis C uncov cis).Perm cis := List.perm_insertionSort _ _

theorem mem_keepCis {C : Cands K ω} {minCov : ℕ} {maxEff : K} {uncov : ℕ → Finset ω} {cis : List ℕ} {c : ℕ} :
    c ∈ keepCis C minCov maxEff uncov cis ↔ c ∈ cis ∧ minCov ≤ (uncov c).card ∧ (0 ≤ maxEff → ratio (C.cost c) (uncov c) ≤ (maxEff : WithTop K)) := by
  simp only [keepCis, List.mem_filter, Bool.and_eq_true, Bool.not_eq_true', decide_eq_false_iff_not, not_lt, Bool.and_eq_false_imp, decide_eq_true_eq]

theorem useless_of_ratio {cost maxEff : K} {u : Finset ω} (h : ¬ ratio cost u ≤ (maxEff : WithTop K)) : u.card = 0 ∨ maxEff * (u.card : K) ≤ cost := by
  unfold ratio at h
  split at h
  · left; assumption
  · rename_i h0
    right
    rw [not_le, WithTop.coe_lt_coe] at h
    have hp : (0 : K) < u.card := by exact_mod_cast Nat.pos_of_ne_zero h0
    rw [lt_div_iff₀ hp] at h
    exact h.le

/-- Usefulness is lost for good when the cost of the candidate is not negative or the cheapest event costs nothing negative. -/
theorem useless_mono {C : Cands K ω} {minCov : ℕ} {maxEff : K} (hm : 0 ≤ maxEff) {sel sel' : List ℕ} {c : ℕ} (h : Useless C minCov maxEff sel c) :
    Useless C minCov maxEff (sel ++ sel') c := by
  have hsub : C.occs c \ covered C (sel ++ sel') ⊆ C.occs c \ covered C sel := Finset.sdiff_subset_sdiff (Finset.Subset.refl _) (covered_mono C sel sel')
  have hcard := Finset.card_le_card hsub
  rcases h with h | h | h
  · left; omega
  · right; left; omega
  · right; right
    have : ((C.occs c \ covered C (sel ++ sel')).card : K) ≤ ((C.occs c \ covered C sel).card : K) := by exact_mod_cast hcard
    exact (mul_le_mul_of_nonneg_left this hm).trans h

theorem foldl_min_le (ds : List K) (d : K) : ds.foldl min d ≤ d ∧ ∀ x ∈ ds, ds.foldl min d ≤ x := by
  induction ds generalizing d with
  | nil => simp
  | cons a ds ih =>
    simp only [List.foldl_cons]
    obtain ⟨h1, h2⟩ := ih (min d a)
    refine ⟨h1.trans (min_le_left _ _), ?_⟩
    intro x hx
    rcases List.mem_cons.mp hx with rfl | hx
    · exact h1.trans (min_le_right _ _)
    · exact h2 x hx

theorem lookup_mem {dcosts : List (β × K)} {e : β} (h : (dcosts.lookup e).isSome) : (dcosts.lookup e).getD 0 ∈ dcosts.map Prod.snd := by
  induction dcosts with
  | nil => simp at h
  | cons a l ih =>
    obtain ⟨b, k⟩ := a
    rw [List.lookup_cons] at h ⊢
    cases hb : (e == b) with
    | true => simp
    | false =>
      rw [hb] at h
      simp only [List.map_cons, List.mem_cons]
      right
      exact ih h

theorem efficient_iff {dcosts : List (β × K)} {ev : ω → β} {cost : K} {u : Finset ω} (hu : u.card ≠ 0) {b : Bool} (h : isEfficient dcosts ev cost u = some b) :
    (∀ o ∈ u, (dcosts.lookup (ev o)).isSome) ∧ (b = true ↔ cost < ∑ o ∈ u, single dcosts ev o) := by
  unfold isEfficient sumCosts at h
  split at h
  · rename_i hall
    refine ⟨hall, ?_⟩
    simp only [Option.map_some, Option.some.injEq] at h
    have hp : (0 : K) < u.card := by exact_mod_cast Nat.pos_of_ne_zero hu
    rw [← h, decide_eq_true_eq, div_lt_div_iff_of_pos_right hp]
    rfl
  · simp at h

/-- The invariant of the main loop and its consequences. -/
theorem loop_spec (C : Cands K ω) (dcosts : List (β × K)) (ev : ω → β) (minCov : ℕ) (maxEff : K) (hmin : ∀ x ∈ dcosts.map Prod.snd, maxEff ≤ x) (all : List ℕ) :
    ∀ (n : ℕ) (cis : List ℕ) (uncov : ℕ → Finset ω) (sel : List ℕ), cis.length ≤ n → cis.Nodup → sel.Nodup → (∀ c ∈ cis, c ∉ sel) → (∀ c ∈ cis, c ∈ all) → (∀ c ∈ sel, c ∈ all) →
      (∀ c ∈ cis, uncov c = C.occs c \ covered C sel) → EfficientCover C dcosts ev minCov sel →
      (0 ≤ maxEff → ∀ c ∈ all, c ∉ cis → c ∉ sel → Useless C minCov maxEff sel c) →
      (∀ c ∈ all, ∀ o ∈ C.occs c, (dcosts.lookup (ev o)).isSome) →
      ∃ out, loop C dcosts ev minCov maxEff n cis uncov sel = some out ∧ out.Nodup ∧ (∀ c ∈ out, c ∈ all) ∧ EfficientCover C dcosts ev minCov out ∧
        (0 ≤ maxEff → ∀ c ∈ all, c ∉ out → Useless C minCov maxEff out c) := by
  intro n
  induction n with
  | zero =>
    intro cis uncov sel hn _ h1 _ _ h4 _ h6 h7 _
    have : cis = [] := by simpa using hn
    subst this
    exact ⟨sel, rfl, h1, h4, h6, fun hm c hc => h7 hm c hc (by simp)⟩
  | succ n ih =>
    intro cis uncov sel hn hnd h1 h2 h3 h4 h5 h6 h7 hall
    cases cis with
    | nil => exact ⟨sel, rfl, h1, h4, h6, fun hm c hc => h7 hm c hc (by simp)⟩
    | cons nxti cis =>
      rw [List.nodup_cons] at hnd
      have hx := h5 nxti (by simp)
      -- when the candidate is not selected
      have skip : (0 ≤ maxEff → Useless C minCov maxEff sel nxti) → ∃ out, loop C dcosts ev minCov maxEff n cis uncov sel = some out ∧ out.Nodup ∧ (∀ c ∈ out, c ∈ all) ∧ EfficientCover C dcosts ev minCov out ∧
          (0 ≤ maxEff → ∀ c ∈ all, c ∉ out → Useless C minCov maxEff out c) := by
        intro hu
        apply ih cis uncov sel (by simpa using hn) hnd.2 h1 (fun c hc => h2 c (by simp [hc])) (fun c hc => h3 c (by simp [hc])) h4 (fun c hc => h5 c (by simp [hc])) h6 ?_ hall
        intro hm c hc hnc hns
        by_cases hcn : c = nxti
        · subst hcn; exact hu hm
        · exact h7 hm c hc (by simp [hcn, hnc]) hns
      have hstep : loop C dcosts ev minCov maxEff (n + 1) (nxti :: cis) uncov sel =
          if ratio (C.cost nxti) (uncov nxti) ≤ (maxEff : WithTop K) ∧ minCov ≤ (uncov nxti).card then
            match isEfficient dcosts ev (C.cost nxti) (uncov nxti) with
            | none => none
            | some false => loop C dcosts ev minCov maxEff n cis uncov sel
            | some true =>
              loop C dcosts ev minCov maxEff n (sortCis C (fun c => if c ∈ cis then uncov c \ uncov nxti else uncov c)
                (keepCis C minCov maxEff (fun c => if c ∈ cis then uncov c \ uncov nxti else uncov c) cis)) (fun c => if c ∈ cis then uncov c \ uncov nxti else uncov c) (sel ++ [nxti])
          else loop C dcosts ev minCov maxEff n cis uncov sel := rfl
      rw [hstep]
      split
      · rename_i hcond
        have hne : (uncov nxti).card ≠ 0 := by
          intro h0
          have := hcond.1
          simp [ratio, h0] at this
        have hp : (0 : K) < (uncov nxti).card := by exact_mod_cast Nat.pos_of_ne_zero hne
        have hsum : ∃ b, isEfficient dcosts ev (C.cost nxti) (uncov nxti) = some b := by
          unfold isEfficient sumCosts
          rw [if_pos]
          · exact ⟨_, rfl⟩
          · intro o ho
            rw [hx] at ho
            exact hall nxti (h3 nxti (by simp)) o (Finset.mem_sdiff.mp ho).1
        obtain ⟨b, hb⟩ := hsum
        obtain ⟨he1, he2⟩ := efficient_iff hne hb
        rw [hb]
        cases b with
        | false =>
          simp only
          apply skip
          intro hm
          right; right
          rw [← hx]
          have hnot : ¬ C.cost nxti < ∑ o ∈ uncov nxti, single dcosts ev o := by
            intro hlt; simpa using he2.mpr hlt
          rw [not_lt] at hnot
          refine le_trans ?_ hnot
          have : ∀ o ∈ uncov nxti, maxEff ≤ single dcosts ev o := fun o ho => hmin _ (lookup_mem (he1 o ho))
          have := Finset.card_nsmul_le_sum (uncov nxti) _ maxEff this
          rw [nsmul_eq_mul, mul_comm] at this
          exact this
        | true =>
          simp only
          have hcost := he2.mp rfl
          obtain ⟨uncov', hu'⟩ : ∃ uncov' : ℕ → Finset ω, uncov' = fun c => if c ∈ cis then uncov c \ uncov nxti else uncov c := ⟨_, rfl⟩
          rw [← hu']
          have hperm := sortCis_perm C uncov' (keepCis C minCov maxEff uncov' cis)
          have hsub : ∀ c ∈ sortCis C uncov' (keepCis C minCov maxEff uncov' cis), c ∈ cis := fun c hc => (mem_keepCis.mp (hperm.mem_iff.mp hc)).1
          have huc : ∀ c ∈ cis, uncov' c = C.occs c \ covered C (sel ++ [nxti]) := by
            intro c hc
            rw [hu']
            simp only [hc, if_true]
            rw [h5 c (by simp [hc]), hx, covered_append]
            ext o
            simp only [covered, Finset.mem_sdiff, Finset.mem_union, Finset.union_empty]
            tauto
          apply ih
          · have := hperm.length_eq
            rw [this]
            have := List.length_filter_le (fun c => !(decide ((uncov' c).card < minCov)) && !(decide (0 ≤ maxEff) && decide ((maxEff : WithTop K) < ratio (C.cost c) (uncov' c)))) cis
            simp only [List.length_cons] at hn
            unfold keepCis
            omega
          · exact hperm.nodup_iff.mpr (hnd.2.filter _)
          · rw [List.nodup_append]
            refine ⟨h1, by simp, ?_⟩
            intro a ha b hb hab
            simp only [List.mem_singleton] at hb
            subst hab
            subst hb
            exact h2 a (by simp) ha
          · intro c hc hcs
            have := hsub c hc
            rcases List.mem_append.mp hcs with h | h
            · exact h2 c (by simp [this]) h
            · simp only [List.mem_singleton] at h
              subst h
              exact hnd.1 this
          · intro c hc; exact h3 c (by simp [hsub c hc])
          · intro c hc
            rcases List.mem_append.mp hc with h | h
            · exact h4 c h
            · simp only [List.mem_singleton] at h
              subst h
              exact h3 c (by simp)
          · intro c hc; exact huc c (hsub c hc)
          · intro before c after heq
            rcases List.eq_nil_or_concat after with rfl | ⟨as, a, rfl⟩
            · have heq' : sel = before ∧ nxti = c := by simpa using List.append_inj' heq rfl
              obtain ⟨rfl, rfl⟩ := heq'
              rw [← hx]
              exact ⟨hcond.2, hcost⟩
            · have heq' : sel = before ++ c :: as ∧ nxti = a := by
                rw [List.concat_eq_append, ← List.cons_append, ← List.append_assoc] at heq
                have := List.append_inj' heq rfl
                simpa using this
              exact h6 before c as heq'.1
          · intro hm c hc hnc hns
            have hns' : c ∉ sel ∧ c ≠ nxti := by simpa using hns
            by_cases hcc : c ∈ cis
            · have : c ∉ keepCis C minCov maxEff uncov' cis := fun h => hnc (hperm.mem_iff.mpr h)
              rw [mem_keepCis] at this
              have h8 : (uncov' c).card < minCov ∨ ¬ ratio (C.cost c) (uncov' c) ≤ (maxEff : WithTop K) := by
                by_contra hcon
                rw [not_or, not_lt, not_not] at hcon
                exact this ⟨hcc, hcon.1, fun _ => hcon.2⟩
              have hc0 := huc c hcc
              unfold Useless
              rw [← hc0]
              rcases h8 with h8 | h8
              · left; exact h8
              · rcases useless_of_ratio h8 with h9 | h9
                · right; left; exact h9
                · right; right; exact h9
            · exact useless_mono hm (h7 hm c hc (by simp [hns'.2, hcc]) hns'.1)
          · exact hall
      · rename_i hcond
        apply skip
        intro hm
        unfold Useless
        rw [← hx]
        rcases not_and_or.mp hcond with h | h
        · rcases useless_of_ratio h with h9 | h9
          · right; left; exact h9
          · right; right; exact h9
        · left; omega

end Verif.Select
