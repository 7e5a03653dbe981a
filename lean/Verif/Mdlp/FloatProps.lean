import Verif.Mdlp.FloatModel
import Verif.Mdlp.Props
import Verif.Float.Props
import Mathlib.Tactic.IntervalCases

/-!
# Rounded cut points still separate the samples (C131)
-/

set_option autoImplicit false
set_option linter.unusedSectionVars false

namespace Verif.Mdlp

open Verif.Float

variable {E : Type*} [LinearOrder E]

/-! ### Midpoints -/

/-- The computed midpoint of a double and a larger number is a double between them. If there is another double between them, it is strictly between; otherwise it is one of the two. -/
theorem midFloat_spec (a b : ℚ) (ha : IsDouble a) (hab : a < b) : IsDouble (midFloat a b) ∧ a ≤ midFloat a b ∧ midFloat a b ≤ b ∧
    ((∃ d, IsDouble d ∧ a < d ∧ d < b) → a < midFloat a b ∧ midFloat a b < b) ∧ ((¬ ∃ d, IsDouble d ∧ a < d ∧ d < b) → midFloat a b = a ∨ midFloat a b = b) := by
  obtain ⟨h1, h2⟩ := fl_spec (a + b)
  have hm : midFloat a b = fl (a + b) / 2 := fl_double _ h1.half
  have hA := abs_le.1 ((h2 _ ha.double).trans_eq (show |2 * a - (a + b)| = b - a by rw [abs_of_nonpos (by linarith)]; ring))
  have hd : IsDouble (midFloat a b) := by rw [hm]; exact h1.half
  have hle : a ≤ midFloat a b ∧ midFloat a b ≤ b := by rw [hm]; constructor <;> linarith [hA.1, hA.2]
  refine ⟨hd, hle.1, hle.2, ?_, fun hno => ?_⟩
  · rintro ⟨d, k1, k2, k3⟩
    have hD : |2 * d - (a + b)| < b - a := by rw [abs_lt]; constructor <;> linarith
    have := abs_lt.1 ((h2 _ k1.double).trans_lt hD)
    rw [hm]
    constructor <;> linarith [this.1, this.2]
  · by_contra hc
    push Not at hc
    exact hno ⟨_, hd, lt_of_le_of_ne hle.1 (Ne.symm hc.1), lt_of_le_of_ne hle.2 hc.2⟩

/-- Midpoints of equal doubles are exact. -/
theorem midFloat_self (a : ℚ) (ha : IsDouble a) : midFloat a a = a := by
  unfold midFloat
  rw [← two_mul, fl_double _ ha.double, mul_div_cancel_left₀ _ (by norm_num), fl_double _ ha]

/-- Midpoints of integers below `2 ^ 52` are exact. -/
theorem midFloat_int (a b : ℤ) (ha : |a| ≤ 2 ^ 52) (hb : |b| ≤ 2 ^ 52) : midFloat a b = ((a : ℚ) + b) / 2 := by
  have h : IsDouble ((a : ℚ) + b) := by
    have := isDouble_int (a + b) (by rw [abs_le] at *; omega)
    push_cast at this
    exact this
  unfold midFloat
  rw [fl_double _ h, fl_double _ h.half]

/-! ### The loop -/

/-- Values whose exact midpoints are the computed ones: the positions of the cuts do not depend on the values. -/
def carrier (X : List ℚ) : ℕ → ℚ
  | 0 => 0
  | k + 1 => 2 * midFloat (X.getD k 0) (X.getD (k + 1) 0) - carrier X k

theorem carrier_mid (X : List ℚ) (k : ℕ) (hk : k + 1 < X.length) : (((List.range X.length).map (carrier X)).getD k 0 + ((List.range X.length).map (carrier X)).getD (k + 1) 0) / 2 = midFloat (X.getD k 0) (X.getD (k + 1) 0) := by
  have e : ∀ i < X.length, ((List.range X.length).map (carrier X)).getD i 0 = carrier X i := by
    intro i hi
    simp [List.getD_eq_getElem?_getD, hi]
  rw [e k (by omega), e (k + 1) hk, carrier]
  ring

theorem ends_carrier (X : List ℚ) (start stop : ℕ) (h1 : start < X.length) (h2 : stop ≤ X.length) (h3 : 0 < stop) : endsFloat X start stop = ends ((List.range X.length).map (carrier X)) start stop := by
  unfold endsFloat ends
  rw [List.length_map, List.length_range]
  congr 1
  · by_cases h : start = 0
    · rw [if_pos h, if_pos h]
    · rw [if_neg h, if_neg h]
      obtain ⟨k, rfl⟩ := Nat.exists_eq_succ_of_ne_zero h
      rw [Nat.succ_eq_add_one, Nat.add_sub_cancel, carrier_mid X k h1]
  · by_cases h : stop = X.length
    · rw [if_pos h, if_pos h]
    · rw [if_neg h, if_neg h]
      obtain ⟨k, rfl⟩ := Nat.exists_eq_succ_of_ne_zero h3.ne'
      rw [Nat.succ_eq_add_one, Nat.add_sub_cancel, carrier_mid X k (by omega)]

theorem loopFloat_eq (y : List ℕ) (score : ℕ → ℕ → ℕ → E) (better : ℕ → ℕ → ℕ → Bool) (X : List ℚ) (hy : y.length = X.length) : ∀ (fuel : ℕ) (stack : List (ℕ × ℕ)) (acc : List ℚ),
    (∀ iv ∈ stack, iv.1 < iv.2 ∧ iv.2 ≤ X.length) → loopFloat y score better X fuel stack acc = loop y score better ((List.range X.length).map (carrier X)) fuel stack acc := by
  intro fuel
  induction fuel with
  | zero => intro stack acc _; cases stack <;> rfl
  | succ fuel ih =>
    intro stack acc h
    cases stack with
    | nil => rfl
    | cons iv stack =>
      obtain ⟨s, e⟩ := iv
      obtain ⟨h1, h2⟩ := h (s, e) List.mem_cons_self
      have ht : ∀ iv ∈ stack, iv.1 < iv.2 ∧ iv.2 ≤ X.length := fun iv hiv => h iv (List.mem_cons_of_mem _ hiv)
      simp only at h1 h2
      rw [loopFloat, loop, if_neg (by omega), if_neg (by omega), ends_carrier X s e (by omega) h2 (by omega)]
      rcases generateCut_spec y score s e h1 (by omega) with ⟨g, _⟩ | ⟨k, g, hb⟩
      · rw [g]
        exact ih _ _ ht
      · rw [g]
        simp only
        rw [ih stack _ ht]
        rw [ih ((k, e) :: (s, k) :: stack)]
        intro iv hiv
        have hk : s < k ∧ k < e := ⟨hb.1, hb.2.1⟩
        rcases List.mem_cons.1 hiv with rfl | hiv
        · exact ⟨hk.2, h2⟩
        · rcases List.mem_cons.1 hiv with rfl | hiv
          · exact ⟨hk.1, by simp only; omega⟩
          · exact ht iv hiv

/-! ### Theorems -/

/-- On at least one sample `fit` with rounded midpoints terminates, and the cut points are, in strictly increasing order, exactly the rounded midpoints at the positions where the recursive splitting splits. -/
theorem fitFloat_cuts (score : ℕ → ℕ → ℕ → E) (better : ℕ → ℕ → ℕ → Bool) (s : List (ℚ × ℕ)) (hne : s ≠ []) (fuel : ℕ) (hfuel : 2 * s.length ≤ fuel) :
    ∃ cuts, fitFloat score better fuel s = some (.ok cuts) ∧ cuts.Pairwise (· < ·) ∧
      ∀ c, c ∈ cuts ↔ ∃ (k : ℕ) (a b : ℚ × ℕ), CutAt (s.map Prod.snd) score better k ∧ s[k - 1]? = some a ∧ s[k]? = some b ∧ c = midFloat a.1 b.1 := by
  obtain ⟨X, hX⟩ : ∃ X, X = s.map Prod.fst := ⟨_, rfl⟩
  have hlX : X.length = s.length := by rw [hX, List.length_map]
  obtain ⟨s', hs'⟩ : ∃ s', s' = ((List.range X.length).map (carrier X)).zip (s.map Prod.snd) := ⟨_, rfl⟩
  have hl : ((List.range X.length).map (carrier X)).length = (s.map Prod.snd).length := by simp [hlX]
  have h1 : s'.map Prod.fst = (List.range X.length).map (carrier X) := by rw [hs', List.map_fst_zip hl.le]
  have h2 : s'.map Prod.snd = s.map Prod.snd := by rw [hs', List.map_snd_zip hl.ge]
  have hlen : s'.length = s.length := by have := congrArg List.length h2; simpa using this
  have hne' : s' ≠ [] := by
    intro h
    rw [h] at hlen
    exact hne (List.length_eq_zero_iff.1 hlen.symm)
  obtain ⟨cuts, c1, c2, c3⟩ := fit_cuts_any score better s' s' hne' (List.Perm.refl _) fuel (by rw [hlen]; exact hfuel)
  refine ⟨cuts, ?_, c2, fun c => ?_⟩
  · rw [← c1]
    unfold fitFloat fitSorted
    rw [h1, h2, hlen, ← hX, loopFloat_eq _ score better X (by rw [List.length_map, hlX]) fuel _ _ ?_]
    intro iv hiv
    rw [List.mem_singleton] at hiv
    subst hiv
    exact ⟨List.length_pos_iff.2 hne, hlX.ge⟩
  · rw [c3, h2]
    have hpair : ∀ k, 0 < k → k < s.length → ∀ a b : ℚ × ℕ, s[k - 1]? = some a → s[k]? = some b → ∃ a' b' : ℚ × ℕ, s'[k - 1]? = some a' ∧ s'[k]? = some b' ∧ (a'.1 + b'.1) / 2 = midFloat a.1 b.1 := by
      intro k hk0 hk a b ha hb
      obtain ⟨j, rfl⟩ := Nat.exists_eq_succ_of_ne_zero hk0.ne'
      rw [Nat.succ_eq_add_one, Nat.add_sub_cancel] at *
      have hx : ∀ i (x : ℚ × ℕ), s[i]? = some x → X.getD i 0 = x.1 := by
        intro i x hi
        rw [hX, List.getD_eq_getElem?_getD, List.getElem?_map, hi]; rfl
      have hx' : ∀ i (x : ℚ × ℕ), s'[i]? = some x → ((List.range X.length).map (carrier X)).getD i 0 = x.1 := by
        intro i x hi
        rw [← h1, List.getD_eq_getElem?_getD, List.getElem?_map, hi]; rfl
      refine ⟨s'[j]'(by omega), s'[j + 1]'(by omega), List.getElem?_eq_getElem _, List.getElem?_eq_getElem _, ?_⟩
      rw [← hx' j _ (List.getElem?_eq_getElem (by omega)), ← hx' (j + 1) _ (List.getElem?_eq_getElem (by omega)), carrier_mid X j (by omega), hx j a ha, hx (j + 1) b hb]
    have hin : ∀ k, CutAt (s.map Prod.snd) score better k → 0 < k ∧ k < s.length := by
      rintro k ⟨st, sp, -, -, -, ⟨b1, b2, -⟩, -⟩
      rw [List.length_map] at b2
      exact ⟨b1, b2⟩
    constructor
    · rintro ⟨k, a', b', hk, ha', hb', rfl⟩
      obtain ⟨k1, k2⟩ := hin k hk
      obtain ⟨a'', b'', e1, e2, e3⟩ := hpair k k1 k2 (s[k - 1]'(by omega)) s[k] (List.getElem?_eq_getElem _) (List.getElem?_eq_getElem _)
      rw [ha', Option.some.injEq] at e1
      rw [hb', Option.some.injEq] at e2
      subst e1 e2
      exact ⟨k, _, _, hk, List.getElem?_eq_getElem _, List.getElem?_eq_getElem _, e3⟩
    · rintro ⟨k, a, b, hk, ha, hb, rfl⟩
      obtain ⟨k1, k2⟩ := hin k hk
      obtain ⟨a', b', e1, e2, e3⟩ := hpair k k1 k2 a b ha hb
      exact ⟨k, a', b', hk, e1, e2, e3.symm⟩

/-- The code of a value, `np.searchsorted`. -/
def codeOf (cuts : List ℚ) (v : ℚ) : ℕ := searchSorted cuts v 0 cuts.length

theorem codeOf_lt (cuts : List ℚ) (hc : cuts.Pairwise (· < ·)) (a b c : ℚ) (hm : c ∈ cuts) (h1 : a ≤ c) (h2 : c < b) : codeOf cuts a < codeOf cuts b := by
  unfold codeOf
  rw [searchSorted_count _ _ (hc.imp le_of_lt), searchSorted_count _ _ (hc.imp le_of_lt)]
  have hab : ∀ x ∈ cuts, (decide (x < a)) = true → (decide (x < b)) = true := by
    intro x _ hx
    rw [decide_eq_true_eq] at *
    linarith
  rw [List.countP_eq_length_filter, List.countP_eq_length_filter]
  have hsub : (cuts.filter (fun x => decide (x < a))).length ≤ (cuts.filter (fun x => decide (x < b))).length := by
    rw [← List.countP_eq_length_filter, ← List.countP_eq_length_filter]
    exact List.countP_mono_left hab
  refine lt_of_le_of_ne hsub (fun he => ?_)
  have hs : (cuts.filter (fun x => decide (x < a))).Sublist (cuts.filter (fun x => decide (x < b))) := by
    have : cuts.filter (fun x => decide (x < a)) = (cuts.filter (fun x => decide (x < b))).filter (fun x => decide (x < a)) := by
      rw [List.filter_filter]
      refine List.filter_congr (fun x hx => ?_)
      by_cases h : x < a
      · simp [h, h.trans_le (h1.trans h2.le)]
      · simp [h]
    rw [this]
    exact List.filter_sublist
  have := hs.eq_of_length he
  have hcb : c ∈ cuts.filter (fun x => decide (x < b)) := List.mem_filter.2 ⟨hm, by simpa using h2⟩
  rw [← this, List.mem_filter, decide_eq_true_eq] at hcb
  linarith [hcb.2]

/-- C131: all samples sorted by value, whose values are doubles. The search cuts between the samples `a` and `b`, whose values differ, and some double lies strictly between these values. Then all values up to that of `a` get a smaller code than all values from that of `b`
on. The full statement has no condition on another double; see `codes_merged`. -/
theorem codes_separate_partial (score : ℕ → ℕ → ℕ → E) (better : ℕ → ℕ → ℕ → Bool) (s : List (ℚ × ℕ)) (fuel : ℕ) (hfuel : 2 * s.length ≤ fuel) (hd : ∀ x ∈ s, IsDouble x.1) (k : ℕ) (a b : ℚ × ℕ)
    (hk : CutAt (s.map Prod.snd) score better k) (ha : s[k - 1]? = some a) (hb : s[k]? = some b) (hab : a.1 < b.1) (hbet : ∃ d, IsDouble d ∧ a.1 < d ∧ d < b.1) :
    ∃ cuts, fitFloat score better fuel s = some (.ok cuts) ∧ ∀ v w, v ≤ a.1 → b.1 ≤ w → codeOf cuts v < codeOf cuts w := by
  have hne : s ≠ [] := by
    rintro rfl
    simp at hb
  obtain ⟨cuts, h1, h2, h3⟩ := fitFloat_cuts score better s hne fuel hfuel
  obtain ⟨-, -, -, m1, -⟩ := midFloat_spec a.1 b.1 (hd a (List.mem_of_getElem? ha)) hab
  obtain ⟨m2, m3⟩ := m1 hbet
  exact ⟨cuts, h1, fun v w hv hw => codeOf_lt cuts h2 v w _ ((h3 _).2 ⟨k, a, b, hk, ha, hb, rfl⟩) (hv.trans m2.le) (m3.trans_le hw)⟩

/-- C131 for columns of integers of at most 52 bits, without condition: every cut between different values separates them. -/
theorem codes_separate_int (score : ℕ → ℕ → ℕ → E) (better : ℕ → ℕ → ℕ → Bool) (s : List (ℚ × ℕ)) (fuel : ℕ) (hfuel : 2 * s.length ≤ fuel) (hd : ∀ x ∈ s, ∃ i : ℤ, |i| ≤ 2 ^ 52 ∧ x.1 = i) (k : ℕ) (a b : ℚ × ℕ)
    (hk : CutAt (s.map Prod.snd) score better k) (ha : s[k - 1]? = some a) (hb : s[k]? = some b) (hab : a.1 < b.1) :
    ∃ cuts, fitFloat score better fuel s = some (.ok cuts) ∧ ∀ v w, v ≤ a.1 → b.1 ≤ w → codeOf cuts v < codeOf cuts w := by
  refine codes_separate_partial score better s fuel hfuel (fun x hx => ?_) k a b hk ha hb hab ?_
  · obtain ⟨i, h1, h2⟩ := hd x hx
    rw [h2]
    exact isDouble_int i (h1.trans (by norm_num))
  · obtain ⟨i, h1, h2⟩ := hd a (List.mem_of_getElem? ha)
    obtain ⟨j, h3, h4⟩ := hd b (List.mem_of_getElem? hb)
    refine ⟨((i + j : ℤ) : ℚ) / 2, (isDouble_int (i + j) ?_).half, ?_, ?_⟩
    · rw [abs_le] at *
      omega
    · push_cast
      linarith
    · push_cast
      linarith

theorem mid_merged : midFloat (1 + 1 / 2 ^ 52) (1 + 2 / 2 ^ 52) = 1 + 2 / 2 ^ 52 := by
  have hx : (1 + 1 / 2 ^ 52 + (1 + 2 / 2 ^ 52) : ℚ) = 2 + 3 / 2 ^ 52 := by norm_num
  have hlog : Int.log 2 (2 + 3 / 2 ^ 52 : ℚ) = 1 := by
    apply le_antisymm
    · have : Int.log 2 (2 + 3 / 2 ^ 52 : ℚ) < 2 := by
        rw [← Int.lt_zpow_iff_log_lt (by norm_num) (by norm_num)]
        norm_num
      omega
    · rw [← Int.zpow_le_iff_le_log (by norm_num) (by norm_num)]
      norm_num
  have hu : MinSupp.ulp (2 + 3 / 2 ^ 52) = 1 / 2 ^ 51 := by
    unfold MinSupp.ulp
    rw [hlog]
    norm_num [zpow_neg]
  have hfl : ⌊(2 + 3 / 2 ^ 52 : ℚ) / (1 / 2 ^ 51)⌋ = 2 ^ 52 + 1 := by
    rw [Int.floor_eq_iff]
    norm_num
  have hb : MinSupp.halfEven ((2 + 3 / 2 ^ 52) / (1 / 2 ^ 51)) = 2 ^ 52 + 2 := by
    unfold MinSupp.halfEven
    rw [hfl]
    norm_num
  have hdb : fl (2 + 3 / 2 ^ 52) = 2 * (1 + 2 / 2 ^ 52) := by
    unfold fl MinSupp.dbl
    rw [if_neg (by norm_num), if_pos (by norm_num), hu, hb]
    norm_num
  unfold midFloat
  rw [hx, hdb, mul_div_cancel_left₀ _ (by norm_num)]
  exact fl_double _ ⟨2 ^ 52 + 2, -52, by norm_num, by norm_num [zpow_neg]⟩

/-- Where it fails: two samples of different classes whose values are the consecutive doubles `1 + 2 ^ -52` and `1 + 2 * 2 ^ -52`. The search cuts between them, the midpoint is rounded to the larger value, and both samples get code 0. With exact midpoints the codes would be 0 and
1. -/
theorem codes_merged : CutAt ([(1 + 1 / 2 ^ 52, 0), (1 + 2 / 2 ^ 52, 1)].map (Prod.snd : ℚ × ℕ → ℕ)) (fun _ _ k => k) (fun _ _ _ => true) 1 ∧
    fitFloat (fun _ _ k => k) (fun _ _ _ => true) 4 [(1 + 1 / 2 ^ 52, 0), (1 + 2 / 2 ^ 52, 1)] = some (.ok [1 + 2 / 2 ^ 52]) ∧
    codeOf [1 + 2 / 2 ^ 52] (1 + 1 / 2 ^ 52) = 0 ∧ codeOf [1 + 2 / 2 ^ 52] (1 + 2 / 2 ^ 52) = 0 ∧
    IsDouble (1 + 1 / 2 ^ 52) ∧ IsDouble (1 + 2 / 2 ^ 52) := by
  have hcode : ∀ v : ℚ, v ≤ 1 + 2 / 2 ^ 52 → codeOf [1 + 2 / 2 ^ 52] v = 0 := by
    intro v hv
    unfold codeOf
    rw [searchSorted_count _ _ (List.pairwise_singleton _ _)]
    simp only [List.countP_cons, List.countP_nil]
    rw [if_neg (by simpa using hv)]
  refine ⟨⟨0, 2, .all, by decide, by decide, ⟨by decide, by decide, by decide⟩, rfl, ?_⟩, ?_, hcode _ (by norm_num), hcode _ le_rfl, ⟨2 ^ 52 + 1, -52, by norm_num, by norm_num [zpow_neg]⟩, ⟨2 ^ 52 + 2, -52, by norm_num, by norm_num [zpow_neg]⟩⟩
  · intro j h1 h2 _
    exact ⟨h1, fun h => absurd h (by omega)⟩
  · have hl : loopFloat ([(1 + 1 / 2 ^ 52, 0), (1 + 2 / 2 ^ 52, 1)].map (Prod.snd : ℚ × ℕ → ℕ)) (fun _ _ k => k) (fun _ _ _ => true) [1 + 1 / 2 ^ 52, 1 + 2 / 2 ^ 52] 4 [(0, 2)] [] =
        some (.ok [midFloat (1 + 1 / 2 ^ 52) (1 + 2 / 2 ^ 52), midFloat (1 + 1 / 2 ^ 52) (1 + 2 / 2 ^ 52)]) := rfl
    unfold fitFloat
    change (loopFloat ([(1 + 1 / 2 ^ 52, 0), (1 + 2 / 2 ^ 52, 1)].map (Prod.snd : ℚ × ℕ → ℕ)) (fun _ _ k => k) (fun _ _ _ => true) [1 + 1 / 2 ^ 52, 1 + 2 / 2 ^ 52] 4 [(0, 2)] []).map _ = _
    rw [hl, mid_merged, Option.map_some, Except.map]
    have : ([1 + 2 / 2 ^ 52, 1 + 2 / 2 ^ 52] : List ℚ).toFinset = {1 + 2 / 2 ^ 52} := by simp
    simp only [this]
    rfl

/-! ### Examples -/

/-- A column of decimals: the values are the doubles nearest to 0.1 and 0.3, and 1 / 4 lies between them. -/
example : ∃ d, IsDouble d ∧ fl (1 / 10) < d ∧ d < fl (3 / 10) := by
  refine ⟨1 / 4, ⟨1, -2, by norm_num, by norm_num⟩, ?_, ?_⟩
  · have h := (fl_spec (1 / 10)).2 (1 / 8) ⟨1, -3, by norm_num, by norm_num⟩
    have := (abs_le.1 h).2
    norm_num at this
    linarith
  · have h := (fl_spec (3 / 10)).2 (5 / 16) ⟨5, -4, by norm_num, by norm_num⟩
    have := (abs_le.1 h).1
    norm_num at this
    linarith

/-- Ages and classes: the hypotheses of `codes_separate_int` hold, the ages 30 and 31 get different codes. -/
example : ∃ cuts, fitFloat (fun _ _ k => k) (fun _ _ _ => true) 8 [(20, 0), (30, 0), (31, 1), (40, 1)] = some (.ok cuts) ∧ codeOf cuts 30 < codeOf cuts 31 := by
  obtain ⟨cuts, h1, h2⟩ := codes_separate_int (fun _ _ k => k) (fun _ _ _ => true) [(20, 0), (30, 0), (31, 1), (40, 1)] 8 (by decide) (by
    intro x hx
    simp only [List.mem_cons, List.not_mem_nil, or_false] at hx
    rcases hx with rfl | rfl | rfl | rfl
    · exact ⟨20, by norm_num, by norm_num⟩
    · exact ⟨30, by norm_num, by norm_num⟩
    · exact ⟨31, by norm_num, by norm_num⟩
    · exact ⟨40, by norm_num, by norm_num⟩) 2 (30, 0) (31, 1) ⟨0, 4, .all, by decide, by decide, ⟨by decide, by decide, by decide⟩, rfl, by
      intro j h1 h2 hb
      interval_cases j
      · exact absurd rfl hb.2.2
      · exact ⟨le_rfl, fun h => absurd h (by omega)⟩
      · exact absurd rfl hb.2.2⟩ rfl rfl (by norm_num)
  exact ⟨cuts, h1, h2 30 31 le_rfl le_rfl⟩

end Verif.Mdlp
