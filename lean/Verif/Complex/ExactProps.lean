import Verif.Complex.Props
import Verif.Complex.MoveProps
import Verif.Mine.CompressProps

/-!
# The costs of the code in the search for complex patterns (for C78, C79, C80 and C148)
-/

set_option autoImplicit false
set_option linter.unusedSectionVars false

namespace Verif.Complex

open Verif.PTree Verif.Concat Verif.PattKey Verif.CandPool Verif.DataSeq Verif.Miner Verif.Mine

/-! ### A cycle costs more than one occurrence -/

theorem abs_sum_le' : ∀ l : List ℤ, |l.sum| ≤ (l.map (fun e => |e|)).sum
  | [] => by simp
  | a :: l => by
    rw [List.sum_cons, List.map_cons, List.sum_cons]
    exact (abs_add_le _ _).trans (by have := abs_sum_le' l; omega)

theorem codeLengthE_eq : ∀ l : List ℤ, Cost.codeLengthE l = 2 * (l.length : ℤ) + (l.map (fun e => |e|)).sum
  | [] => by simp [Cost.codeLengthE]
  | a :: l => by
    have h := codeLengthE_eq l
    simp only [Cost.codeLengthE, List.map_cons, List.sum_cons, List.length_cons] at h ⊢
    push_cast
    linarith

/-- The numbers: `k + 1` occurrences, corrections of total size `s` and sum `e`, window `T`. -/
theorem bits_ge (T e s : ℤ) (k : ℕ) (hk : 2 ≤ k) (he : |e| ≤ s) (hq : 0 < (T - e) / (k : ℤ)) (hT : 0 ≤ T) :
    Real.logb 2 ((T + 1 : ℤ) : ℝ) ≤ Real.logb 2 (((T - e) / (k : ℤ) : ℤ) : ℝ) + ((2 * (k : ℤ) + s : ℤ) : ℝ) := by
  have hs : 0 ≤ s := (abs_nonneg e).trans he
  obtain ⟨q, hqe⟩ : ∃ q, q = (T - e) / (k : ℤ) := ⟨_, rfl⟩
  rw [← hqe] at hq ⊢
  have hk0 : (0 : ℤ) < k := by omega
  have h1 : T - e < (q + 1) * k := by
    rw [hqe]
    exact Int.lt_mul_of_ediv_lt hk0 (by omega)
  have h2 : (k : ℤ) + 1 ≤ 2 ^ k := by exact_mod_cast Nat.lt_two_pow_self
  have h3 : s + 1 ≤ 2 ^ s.toNat := by
    have : (s.toNat : ℤ) + 1 ≤ 2 ^ s.toNat := by exact_mod_cast Nat.lt_two_pow_self
    omega
  have h4 : (2 : ℤ) ^ (2 * k) = 2 ^ k * 2 ^ k := by rw [two_mul, pow_add]
  have hle : e ≤ s := (le_abs_self e).trans he
  have h5 : T + 1 ≤ q * (2 ^ (2 * k) * 2 ^ s.toNat) := by
    have a1 : 2 * (k : ℤ) + 1 ≤ 2 ^ (2 * k) := by rw [h4]; nlinarith
    have a2 : (2 * (k : ℤ) + 1) * (s + 1) ≤ 2 ^ (2 * k) * 2 ^ s.toNat := mul_le_mul a1 h3 (by omega) (by positivity)
    have a3 : q * ((2 * (k : ℤ) + 1) * (s + 1)) ≤ q * (2 ^ (2 * k) * 2 ^ s.toNat) := mul_le_mul_of_nonneg_left a2 hq.le
    have a4 : T + 1 ≤ q * ((2 * (k : ℤ) + 1) * (s + 1)) := by
      have b1 : T ≤ (q + 1) * k + s := by omega
      have b2 : (q + 1) * (k : ℤ) ≤ 2 * q * k := by nlinarith
      have b3 : (0 : ℤ) ≤ q * s * (2 * k) := by positivity
      have b4 : s ≤ q * s := by nlinarith
      nlinarith
    exact a4.trans a3
  have h6 : ((T + 1 : ℤ) : ℝ) ≤ ((q * (2 ^ (2 * k) * 2 ^ s.toNat) : ℤ) : ℝ) := by exact_mod_cast h5
  have hT1 : (0 : ℝ) < ((T + 1 : ℤ) : ℝ) := by exact_mod_cast (by omega : 0 < T + 1)
  have hq1 : (0 : ℝ) < (q : ℝ) := by exact_mod_cast hq
  have h7 := Real.logb_le_logb_of_le (b := 2) (by norm_num) hT1 h6
  push_cast at h7
  rw [← pow_add, Real.logb_mul hq1.ne' (by positivity), Real.logb_pow, Real.logb_self_eq_one (by norm_num)] at h7
  have h8 : ((2 * k + s.toNat : ℕ) : ℝ) = ((2 * (k : ℤ) + s : ℤ) : ℝ) := by
    have : (s : ℝ) = ((s.toNat : ℤ) : ℝ) := by rw [Int.toNat_of_nonneg hs]
    push_cast
    rw [this]
    push_cast
    ring
  rw [← h8]
  push_cast at h7 ⊢
  linarith

/-- A cycle of three occurrences or more costs more than one of its occurrences by at least one bit. -/
theorem cycle_ge_one (S : List (ℤ × ℕ)) (D : Cost.Details ℕ) (hD : Cost.IsDetails S D) (a : ℕ) (ha : 0 < Cost.countEv S a) (t0 : ℤ) (l : List ℤ) (hl : 2 ≤ l.length) (v : ℝ) (p' : ℤ)
    (hw : (t0 :: l).getLast (by simp) - t0 ≤ D.deltaT) (h0 : 0 ≤ D.deltaT) (hv : Cost.lengthCycle D (.one a) (t0 :: l) p' false = some v) : Cost.oneBits S D a + 1 ≤ v := by
  have hm : 0 < D.deltaT - (Cost.computeE (t0 :: l) p').sum - p' * (((t0 :: l).length : ℤ) - 1) + 1 := by
    rw [Cost.computeE_sum, List.length_cons]
    push_cast
    have : p' * ((l.length : ℤ) + 1 - 1) = p' * (l.length : ℤ) := by ring
    rw [this]
    omega
  rw [Cost.lengthCycle_eq D _ _ _ (by rw [List.length_cons]; omega) hm] at hv
  have hk : ((t0 :: l).length : ℤ) - 1 = (l.length : ℤ) := by rw [List.length_cons]; push_cast; ring
  rw [hk] at hv hm
  have hpos : (0 : ℝ) < (Cost.countEv S a : ℝ) := by exact_mod_cast ha
  have hlen : (0 : ℝ) < (S.length : ℝ) := by exact_mod_cast ha.trans_le (Cost.countEv_le S a)
  have har : Cost.alphaAndR D (.one a) = some (Real.logb 2 ((S.length : ℝ) / (Cost.countEv S a : ℝ)) + 3 * Real.logb 2 3 + Real.logb 2 (Cost.countEv S a : ℝ)) := by
    simp only [Cost.alphaAndR, Cost.adjFreq, hD.lookup ha, hD.total, Cost.blckDelim, Cost.log2_delim, Option.bind_eq_bind, Option.bind_some, Option.map_some, Option.pure_def]
    rw [Cost.log2, if_pos (by positivity), Cost.log2, if_pos hpos]
    simp only [Option.bind_some, Option.some.injEq]
    rw [Real.logb_div hpos.ne' (by positivity), Real.logb_mul (by norm_num) hlen.ne', Real.logb_div hlen.ne' hpos.ne']
    ring
  rw [har, Option.bind_some] at hv
  by_cases hq : 0 < (D.deltaT - (Cost.computeE (t0 :: l) p').sum) / (l.length : ℤ)
  · rw [Cost.log2_some hq, Option.bind_some, Option.some.injEq] at hv
    have hb := bits_ge D.deltaT (Cost.computeE (t0 :: l) p').sum _ l.length hl (abs_sum_le' _) hq h0
    rw [codeLengthE_eq, Cost.computeE_len] at hv
    have hm1 : 0 ≤ Real.logb 2 ((D.deltaT - (Cost.computeE (t0 :: l) p').sum - p' * (l.length : ℤ) + 1 : ℤ) : ℝ) := Real.logb_nonneg (by norm_num) (by exact_mod_cast hm)
    have hn1 : 0 ≤ Real.logb 2 (Cost.countEv S a : ℝ) := Real.logb_nonneg (by norm_num) (by exact_mod_cast ha)
    have h3 : (1 : ℝ) ≤ Real.logb 2 3 := by
      rw [Real.le_logb_iff_rpow_le (by norm_num) (by norm_num)]; norm_num
    have hone : Cost.oneBits S D a = Real.logb 2 ((S.length : ℝ) / (Cost.countEv S a : ℝ)) + Real.logb 2 ((D.deltaT + 1 : ℤ) : ℝ) := rfl
    rw [hone, ← hv]
    linarith
  · rw [Cost.log2, if_neg (by exact_mod_cast hq)] at hv
    cases hv

/-- Every simple cycle found with the costs of the code costs at least as much as one of its occurrences. -/
theorem found_ge_one (S : List (ℤ × ℕ)) (D : Cost.Details ℕ) (hD : Cost.IsDetails S D) (u : ℝ) (maxP : Option ℤ) (a : ℕ) (seq : List ℤ) (hseq : seq.Pairwise (· < ·)) (hS : ∀ t ∈ seq, (t, a) ∈ S) (c : Cyc ℝ)
    (hg : Good seq c) (hp : Priced (exactCosts u maxP D a) c) : ∃ one, Cost.costOne D a = some one ∧ 0 < one ∧ one ≤ c.cost := by
  obtain ⟨t0, l, hO⟩ : ∃ t0 l, c.occs = t0 :: l := by
    cases h : c.occs with
    | nil => have := hg.2.1; rw [h] at this; simp at this
    | cons t0 l => exact ⟨t0, l, rfl⟩
  have hl : 2 ≤ l.length := by have := hg.2.1; rw [hO, List.length_cons] at this; omega
  obtain ⟨q, hq⟩ : ∃ q, simplePatt a c.occs c.p = some q := by rw [hO]; exact ⟨_, rfl⟩
  obtain ⟨-, v, hv, hle⟩ := cyc_cost S D hD u maxP a seq hseq hS c hg hp q hq
  have hsort := hseq.sublist hg.1
  have hin : ∀ t ∈ t0 :: l, (t, a) ∈ S := fun t ht => hS t (hg.1.subset (hO ▸ ht))
  have ha : 0 < Cost.countEv S a := List.count_pos_iff.2 (List.mem_map.2 ⟨_, hin t0 List.mem_cons_self, rfl⟩)
  have h0 := hD.window _ (hin t0 List.mem_cons_self)
  have h1 := hD.window _ (hin _ (List.getLast_mem (by simp : t0 :: l ≠ [])))
  have hlt : t0 < (t0 :: l).getLast (by simp) := by
    rw [hO, List.pairwise_cons] at hsort
    have hne : l ≠ [] := by intro e; rw [e] at hl; simp at hl
    rw [List.getLast_cons hne]
    exact hsort.1 _ (List.getLast_mem hne)
  simp only at h0 h1
  have hw : (t0 :: l).getLast (by simp) - t0 ≤ D.deltaT := by unfold Cost.Details.deltaT; omega
  have hcyc : Cost.lengthCycle D (.one a) (t0 :: l) c.p false = some v := by
    rw [← hv]
    have hqe : q = (Cost.cycle (l.length + 1) c.p a, t0, Cost.computeE (t0 :: l) c.p) := by
      rw [hO] at hq
      simp only [simplePatt, List.head?_cons, Option.map_some, Option.some.injEq] at hq
      rw [← hq, computeE_same]
      rfl
    rw [hqe]
    exact (Cost.cost_cycle D a _ (hD.lookup ha) t0 l (by intro e; rw [e] at hl; simp at hl) c.p hw).symm
  have hge := cycle_ge_one S D hD a ha t0 l hl v c.p hw (by omega) hcyc
  refine ⟨_, Cost.costOne_ok hD ha, ?_, ?_⟩
  · have hpos : (0 : ℝ) < (Cost.countEv S a : ℝ) := by exact_mod_cast ha
    have e1 : 0 ≤ Real.logb 2 ((S.length : ℝ) / (Cost.countEv S a : ℝ)) :=
      Real.logb_nonneg (by norm_num) (by rw [le_div_iff₀ hpos, one_mul]; exact_mod_cast Cost.countEv_le S a)
    have e2 : 0 < Real.logb 2 ((D.tEnd - D.tStart + 1 : ℤ) : ℝ) := Real.logb_pos (by norm_num) (by exact_mod_cast (by omega : 1 < D.tEnd - D.tStart + 1))
    unfold Cost.oneBits
    linarith
  · split at hle <;> linarith

open Classical in
/-- The costs of the code meet what is asked in C78, C79 and C80. -/
theorem exact_worldOk {ε : Type} [LinearOrder ε] (u : ℝ) (maxP : Option ℤ) (auto : Bool) (rows : List (ℤ × ε)) (h : rows.Pairwise (fun a b => a.1 ≤ b.1)) (m : Fitted ε) (hm : fitData auto rows = .ok m)
    (tup : AnyCand → Cost.Alpha ℕ) (first : List (PC ℝ) → ℕ → List Char → ℕ) (fuel : ℕ) (hf : turns m.data ≤ fuel) :
    WorldOk (exactWorld u (details m.data) tup first) (exactCosts u maxP (details m.data)) fuel m.data := by
  obtain ⟨m', hm', hd⟩ := Mine.fitData_dataOk auto rows h
  rw [hm] at hm'
  obtain rfl : m = m' := by injection hm'
  obtain ⟨seq, hseq⟩ := fitData_ofList auto rows m hm
  obtain ⟨d', hd', hD, -⟩ := Cost.details_ok seq
  rw [hseq] at hd'
  obtain rfl : m.data = d' := Except.ok.inj hd'
  refine ⟨?_, ?_, ?_⟩
  · intro l
    exact ⟨_, _, _, fun x => List.perm_insertionSort _ x, rfl⟩
  · intro a ha out hout c hc
    have hlen := (turns_ok m.data a).trans hf
    obtain ⟨cycles, out', k1, k2, k3, k4, -⟩ := mineAlpha_sound (exactCosts u maxP (details m.data) a) fuel a (getSequence m.data a) (hd.1 a) hlen
    rw [hout] at k2
    obtain rfl := Option.some.inj k2
    obtain ⟨cycles', p1, p2⟩ := merged_priced (exactCosts u maxP (details m.data) a) fuel (getSequence m.data a) (hd.1 a) hlen
    rw [k1] at p1
    obtain rfl := Option.some.inj p1
    obtain ⟨one, o1, o2, o3⟩ := found_ge_one m.data.seql (details m.data) hD u maxP a (getSequence m.data a) (hd.1 a) (hd.2.1 a) c (k4 c (k3 c hc)) (p2 c (k3 c hc))
    have e : (exactWorld u (details m.data) tup first).floor (ofCyc a c) = ⌊c.cost / (Cost.costOne (details m.data) a).getD u⌋ := by
      simp only [exactWorld, ofCyc, Int.toNat_natCast]
    rw [e, o1, Option.getD_some, Int.le_floor]
    push_cast
    rw [le_div_iff₀ o2, one_mul]
    exact o3
  · intro a ha
    have hk := hd.2.2 a ha
    have : ∀ nb : List (ℕ × ℕ), a ∈ nb.map Prod.fst → ((nb.map (fun e => ((e.1 : ℤ), (Cost.costOne (details m.data) e.1).getD u))).lookup (a : ℤ)).isSome := by
      intro nb
      induction nb with
      | nil => simp
      | cons e nb ih =>
        intro hmem
        rw [List.map_cons, List.lookup_cons]
        by_cases he : a = e.1
        · simp [he]
        · have : ((a : ℤ) == (e.1 : ℤ)) = false := by simpa using he
          rw [this]
          exact ih (by simpa [he] using hmem)
    exact this _ hk

/-! ### C78, C79 and C80 with the costs of the code -/

section

variable {ε : Type} [LinearOrder ε]

/-- C78 with the costs of the code: nothing is asked of them any more. -/
theorem fit_complex_candidates_exact (auto : Bool) (rows : List (ℤ × ε)) (h : rows.Pairwise (fun a b => a.1 ≤ b.1)) :
    ∃ m, fitData auto rows = .ok m ∧ ∃ F, ∀ fuel, F ≤ fuel → ∀ (u : ℝ) (maxP : Option ℤ) (tup : AnyCand → Cost.Alpha ℕ) (first : List (PC ℝ) → ℕ → List Char → ℕ) (Q : ℕ → Orders), (∀ i, OrdersOk (Q i)) →
      ∀ n, ∃ s ps sel, mineComplex (exactWorld u (details m.data) tup first) (exactCosts u maxP (details m.data)) Q fuel n m.data = some (s, ps) ∧ (∀ e ∈ s.pool.candidates, InData (InSeql m.data.seql) e.2.cand.toCand) ∧
        sel.mapM (fun i => (s.pool.candidates.lookup i).bind (fun c => toPatt c.cand)) = some ps ∧ sel.Nodup ∧
        Select.EfficientCover (candsOf s.pool.candidates) (exactWorld u (details m.data) tup first).dcosts Prod.snd 3 sel := by
  obtain ⟨m, hm, F, hF⟩ := fit_complex_candidates auto rows h
  refine ⟨m, hm, max F (turns m.data), ?_⟩
  intro fuel hf u maxP tup first Q hQ n
  exact hF fuel ((le_max_left _ _).trans hf) _ _ Q (exact_worldOk u maxP auto rows h m hm tup first fuel ((le_max_right _ _).trans hf)) hQ n

/-- C79 with the costs of the code, for at most one round of combinations. The full statement has no bound on the number of rounds; for two it fails with other costs (`fit_complex_wrong`). -/
theorem fit_complex_lossless_exact_partial (auto : Bool) (rows : List (ℤ × ε)) (h : rows.Pairwise (fun a b => a.1 ≤ b.1)) :
    ∃ m, fitData auto rows = .ok m ∧ ∃ F, ∀ fuel, F ≤ fuel → ∀ (u : ℝ) (maxP : Option ℤ) (tup : AnyCand → Cost.Alpha ℕ) (first : List (PC ℝ) → ℕ → List Char → ℕ) (Q : ℕ → Orders), (∀ i, OrdersOk (Q i)) →
      ∀ n ≤ 1, ∃ s ps, mineComplex (exactWorld u (details m.data) tup first) (exactCosts u maxP (details m.data)) Q fuel n m.data = some (s, ps) ∧ FromData m.data.seql ps ∧
      (ps ≠ [] → SomeResidual m.data.seql ps → ∀ enum srt, Enumerates enum → Sorts srt →
        ∃ R L, reconstructed srt m ps = some R ∧ residuals enum srt m ps = some L ∧ (R ++ L).Nodup ∧ ∀ r, r ∈ R ∨ r ∈ L ↔ r ∈ rows) := by
  obtain ⟨m, hm, F, hF⟩ := fit_complex_lossless_partial auto rows h
  refine ⟨m, hm, max F (turns m.data), ?_⟩
  intro fuel hf u maxP tup first Q hQ n hn
  exact hF fuel ((le_max_left _ _).trans hf) _ _ Q (exact_worldOk u maxP auto rows h m hm tup first fuel ((le_max_right _ _).trans hf)) hQ n hn

/-- C80 with the costs of the code. -/
theorem fit_complex_terminates_exact (auto : Bool) (rows : List (ℤ × ε)) (h : rows.Pairwise (fun a b => a.1 ≤ b.1)) :
    ∃ m, fitData auto rows = .ok m ∧ ∃ F N, ∀ fuel, F ≤ fuel → ∀ (u : ℝ) (maxP : Option ℤ) (tup : AnyCand → Cost.Alpha ℕ) (first : List (PC ℝ) → ℕ → List Char → ℕ) (Q : ℕ → Orders), (∀ i, OrdersOk (Q i)) →
      ∃ s ps, s.pool.newCids = [] ∧ ∀ n, N ≤ n → mineComplex (exactWorld u (details m.data) tup first) (exactCosts u maxP (details m.data)) Q fuel n m.data = some (s, ps) := by
  obtain ⟨m, hm, F, N, hF⟩ := fit_complex_terminates auto rows h
  refine ⟨m, hm, max F (turns m.data), N, ?_⟩
  intro fuel hf u maxP tup first Q hQ
  exact hF fuel ((le_max_left _ _).trans hf) _ _ Q (exact_worldOk u maxP auto rows h m hm tup first fuel ((le_max_right _ _).trans hf)) hQ

/-- The hypotheses hold for the series of `fit_complex_wrong` with orders that enumerate sets upwards. -/
example : ∃ m, fitData false exRows = .ok m ∧ ∃ F N, ∀ fuel, F ≤ fuel → ∃ s ps, s.pool.newCids = [] ∧
    ∀ n, N ≤ n → mineComplex (exactWorld 0 (details m.data) (fun _ => .many []) (fun _ _ _ => 0)) (exactCosts 0 none (details m.data)) (fun _ => exQ) fuel n m.data = some (s, ps) := by
  obtain ⟨m, hm, F, N, h⟩ := fit_complex_terminates_exact false exRows exRows_sorted
  exact ⟨m, hm, F, N, fun fuel hf => h fuel hf 0 none _ _ (fun _ => exQ) (fun _ => exQ_ok)⟩

end

end Verif.Complex
