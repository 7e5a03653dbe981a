import Verif.Mine.CompressLemmas

/-!
# What the patterns of the simple miner save (C146)

Source: `/repo/skmine/periodic/pattern_collection.py:146-154` (the code length of the patterns and of what they leave over), `/repo/skmine/periodic/data_sequence.py:123-127` (the code length without patterns), `/repo/skmine/periodic/run_mine.py:196-253` and `703-756`
(recorded costs and selection). Costs are exact real numbers.
-/

set_option autoImplicit false
set_option linter.unusedSectionVars false

namespace Verif.Mine

open Verif.DataSeq Verif.CandPool Verif.Miner Verif.PTree

/-- Specification: three occurrences whose two distances differ by more than one. -/
def uneven : List (ℤ × ℕ) → Bool
  | [x, y, z] => decide (1 < |(z.1 - y.1) - (y.1 - x.1)|)
  | _ => false

theorem computeE_same : ∀ (l : List ℤ) (p : ℤ), Miner.computeE l p = Cost.computeE l p
  | [], _ => rfl
  | [_], _ => rfl
  | a :: b :: l, p => by
    have h := computeE_same (b :: l) p
    simp only [Miner.computeE, Cost.computeE, diff, List.map_cons] at h ⊢
    rw [h]

theorem period_pos (l : List ℤ) (hl : l.Pairwise (· < ·)) (h2 : 2 ≤ l.length) (p : ℤ) (hp : computePeriod l = some p) : 1 ≤ p := by
  obtain ⟨p', e, ⟨lo, hi, h3, h4, h5⟩, -⟩ := computePeriod_optimal l h2
  rw [hp] at e
  cases e
  have a0 := (Complex.mem_gaps l hl lo h3.1).1
  have b0 := (Complex.mem_gaps l hl hi h4.1).1
  omega

/-- What is missing in the cost recorded for a triple is at most one bit, and nothing if the distances are the same or follow each other. -/
theorem slack_le (T e r : ℤ) (u : ℝ) (he : 0 ≤ e) (hr : 0 ≤ r) (hre : r ≤ e) (hpar : e ≤ 1 → e = r) (hpos : 0 < (T - e) / 2) (hsm : (e : ℝ) < (Cost.log2 ((T + 1 : ℤ) : ℝ)).getD u - 2) :
    Real.logb 2 (((T - r) / 2 : ℤ) : ℝ) - Real.logb 2 (((T - e) / 2 : ℤ) : ℝ) ≤ if 1 < e then 1 else 0 := by
  have hp : (0 : ℝ) < (((T - e) / 2 : ℤ) : ℝ) := by exact_mod_cast hpos
  split
  · have hT : (0 : ℝ) < ((T + 1 : ℤ) : ℝ) := by exact_mod_cast (by omega : 0 < T + 1)
    rw [log2_pos _ hT, Option.getD_some] at hsm
    have h1 : ((e : ℝ) + 2) < Real.logb 2 ((T + 1 : ℤ) : ℝ) := by linarith
    rw [Real.lt_logb_iff_rpow_lt (by norm_num) hT] at h1
    have h2 : (2 : ℝ) ^ ((e : ℝ) + 2) = ((2 ^ (e.toNat + 2) : ℤ) : ℝ) := by
      have : (e : ℝ) + 2 = ((e.toNat + 2 : ℕ) : ℝ) := by
        have : (e : ℝ) = ((e.toNat : ℤ) : ℝ) := by rw [Int.toNat_of_nonneg he]
        rw [this]; push_cast; ring
      rw [this, Real.rpow_natCast]
      push_cast
      ring
    rw [h2] at h1
    have h3 : (2 : ℤ) ^ (e.toNat + 2) < T + 1 := by exact_mod_cast h1
    have h4 : (e.toNat : ℤ) + 1 ≤ 2 ^ e.toNat := by exact_mod_cast Nat.lt_two_pow_self
    rw [pow_add, Int.toNat_of_nonneg he] at *
    have h5 : (T - r) / 2 ≤ 2 * ((T - e) / 2) := by omega
    have h6 : (0 : ℤ) < (T - r) / 2 := by omega
    have h7 : Real.logb 2 (((T - r) / 2 : ℤ) : ℝ) ≤ Real.logb 2 (2 * (((T - e) / 2 : ℤ) : ℝ)) :=
      Real.logb_le_logb_of_le (by norm_num) (by exact_mod_cast h6) (by exact_mod_cast h5)
    rw [Real.logb_mul (by norm_num) hp.ne', Real.logb_self_eq_one (by norm_num)] at h7
    linarith
  · rw [hpar (by omega), sub_self]

/-- The code length of the pattern of a candidate against the cost recorded for the candidate. -/
theorem cyc_cost (S : List (ℤ × ℕ)) (D : Cost.Details ℕ) (hD : Cost.IsDetails S D) (u : ℝ) (maxP : Option ℤ) (a : ℕ) (seq : List ℤ) (hseq : seq.Pairwise (· < ·)) (hS : ∀ t ∈ seq, (t, a) ∈ S) (c : Cyc ℝ)
    (hg : Good seq c) (hp : Priced (exactCosts u maxP D a) c) (q : Patt) (hq : simplePatt a c.occs c.p = some q) :
    Cost.Fitted S q ∧ ∃ v, Cost.codeLength q.1 q.2.1 (some q.2.2) D = some v ∧ v ≤ c.cost + if uneven (c.occs.map (fun t => (t, a))) then 1 else 0 := by
  obtain ⟨O, p, cost⟩ := c
  obtain ⟨hsub, hlen, hper⟩ := hg
  simp only at hsub hlen hper hq
  have hO := hseq.sublist hsub
  have hin : ∀ t ∈ O, (t, a) ∈ S := fun t ht => hS t (hsub.subset ht)
  have hp1 := period_pos O hO (by omega) p hper
  obtain ⟨q', hq', hcov⟩ := simple_covers a O (by intro e; rw [e] at hlen; simp at hlen) p
  rw [hq] at hq'
  obtain rfl := Option.some.inj hq'
  obtain ⟨t0, l, rfl⟩ : ∃ t0 l, O = t0 :: l := by
    cases O with
    | nil => simp at hlen
    | cons t0 l => exact ⟨t0, l, rfl⟩
  have hl : l ≠ [] := by intro e; rw [e] at hlen; simp at hlen
  have hqe : q = (Cost.cycle (l.length + 1) p a, t0, Cost.computeE (t0 :: l) p) := by
    simp only [simplePatt, List.head?_cons, Option.map_some, Option.some.injEq] at hq
    rw [← hq, computeE_same]
    rfl
  have hfit : Cost.Fitted S q := by
    refine ⟨by rw [hqe]; exact ⟨_, _, _, rfl⟩, ?_, ?_, ?_, _, hcov, ?_, ?_⟩
    · rw [hqe]; simp [Tree.Regular, Forest.Regular, Forest.NonEmpty, Forest.firstDist]
    · rw [hqe]
      simp only [List.length_cons] at hlen
      simp [Cost.Proper, Cost.ProperF, hp1]
      omega
    · rw [hqe]
      simp [Cost.computeE_len, nbOccs, nbOccsF]
    · exact List.Nodup.map (fun x y h => (Prod.mk.inj h).1) (hO.imp (fun h => ne_of_lt h) : (t0 :: l).Nodup)
    · intro x hx
      obtain ⟨t, ht, rfl⟩ := List.mem_map.1 hx
      exact hin t ht
  refine ⟨hfit, ?_⟩
  obtain ⟨v, hv, -⟩ := Cost.cost_nonneg S D hD q hfit
  refine ⟨v, hv, ?_⟩
  have h0 := hD.window _ (hin t0 List.mem_cons_self)
  have h1 := hD.window _ (hin _ (List.getLast_mem (by simp : t0 :: l ≠ [])))
  simp only at h0 h1
  have ha : 0 < Cost.countEv S a := List.count_pos_iff.2 (List.mem_map.2 ⟨_, hin t0 List.mem_cons_self, rfl⟩)
  have hcyc : Cost.lengthCycle D (.one a) (t0 :: l) p false = some v := by
    rw [← hv, hqe]
    exact (Cost.cost_cycle D a _ (hD.lookup ha) t0 l hl p (by unfold Cost.Details.deltaT; omega)).symm
  have hnone : Cost.lengthCycleNone D (.one a) (t0 :: l) = some v := by rw [Cost.lengthCycleNone, hper]; exact hcyc
  rcases hp with hp | ⟨x, y, z, e, hsm, hp⟩
  · simp only [exactCosts, hnone, Option.getD_some] at hp
    rw [← hp]
    split <;> simp
  · simp only at e
    rw [List.cons.injEq] at e
    obtain ⟨rfl, rfl⟩ := e
    simp only [List.pairwise_cons, List.mem_cons, List.not_mem_nil, or_false, forall_eq_or_imp, forall_eq] at hO
    have h01 : t0 < y := hO.1.1
    have h12 : y < z := hO.2.1
    simp only [List.getLast_cons_cons, List.getLast_singleton] at h1
    obtain ⟨ar, har⟩ : ∃ ar, Cost.alphaAndR D (.one a) = some ar := by
      cases h : Cost.alphaAndR D (.one a) with
      | some ar => exact ⟨ar, rfl⟩
      | none => rw [Cost.lengthCycle, h] at hcyc; cases hcyc
    obtain ⟨w, w1, w2, -⟩ := Cost.cost_triple_gap D (.one a) ar har t0 y z h01 h12 (by unfold Cost.Details.deltaT; omega)
    rw [hnone, Option.some.injEq] at w2
    simp only [exactCosts, w1, Option.getD_some] at hp
    simp only [exactCosts, decide_eq_true_eq] at hsm
    have habs : |z - y - (y - t0)| ≤ z - t0 - 2 := by rw [abs_le]; constructor <;> omega
    have hmod : (z - t0) % 2 ≤ |z - y - (y - t0)| ∧ (|z - y - (y - t0)| ≤ 1 → |z - y - (y - t0)| = (z - t0) % 2) := by
      rcases abs_cases (z - y - (y - t0)) with h | h <;> omega
    have hs := slack_le D.deltaT |z - y - (y - t0)| ((z - t0) % 2) u (abs_nonneg _) (by omega) hmod.1 hmod.2 (by unfold Cost.Details.deltaT; omega) hsm
    simp only [List.map_cons, List.map_nil, uneven, decide_eq_true_eq]
    rw [hp, w2]
    linarith

theorem fitData_ofList {ε : Type} [LinearOrder ε] (auto : Bool) (rows : List (ℤ × ε)) (m : Fitted ε) (h : fitData auto rows = .ok m) : ∃ seq, ofList seq = .ok m.data := by
  have key : ∀ (seq : List (ℤ × ε)) (n d : ℕ), (ofList seq).map (fun b => (⟨b, n, d⟩ : Fitted ε)) = .ok m → ∃ seq, ofList seq = .ok m.data := by
    intro seq n d h
    cases hs : ofList seq with
    | error e => rw [hs] at h; cases h
    | ok b =>
      rw [hs] at h
      cases h
      exact ⟨seq, hs⟩
  unfold fitData at h
  cases auto with
  | false => exact key _ _ _ h
  | true => exact key _ _ _ h

section Main

variable {ε R κ : Type} [LinearOrder ε] [LinearOrder κ]

/-- C146, what holds without condition: with the costs of the code (exact real numbers), the patterns of the simple miner and what they leave over cost less than the data without patterns, up to one bit for each pattern of three occurrences whose distances differ by more than one.
If there is a pattern, strictly less. -/
theorem compress_bits (rws : (ℕ × Cyc ℝ) → ℕ → ℕ → Bool → List R) (rk : R → κ) (u : ℝ) (maxP : Option ℤ) (auto : Bool) (rows : List (ℤ × ε)) (h : rows.Pairwise (fun a b => a.1 ≤ b.1)) :
    ∃ m, fitData auto rows = .ok m ∧ ∃ F, ∀ fuel, F ≤ fuel → ∃ ps ls,
      mineSimple rws rk (exactCosts u maxP (details m.data)) (fun a => (Cost.costOne (details m.data) a).getD u) fuel m.data = some ps ∧ occLists ps = some ls ∧
      ∀ enum, Enumerates enum → ∃ total only, Cost.collectionCost enum m.data ps = some total ∧ Cost.residualsOnly m.data = some only ∧
        total ≤ only + (ls.countP uneven : ℕ) ∧ (ps ≠ [] → total < only + (ls.countP uneven : ℕ)) := by
  obtain ⟨m, hm, hd⟩ := fitData_dataOk auto rows h
  obtain ⟨m', hm', hnd, -⟩ := fitData_ok auto rows
  rw [hm] at hm'
  obtain rfl : m = m' := by injection hm'
  obtain ⟨seq, hseq⟩ := fitData_ofList auto rows m hm
  refine ⟨m, hm, (m.data.seqd.map (fun e => e.2.length)).sum + 2, ?_⟩
  intro fuel hF
  have hf : ∀ k, (getSequence m.data k).length + 2 ≤ fuel := by
    intro k
    unfold getSequence
    cases hlk : m.data.seqd.lookup k with
    | none => simp; omega
    | some ts =>
      have := List.le_sum_of_mem (List.mem_map.2 ⟨(k, ts), lookup_mem' hlk, rfl⟩ : ts.length ∈ m.data.seqd.map (fun e => e.2.length))
      rw [Option.getD_some]
      omega
  obtain ⟨ps, cyc, p1, p2, p3, p4, p5, p6⟩ := mineSimple_priced rws rk (exactCosts u maxP (details m.data)) (fun a => (Cost.costOne (details m.data) a).getD u) fuel m.data hd hf
  refine ⟨ps, _, p1, p3, ?_⟩
  intro enum he
  obtain ⟨d', hd', hD, -⟩ := Cost.details_ok seq
  rw [hseq] at hd'
  obtain rfl : m.data = d' := Except.ok.inj hd'
  have hmap := (mapM_iff _ cyc ps).1 p2
  have hq : ∀ c ∈ cyc, ∀ q, simplePatt c.1 c.2.occs c.2.p = some q → Cost.Fitted m.data.seql q ∧
      ∃ v, Cost.codeLength q.1 q.2.1 (some q.2.2) (Cost.detailsOf m.data) = some v ∧ v ≤ c.2.cost + if uneven (c.2.occs.map (fun t => (t, c.1))) then 1 else 0 := by
    intro c hc q hq
    obtain ⟨-, g2, g3⟩ := p4 c hc
    exact cyc_cost m.data.seql (Cost.detailsOf m.data) hD u maxP c.1 (getSequence m.data c.1) (hd.1 c.1) (hd.2.1 c.1) c.2 g2 g3 q hq
  have hfit : ∀ z ∈ ps, Cost.Fitted m.data.seql z := by
    intro z hz
    obtain ⟨c, hc, e⟩ := (mem_mapM p2 z).1 hz
    exact (hq c hc z e).1
  obtain ⟨cl, U, hcl, hU, hT⟩ := Cost.collection_cost seq enum he m.data hseq ps hfit
  have hO := Cost.residuals_only seq m.data hseq
  refine ⟨_, _, hT, hO, ?_⟩
  -- the patterns
  have hsum : ∀ (cs : List (ℕ × Cyc ℝ)) (zs : List Patt), cs.map (fun c => simplePatt c.1 c.2.occs c.2.p) = zs.map some → (∀ c ∈ cs, c ∈ cyc) → (∀ z ∈ zs, z ∈ ps) →
      (zs.map cl).sum ≤ (cs.map (fun c => c.2.cost)).sum + ((cs.map (fun c => c.2.occs.map (fun t => (t, c.1)))).countP uneven : ℕ) := by
    intro cs
    induction cs with
    | nil =>
      intro zs hz _ _
      have : zs = [] := by simpa using hz.symm
      rw [this]; simp
    | cons c cs ih =>
      intro zs hz h1 h2
      cases zs with
      | nil => simp at hz
      | cons z zs =>
        simp only [List.map_cons, List.cons.injEq] at hz
        have hi := ih zs hz.2 (fun x hx => h1 x (List.mem_cons_of_mem _ hx)) (fun x hx => h2 x (List.mem_cons_of_mem _ hx))
        obtain ⟨-, v, hv, hle⟩ := hq c (h1 c List.mem_cons_self) z hz.1
        rw [hcl z (h2 z List.mem_cons_self), Option.some.injEq] at hv
        simp only [List.map_cons, List.sum_cons, List.countP_cons]
        rw [hv]
        push_cast
        split at hle
        · rename_i hb; rw [if_pos hb]; push_cast; linarith
        · rename_i hb; rw [if_neg hb]; push_cast; linarith
  have hS := hsum cyc ps hmap (fun _ h => h) (fun _ h => h)
  -- the occurrences
  obtain ⟨V, hV⟩ : ∃ V, V = (cyc.flatMap (fun c => c.2.occs.map (fun t => (t, c.1)))).toFinset := ⟨_, rfl⟩
  rw [← hV] at p5 p6
  have hVmem : ∀ x, x ∈ V ↔ ∃ z ∈ ps, ∃ cov, PTree.getCovSeq z.1 z.2.1 z.2.2 = some cov ∧ x ∈ cov := by
    intro x
    rw [hV, List.mem_toFinset, List.mem_flatMap]
    have hlong : ∀ c ∈ cyc, c.2.occs ≠ [] := by
      intro c hc e
      have := (p4 c hc).2.1.2.1
      rw [e] at this
      simp at this
    constructor
    · rintro ⟨c, hc, hx⟩
      obtain ⟨q, hq1, hq2⟩ := simple_covers c.1 c.2.occs (hlong c hc) c.2.p
      exact ⟨q, (mem_mapM p2 q).2 ⟨c, hc, hq1⟩, _, hq2, hx⟩
    · rintro ⟨z, hz, cov, hcov, hx⟩
      obtain ⟨c, hc, e⟩ := (mem_mapM p2 z).1 hz
      obtain ⟨q, hq1, hq2⟩ := simple_covers c.1 c.2.occs (hlong c hc) c.2.p
      rw [e] at hq1
      obtain rfl := Option.some.inj hq1
      rw [hcov] at hq2
      obtain rfl := Option.some.inj hq2
      exact ⟨c, hc, hx⟩
  have hVsub : ∀ x ∈ V, x ∈ m.data.seql := by
    intro x hx
    obtain ⟨z, hz, cov, hcov, hx⟩ := (hVmem x).1 hx
    obtain ⟨cov', h1, -, h2⟩ := (hfit z hz).occs
    rw [hcov] at h1
    obtain rfl := Option.some.inj h1
    exact h2 x hx
  have hone : ∑ o ∈ V, (Cost.costOne (details m.data) o.2).getD u = ∑ o ∈ V, Cost.oneBits m.data.seql (Cost.detailsOf m.data) o.2 := by
    refine Finset.sum_congr rfl ?_
    intro o ho
    have : Cost.costOne (details m.data) o.2 = _ := Cost.costOne_ok hD (List.count_pos_iff.2 (List.mem_map.2 ⟨o, hVsub o ho, rfl⟩))
    rw [this, Option.getD_some]
  rw [hone] at p5 p6
  have hUV : U = m.data.seql.toFinset \ V := by
    ext x
    rw [hU, Finset.mem_sdiff, List.mem_toFinset, hVmem]
    refine and_congr_right (fun _ => ?_)
    constructor
    · rintro h1 ⟨z, hz, cov, hcov, hx⟩
      exact h1 z hz cov hcov hx
    · intro h1 z hz cov hcov hx
      exact h1 ⟨z, hz, cov, hcov, hx⟩
  have htot : (m.data.seql.map (fun x => Cost.oneBits m.data.seql (Cost.detailsOf m.data) x.2)).sum = ∑ x ∈ U, Cost.oneBits m.data.seql (Cost.detailsOf m.data) x.2 + ∑ x ∈ V, Cost.oneBits m.data.seql (Cost.detailsOf m.data) x.2 := by
    rw [← List.sum_toFinset _ hnd, hUV]
    exact (Finset.sum_sdiff (fun x hx => List.mem_toFinset.2 (hVsub x hx))).symm
  rw [htot]
  constructor
  · linarith
  · intro hne
    have : cyc ≠ [] := by
      intro e
      rw [e] at hmap
      exact hne (by simpa using hmap.symm)
    have := p6 this
    linarith

/-- C146. With the costs of the code (exact real numbers), the patterns of the simple miner and what they leave over never cost more than the data without patterns, and cost less if there is a pattern: provided no pattern stands for exactly three occurrences at distances that differ by more than one.
The full statement has no such condition; see `compression_fails`. -/
theorem compress_partial (rws : (ℕ × Cyc ℝ) → ℕ → ℕ → Bool → List R) (rk : R → κ) (u : ℝ) (maxP : Option ℤ) (auto : Bool) (rows : List (ℤ × ε)) (h : rows.Pairwise (fun a b => a.1 ≤ b.1)) :
    ∃ m, fitData auto rows = .ok m ∧ ∃ F, ∀ fuel, F ≤ fuel → ∃ ps ls,
      mineSimple rws rk (exactCosts u maxP (details m.data)) (fun a => (Cost.costOne (details m.data) a).getD u) fuel m.data = some ps ∧ occLists ps = some ls ∧
      ((∀ l ∈ ls, ¬ uneven l) → ∀ enum, Enumerates enum → ∃ total only, Cost.collectionCost enum m.data ps = some total ∧ Cost.residualsOnly m.data = some only ∧
        total ≤ only ∧ (ps ≠ [] → total < only)) := by
  obtain ⟨m, hm, F, hF⟩ := compress_bits rws rk u maxP auto rows h
  refine ⟨m, hm, F, fun fuel hf => ?_⟩
  obtain ⟨ps, ls, h1, h2, h3⟩ := hF fuel hf
  refine ⟨ps, ls, h1, h2, fun hu enum he => ?_⟩
  obtain ⟨total, only, t1, t2, t3, t4⟩ := h3 enum he
  have : ls.countP uneven = 0 := by rw [List.countP_eq_zero]; exact hu
  rw [this, Nat.cast_zero, add_zero] at t3 t4
  exact ⟨total, only, t1, t2, t3, t4⟩

end Main

/-! ### Three occurrences at distances 48 and 52 -/

theorem fold_off (P : Fold.Par) (h1 : P.maxP = none) (h2 : P.small 4 = true) (h3 : P.effTrip 4 48 = true) : Fold.extractFold P 20 [0, 48, 100] = some ([], [(4, 48, [0, 1, 2])]) := by
  have c1 : Fold.center P 20 [0, 48, 100] ⟨[], [], [], []⟩ 1 = some ⟨[((1, 2), (4, 48, 0))], [], [], []⟩ := by
    have e1 : Fold.aft P [0, 48, 100] 1 = [52] := by simp [Fold.aft, h1]
    have e2 : Fold.bef P [0, 48, 100] 1 = [-48] := by simp [Fold.bef, h1]
    have e3 : Fold.scan P 20 [52] [-48] 3 0 0 [] = some [(0, 0)] := by
      have h0 : P.small |(52 : ℤ) + -48| = true := h2
      rw [Fold.scan]
      simp only [List.getElem?_cons_zero, h0]
      rw [show Fold.scan P 20 [52] [-48] 2 (0 + 1) (0 + 1) = fun _ => some [] from by funext x; rfl]
      rfl
    unfold Fold.center
    rw [e1, e2]
    simp only [List.length_singleton]
    rw [e3]
    rfl
  have c2 : ∀ s, Fold.center P 20 [0, 48, 100] s 2 = some s := by
    intro s
    have e1 : Fold.aft P [0, 48, 100] 2 = [] := by simp [Fold.aft, h1]
    unfold Fold.center
    rw [e1]
    rfl
  have c3 : Fold.centers P 20 [0, 48, 100] = some ⟨[((1, 2), (4, 48, 0))], [], [], [((1, 2), (4, 48, 0))]⟩ := by
    unfold Fold.centers
    change (([1, 2] : List ℕ).foldlM (Fold.center P 20 [0, 48, 100]) ⟨[], [], [], []⟩).map _ = _
    simp only [List.foldlM_cons, c1, List.foldlM_nil, Option.bind_eq_bind, Option.bind_some, c2]
    rfl
  unfold Fold.extractFold Fold.foldWith
  rw [if_pos (by simp)]
  unfold Fold.foldSub
  rw [c3]
  have h3' : ([((1, 2), (4, 48, 0))] : Fold.Dict).filter (fun x => P.effTrip x.2.1 x.2.2.1) = [((1, 2), (4, 48, 0))] := by simp [h3]
  change some (([] : List Fold.Chain), ((([((1, 2), (4, 48, 0))] : Fold.Dict).filter (fun x => P.effTrip x.2.1 x.2.2.1)).map _)) = _
  rw [h3']
  rfl

theorem merge_one (x : Cyc ℝ) (h : x.occs ≠ []) : mergeLists [[], [], [x]] = some [x] := by
  obtain ⟨k, hk⟩ : ∃ k, key x = some k := by
    unfold key
    cases hx : x.occs with
    | nil => exact absurd hx h
    | cons t l => exact ⟨_, rfl⟩
  have he : entries [[], [], [x]] = some [⟨k, 0, 2, x⟩] := by simp [entries, hk]
  unfold mergeLists
  rw [he, Option.map_some]
  simp [mergeLoop]

theorem merged_off (W : Costs ℝ) (h1 : W.par.maxP = none) (h2 : W.par.small 4 = true) (h3 : W.par.effTrip 4 48 = true) (h4 : ¬ W.cyc [0, 48, 100] < 3 * W.res) :
    mergedAlpha W 20 [0, 48, 100] = some [⟨[0, 48, 100], 50, W.trip 4 48⟩] := by
  obtain ⟨r, hr⟩ := dyn_none W.cyc W.res _ _ _ h4
  have e : tmpOccs [0, 48, 100] [] = [0, 48, 100] := rfl
  have ht : tripleCyc W.trip [0, 48, 100] (4, 48, [0, 1, 2]) = some ⟨[0, 48, 100], 50, W.trip 4 48⟩ := by
    have : computePeriod [0, 48, 100] = some 50 := by decide
    simp [tripleCyc, this]
  unfold mergedAlpha
  rw [hr, Option.bind_some, e, fold_off _ h1 h2 h3, Option.bind_some]
  simp only [List.mapM_cons, List.mapM_nil, ht, List.map_nil, Option.pure_def, Option.bind_eq_bind, Option.bind_some]
  exact merge_one _ (by simp)

theorem off_trip {D : Cost.Details ℕ} (h : Three D 50) : Cost.costTriple D (.one 0) 48 4 = some (4 * Real.logb 2 3 + Real.logb 2 48 + 8) := by
  unfold Cost.costTriple
  simp only [h.ar, h.delta, Option.bind_eq_bind, Option.bind_some]
  rw [show (2 * 50 - 4 - 2 * 48 + 1 : ℤ) = 1 from by norm_num, show ((2 * 50 - 4) / 2 : ℤ) = 48 from by norm_num, log2_pos _ (by norm_num), log2_pos _ (by norm_num)]
  simp
  norm_num
  ring

theorem off_cyc {D : Cost.Details ℕ} (h : Three D 50) : Cost.lengthCycleNone D (.one 0) [0, 48, 100] = some (4 * Real.logb 2 3 + Real.logb 2 50 + 8) := by
  obtain ⟨c, h1, h2, -⟩ := Cost.cost_triple_gap D (.one 0) _ h.ar 0 48 100 (by norm_num) (by norm_num) (by rw [h.delta]; norm_num)
  rw [show min ((100 : ℤ) - 48) (48 - 0) = 48 from by decide, show |(100 : ℤ) - 48 - (48 - 0)| = 4 from by decide, off_trip h, Option.some.injEq] at h1
  rw [h2, h.delta, ← h1, show |(100 : ℤ) - 48 - (48 - 0)| = 4 from by decide, show ((2 * 50 - (100 - 0) % 2) / 2 : ℤ) = 50 from by decide, show ((2 * 50 - 4) / 2 : ℤ) = 48 from by decide]
  congr 1
  push_cast
  ring

/-- The recorded cost is below that of three occurrences on their own, the code length above. -/
theorem off_between : 4 * Real.logb 2 3 + Real.logb 2 48 + 8 < 3 * Real.logb 2 101 ∧ 3 * Real.logb 2 101 < 4 * Real.logb 2 3 + Real.logb 2 50 + 8 := by
  have e : ∀ x : ℝ, 0 < x → 4 * Real.logb 2 3 + Real.logb 2 x + 8 = Real.logb 2 (20736 * x) := by
    intro x hx
    rw [show (20736 : ℝ) * x = 3 ^ 4 * x * 2 ^ 8 from by ring, Real.logb_mul (by positivity) (by positivity), Real.logb_mul (by positivity) (by positivity), Real.logb_pow, Real.logb_pow, Real.logb_self_eq_one (by norm_num)]
    push_cast
    ring
  have e2 : 3 * Real.logb 2 101 = Real.logb 2 (101 ^ 3) := by rw [Real.logb_pow]; push_cast; ring
  rw [e 48 (by norm_num), e 50 (by norm_num), e2]
  exact ⟨Real.logb_lt_logb (by norm_num) (by norm_num) (by norm_num), Real.logb_lt_logb (by norm_num) (by norm_num) (by norm_num)⟩

section Wit

variable {ε R κ : Type} [LinearOrder ε] [LinearOrder κ]

/-- The search finds one cycle, with a cost below that of three occurrences. -/
theorem alpha_off (u : ℝ) (ds : Built ε) (g0 : getSequence ds 0 = [0, 48, 100]) (h3 : Three (details ds) 50) :
    Cost.costOne (details ds) 0 = some (Real.logb 2 101) ∧ 6 < Real.logb 2 101 ∧
      ∃ x : ℝ, x = 4 * Real.logb 2 3 + Real.logb 2 48 + 8 ∧ x < 3 * Real.logb 2 101 ∧ mineAlpha (exactCosts u none (details ds) 0) 20 0 (getSequence ds 0) = some [⟨[0, 48, 100], 50, x⟩] := by
  obtain ⟨b1, b2⟩ := off_between
  have e0 : (2 * ((50 : ℤ) : ℝ) + 1) = 101 := by norm_num
  have hone := h3.one
  rw [e0] at hone
  have e1 : ((((details ds).deltaT + 1 : ℤ)) : ℝ) = 101 := by rw [h3.delta]; norm_num
  have hsm : (6 : ℝ) < Real.logb 2 101 := by
    rw [Real.lt_logb_iff_rpow_lt (by norm_num) (by norm_num)]
    norm_num
  have etrip : (exactCosts u none (details ds) 0).trip 4 48 = 4 * Real.logb 2 3 + Real.logb 2 48 + 8 := by simp only [exactCosts, off_trip h3, Option.getD_some]
  have hm := merged_off (exactCosts u none (details ds) 0) rfl (by
      simp only [exactCosts, e1]
      rw [log2_pos _ (by norm_num), Option.getD_some]
      exact decide_eq_true (by push_cast; linarith)) (by
      simp only [exactCosts, hone, off_trip h3, Option.getD_some]
      exact decide_eq_true (Or.inr (by linarith))) (by
      simp only [exactCosts, hone, off_cyc h3, Option.getD_some]
      linarith)
  rw [etrip] at hm
  obtain ⟨x, hx⟩ : ∃ x : ℝ, x = 4 * Real.logb 2 3 + Real.logb 2 48 + 8 := ⟨_, rfl⟩
  rw [← hx] at hm b1
  have ha : mineAlpha (exactCosts u none (details ds) 0) 20 0 (getSequence ds 0) = some [⟨[0, 48, 100], 50, x⟩] := by
    unfold mineAlpha
    rw [g0, hm]
    rfl
  exact ⟨hone, hsm, x, hx, b1, ha⟩

theorem mine_off (rws : (ℕ × Cyc ℝ) → ℕ → ℕ → Bool → List R) (rk : R → κ) (u : ℝ) (ds : Built ε) (hev : ds.listEv.length = 1) (hseq : ds.seqd = [(0, [0, 48, 100])]) (h3 : Three (details ds) 50) :
    mineSimple rws rk (exactCosts u none (details ds)) (fun a => (Cost.costOne (details ds) a).getD u) 20 ds = some [(.node 3 50 (.cons 0 (.leaf 0) .nil), 0, [-2, 2])] := by
  have g0 : getSequence ds 0 = [0, 48, 100] := by unfold getSequence; rw [hseq]; rfl
  have gn : ∀ k, k ≠ 0 → getSequence ds k = [] := by
    intro k hk
    unfold getSequence
    rw [hseq]
    simp [List.lookup, beq_eq_false_iff_ne.2 hk]
  have g1 : ∀ k, (getSequence ds k).Pairwise (· < ·) := by
    intro k
    by_cases hk : k = 0
    · subst hk; rw [g0]; decide
    · rw [gn k hk]; exact List.Pairwise.nil
  have g2 : ∀ k, (getSequence ds k).length + 2 ≤ 20 := by
    intro k
    by_cases hk : k = 0
    · subst hk; rw [g0]; simp
    · rw [gn k hk]; simp
  obtain ⟨hone, hsm, x, hx, b1, ha⟩ := alpha_off u ds g0 h3
  obtain ⟨s, s1, s2, s3, -, -⟩ := poolLoop_all rws rk (exactCosts u none (details ds)) 20 ds g1 g2 1
  have hcands : s.candidates = [(0, (0, ⟨[0, 48, 100], 50, x⟩))] := by
    rw [show List.range 1 = [0] from rfl] at s3
    simp only [List.flatMap_cons, List.flatMap_nil, ha, Option.getD_some, List.map_cons, List.map_nil, List.append_nil] at s3
    have hl : s.candidates.length = 1 := by rw [← List.length_map (f := Prod.snd), s3]; rfl
    rw [hl] at s2
    obtain ⟨y, hy⟩ := List.length_eq_one_iff.1 hl
    rw [hy] at s2 s3 ⊢
    simp only [List.map_cons, List.map_nil, List.cons.injEq, and_true] at s3
    have : y.1 = 0 := by simpa using s2
    rw [← s3, ← this]
  have hocc : (candsOf s.candidates).occs 0 = (([0, 48, 100] : List ℤ).map (fun t => (t, 0))).toFinset := by rw [hcands]; rfl
  have hcost : (candsOf s.candidates).cost 0 = x := by rw [hcands]; rfl
  have hids : s.candidates.map Prod.fst = [0] := by rw [hcands]; rfl
  have hnb : ds.evNbOccs = [(0, 3)] := h3.nb
  have hdc : ds.evNbOccs.map (fun e => (e.1, (Cost.costOne (details ds) e.1).getD u)) = [(0, Real.logb 2 101)] := by
    rw [hnb]
    simp [hone]
  have hlook : ∀ c ∈ s.candidates.map Prod.fst, ∀ o ∈ (candsOf s.candidates).occs c, (([(0, Real.logb 2 101)] : List (ℕ × ℝ)).lookup o.2).isSome := by
    intro c hc o ho
    rw [hids, List.mem_singleton] at hc
    subst hc
    rw [hocc, List.mem_toFinset] at ho
    obtain ⟨t, -, rfl⟩ := List.mem_map.1 ho
    rfl
  have hnd : (s.candidates.map Prod.fst).Nodup := by rw [hids]; simp
  obtain ⟨sel, f1, f2, f3, -⟩ := Select.selection_efficient (candsOf s.candidates) [(0, Real.logb 2 101)] (Prod.snd : ℤ × ℕ → ℕ) 3 (s.candidates.map Prod.fst) hnd hlook
  have hcard : ((([0, 48, 100] : List ℤ).map (fun t => (t, (0 : ℕ)))).toFinset).card = 3 := by decide
  have h0 : 0 ∈ sel := by
    by_contra hn
    have hsel : sel = [] := by
      refine List.eq_nil_iff_forall_not_mem.2 (fun i hi => ?_)
      have := f3 i hi
      rw [hids, List.mem_singleton] at this
      exact hn (this ▸ hi)
    have hu := Select.selection_complete (candsOf s.candidates) [(0, Real.logb 2 101)] (Prod.snd : ℤ × ℕ → ℕ) 3 (s.candidates.map Prod.fst) hnd hlook (by
      intro y hy
      simp only [List.map_cons, List.map_nil, List.mem_singleton] at hy
      rw [hy]; linarith) sel f1 0 (by rw [hids]; simp) hn (Real.logb 2 101) (by simp) (by
      intro y hy
      simp only [List.map_cons, List.map_nil, List.mem_singleton] at hy
      rw [hy])
    unfold Select.Useless at hu
    rw [hsel, hocc, hcost] at hu
    have hcov : Select.covered (candsOf s.candidates) [] = ∅ := by unfold Select.covered; simp
    rw [hcov, Finset.sdiff_empty, hcard] at hu
    rcases hu with hu | hu | hu
    · omega
    · omega
    · push_cast at hu
      linarith
  have hsel : sel = [0] := by
    cases sel with
    | nil => simp at h0
    | cons i l =>
      have hi := f3 i (by simp)
      rw [hids, List.mem_singleton] at hi
      subst hi
      cases l with
      | nil => rfl
      | cons j l =>
        have hj := f3 j (by simp)
        rw [hids, List.mem_singleton] at hj
        subst hj
        simp at f2
  unfold mineSimple
  rw [hev, s1, Option.bind_some, hdc, f1, Option.bind_some, hsel, hcands]
  have he : computeE [0, 48, 100] 50 = [-2, 2] := by decide
  simp [List.lookup, Miner.simplePatt, he]

/-- The pattern of the three occurrences costs more than they do without it. -/
theorem off_total (enum : Finset (ℤ × ℕ) → List (ℤ × ℕ)) (he : Enumerates enum) (ds : Built ε) (d2 : ds.seqd = [(0, [0, 48, 100])]) (d6 : ds.seql = [(0, 0), (48, 0), (100, 0)]) (h3 : Three (details ds) 50) :
    ∃ total only : ℝ, Cost.collectionCost enum ds [((.node 3 50 (.cons 0 (.leaf 0) .nil), 0, [-2, 2]) : Patt)] = some total ∧ Cost.residualsOnly ds = some only ∧ only < total := by
  have hone := h3.one
  rw [show (2 * ((50 : ℤ) : ℝ) + 1) = 101 from by norm_num] at hone
  have hcl : Cost.codeLength (Cost.cycle 3 50 0) 0 (some [-2, 2]) (details ds) = some (4 * Real.logb 2 3 + Real.logb 2 50 + 8) := by
    have := Cost.cost_cycle (details ds) 0 3 (by rw [h3.nb]; rfl) 0 [48, 100] (by simp) 50 (by rw [h3.delta]; decide)
    rw [show Cost.computeE [0, 48, 100] 50 = [-2, 2] from by decide] at this
    refine this.trans ?_
    rw [← off_cyc h3, Cost.lengthCycleNone, show computePeriod [0, 48, 100] = some 50 from by decide]
    rfl
  refine ⟨4 * Real.logb 2 3 + Real.logb 2 50 + 8, 3 * Real.logb 2 101, ?_, ?_, off_between.2⟩
  · have hu : Miner.uncovered ds.seql [((.node 3 50 (.cons 0 (.leaf 0) .nil), 0, [-2, 2]) : Patt)] = some ∅ := by
      rw [d6]
      decide
    have hen : enum ∅ = [] := List.eq_nil_iff_forall_not_mem.2 (fun x hx => by simpa using ((he ∅).2 x).1 hx)
    unfold Cost.collectionCost
    rw [hu]
    have hcl' : Cost.codeLength (Cost.cycle 3 50 0) 0 (some [-2, 2]) (Cost.detailsOf ds) = some (4 * Real.logb 2 3 + Real.logb 2 50 + 8) := hcl
    simp only [List.mapM_cons, List.mapM_nil, hcl', Option.bind_eq_bind, Option.bind_some, Option.pure_def, hen, Cost.nbByEv, List.foldl_nil]
    simp
  · unfold Cost.residualsOnly
    have hone' : Cost.costOne (Cost.detailsOf ds) 0 = some (Real.logb 2 101) := hone
    rw [d2]
    simp [hone']

/-- C146, negated without the condition: one event at times 0, 48 and 100. The miner returns one pattern covering the three occurrences, and this pattern costs more than the three occurrences without any pattern. -/
theorem compression_fails (rws : (ℕ × Cyc ℝ) → ℕ → ℕ → Bool → List R) (rk : R → κ) (u : ℝ) (enum : Finset (ℤ × ℕ) → List (ℤ × ℕ)) (he : Enumerates enum) :
    ∃ (m : Fitted ℕ) (ps : List Patt) (total only : ℝ), fitData false [(0, 7), (48, 7), (100, 7)] = .ok m ∧
      mineSimple rws rk (exactCosts u none (details m.data)) (fun a => (Cost.costOne (details m.data) a).getD u) 20 m.data = some ps ∧
      occLists ps = some [[(0, 0), (48, 0), (100, 0)]] ∧ Cost.collectionCost enum m.data ps = some total ∧ Cost.residualsOnly m.data = some only ∧ only < total := by
  obtain ⟨m, hm⟩ : ∃ m : Fitted ℕ, fitData false [(0, 7), (48, 7), (100, 7)] = .ok m := ⟨_, rfl⟩
  have hdat : m.data.listEv.length = 1 ∧ m.data.seqd = [(0, [0, 48, 100])] ∧ m.data.evNbOccs = [(0, 3)] ∧ m.data.tStart = 0 ∧ m.data.tEnd = 100 ∧ m.data.seql = [(0, 0), (48, 0), (100, 0)] := by
    cases hm
    exact ⟨rfl, rfl, rfl, rfl, rfl, rfl⟩
  obtain ⟨d1, d2, d3, d4, d5, d6⟩ := hdat
  have h3 : Three (details m.data) 50 := ⟨d3, by unfold Cost.Details.deltaT details; rw [d4, d5]; norm_num, by norm_num⟩
  have hp := mine_off rws rk u m.data d1 d2 h3
  have hcov : occLists [((.node 3 50 (.cons 0 (.leaf 0) .nil), 0, [-2, 2]) : Patt)] = some [[(0, 0), (48, 0), (100, 0)]] := by decide
  obtain ⟨total, only, c1, c2, c3⟩ := off_total enum he m.data d2 d6 h3
  exact ⟨m, _, total, only, hm, hp, hcov, c1, c2, c3⟩

end Wit

/-- Series meeting the hypothesis of `compress_partial`: in order, and three occurrences with distances 48 and 49, which are not uneven; four occurrences never are. -/
example : ([(0, 7), (3, 9), (48, 7), (97, 7)] : List (ℤ × ℕ)).Pairwise (fun a b => a.1 ≤ b.1) ∧ uneven [(0, 0), (48, 0), (97, 0)] = false ∧ uneven [(0, 0), (48, 0), (100, 0), (150, 0)] = false ∧ uneven [(0, 0), (48, 0), (100, 0)] = true := by
  decide

end Verif.Mine
