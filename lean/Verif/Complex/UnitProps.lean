import Verif.Complex.MoveProps
import Verif.Mine.UnitProps

/-!
# Complex patterns with automatic time scale (C124)

Source: `/repo/skmine/periodic/cycles.py:97-191,483-561`, `/repo/skmine/periodic/run_mine.py:813-987`. The models are those of C33 (scale), C36 (fit, reconstruct) and C78 (mining of complex patterns).
-/

set_option autoImplicit false
set_option linter.unusedSectionVars false

namespace Verif.Complex

open Verif.PTree Verif.Concat Verif.PattKey Verif.DataSeq Verif.Mine Verif.Miner Verif.TimeScale

section Days

variable {ε : Type} [LinearOrder ε]

/-- The data of a nonempty series moved in time. -/
theorem ofList_dmove (c : ℤ) (rows : List (ℤ × ε)) (hr : rows ≠ []) (d d' : Built ε) (h1 : ofList rows = .ok d) (h2 : ofList (moveRows c rows) = .ok d') : DMove c (details d) (details d') := by
  obtain ⟨m0, m0', k1, k2, k3⟩ := ofList_move c rows
  rw [h1] at k1
  obtain rfl : d = m0 := by injection k1
  rw [h2] at k2
  obtain rfl : d' = m0' := by injection k2
  obtain ⟨x, l, hx⟩ : ∃ x l, rows = x :: l := List.exists_cons_of_ne_nil hr
  have hin : x ∈ rows := by rw [hx]; simp
  have hg : group (moveRows c rows) = (group rows).map (fun q => (q.1, sh c q.2)) := group_move c rows
  have hne : group rows ≠ [] := by
    intro h0
    have := (group_keys_mem rows x.2).2 (List.mem_map.2 ⟨x, hin, rfl⟩)
    rw [h0] at this
    simp at this
  obtain ⟨d1, a1, -, -, -, -, -, -, a8⟩ := ofDict_ok (group rows) (group_nodup _) (fun q hq => (group_entry _ q.1 q.2 hq).2)
  obtain ⟨d1', b1, -, -, -, -, -, -, b8⟩ := ofDict_ok (group (moveRows c rows)) (group_nodup _) (fun q hq => (group_entry _ q.1 q.2 hq).2)
  have hd : d = d1 := by
    have : ofList rows = .ok d1 := a1
    rw [h1] at this
    injection this
  have hd' : d' = d1' := by
    have : ofList (moveRows c rows) = .ok d1' := b1
    rw [h2] at this
    injection this
  subst hd hd'
  obtain ⟨⟨q1, hq1, hs1⟩, ⟨q2, hq2, hs2⟩, hall⟩ := a8 hne
  obtain ⟨⟨r1, hr1, ht1⟩, ⟨r2, hr2, ht2⟩, hall'⟩ := b8 (by rw [hg]; simpa using hne)
  rw [hg] at hr1 hr2
  obtain ⟨p1, hp1, rfl⟩ := List.mem_map.1 hr1
  obtain ⟨p2, hp2, rfl⟩ := List.mem_map.1 hr2
  obtain ⟨u1, hu1, e1'⟩ := List.mem_map.1 ht1
  obtain ⟨u2, hu2, e2'⟩ := List.mem_map.1 ht2
  have j1 := hall p1 hp1 u1 hu1
  have j2 := hall p2 hp2 u2 hu2
  have j3 := hall' (q1.1, sh c q1.2) (by rw [hg]; exact List.mem_map.2 ⟨q1, hq1, rfl⟩) (d.tStart + c) (mem_sh.2 hs1)
  have j4 := hall' (q2.1, sh c q2.2) (by rw [hg]; exact List.mem_map.2 ⟨q2, hq2, rfl⟩) (d.tEnd + c) (mem_sh.2 hs2)
  refine ⟨k3.counts, ?_, ?_⟩
  · change d'.tStart = d.tStart + c
    omega
  · change d'.tEnd = d.tEnd + c
    omega

/-- The data given to the miner when a series is moved by a whole number of days. -/
theorem fitData_days (c : ℤ) (hc : day ∣ c) (rows : List (ℤ × ε)) :
    ∃ m m' q, fitData true rows = .ok m ∧ fitData true (moveRows c rows) = .ok m' ∧ m'.nZeros = m.nZeros ∧ m'.divNbSec = m.divNbSec ∧ restore m.nZeros m.divNbSec q = c ∧ Moved q m.data m'.data ∧
      (rows ≠ [] → DMove q (details m.data) (details m'.data)) := by
  obtain ⟨n, d, u, -, hs⟩ := autoscale_hasScale ((dedupRows rows).map Prod.fst)
  have hs' : HasScale ((dedupRows (moveRows c rows)).map Prod.fst) n d := by
    have := hs.move c hc
    rw [List.map_map] at this
    rw [dedupRows_move]
    unfold moveRows
    rw [List.map_map]
    exact this
  obtain ⟨q, hq⟩ := hs.dvd_day.trans hc
  obtain ⟨m, m', h1, h2, h3, z1, z2, z3, z4⟩ := fitData_moved c rows n d q hq hs hs'
  have hrest : restore m.nZeros m.divNbSec q = c := by
    unfold restore
    rw [z1, z2, hq]; ring
  refine ⟨m, m', q, h1, h2, by rw [z1, z3], by rw [z2, z4], hrest, h3, ?_⟩
  intro hr
  have e1 := fitData_auto rows n d hs
  have e2 := fitData_auto _ n d hs'
  have hrows : (dedupRows (moveRows c rows)).map (fun x => (x.1 / (10 ^ n * (d : ℤ)), x.2)) = moveRows q ((dedupRows rows).map (fun x => (x.1 / (10 ^ n * (d : ℤ)), x.2))) := by
    rw [dedupRows_move]
    unfold moveRows
    rw [List.map_map, List.map_map]
    refine List.map_congr_left (fun x _ => ?_)
    simp only [Function.comp, Prod.mk.injEq, and_true]
    rw [hq, Int.add_mul_ediv_left _ _ (scale_pos hs).ne']
  rw [hrows] at e2
  obtain ⟨b, b', k1, k2, -⟩ := ofList_move q ((dedupRows rows).map (fun x => (x.1 / (10 ^ n * (d : ℤ)), x.2)))
  rw [k1, h1] at e1
  rw [k2, h2] at e2
  injection e1 with e1
  injection e2 with e2
  rw [e1, e2]
  refine ofList_dmove q _ ?_ b b' k1 k2
  intro h0
  rw [List.map_eq_nil_iff] at h0
  obtain ⟨x, l, hx⟩ : ∃ x l, rows = x :: l := List.exists_cons_of_ne_nil hr
  have hin : x ∈ dedupRows rows := ((dedupRows_spec rows).2 x).2 (by rw [hx]; simp)
  rw [h0] at hin
  cases hin

variable {K : Type} [Field K] [LinearOrder K] [IsStrictOrderedRing K]

/-- C124, origin, complex patterns. With automatic time scale, a series in the order of time, all times moved by a whole number of days: the same scale is used, the same complex patterns are found in the same order, with the same trees
and corrections, each starting later by the displacement; one fit raises if and only if the other does. `reconstruct` gives the same rows, moved, and the same occurrences are left over. Missing: other displacements (`hour_matters`). -/
theorem complex_days_partial (c : ℤ) (hc : day ∣ c) (rows : List (ℤ × ε)) (h : rows.Pairwise (fun a b => a.1 ≤ b.1)) :
    ∃ m m' q, fitData true rows = .ok m ∧ fitData true (moveRows c rows) = .ok m' ∧ m'.nZeros = m.nZeros ∧ m'.divNbSec = m.divNbSec ∧ m'.data.listEv = m.data.listEv ∧ restore m.nZeros m.divNbSec q = c ∧
      ∃ F, ∀ fuel, F ≤ fuel → ∀ (W W' : World K) (A A' : ℕ → Costs K), WorldMove q W W' → (∀ a, CostsShift q (A a) (A' a)) → ∀ (Q : ℕ → Orders) (n : ℕ),
        (mineComplex W' A' Q fuel n m'.data = none ↔ mineComplex W A Q fuel n m.data = none) ∧
        ∀ s ps, mineComplex W A Q fuel n m.data = some (s, ps) → ∃ s', mineComplex W' A' Q fuel n m'.data = some (s', ps.map (movePatt q)) ∧
          (∀ srt : Frame ε → Frame ε, (∀ f, srt (f.map (fun r => (r.1, (r.2.1 + c, r.2.2)))) = (srt f).map (fun r => (r.1, (r.2.1 + c, r.2.2)))) → ∀ ids,
            (reconstruct srt m' (ps.map (movePatt q)) ids).map (List.map Prod.snd) = (reconstruct srt m ps ids).map (fun f => moveRows c (f.map Prod.snd))) ∧
          uncovered m'.data.seql (ps.map (movePatt q)) = (uncovered m.data.seql ps).map (Finset.map (moveEmb q)) := by
  obtain ⟨m, m', q, h1, h2, z1, z2, hrest, h3, -⟩ := fitData_days c hc rows
  obtain ⟨m1, hm1, hd⟩ := fitData_dataOk true rows h
  rw [h1] at hm1
  obtain rfl : m = m1 := by injection hm1
  refine ⟨m, m', q, h1, h2, z1, z2, h3.listEv, hrest, turns m.data, ?_⟩
  intro fuel hF W W' A A' hW hA Q n
  have e := mineComplex_mv hW A A' hA Q fuel n m.data m'.data h3 hd.1 (fun k => le_trans (turns_ok m.data k) hF)
  refine ⟨by rw [e]; simp, ?_⟩
  intro s ps hp
  rw [hp] at e
  refine ⟨mvS q s, e, ?_, ?_⟩
  · intro srt hsrt ids
    rw [reconstruct_map srt q (fun t => t + c) (fun x y h => add_right_cancel h) hsrt m m' (by
      intro x
      unfold decode numToEv
      rw [h3.listEv, z1, z2, Option.map_map]
      congr 1
      funext e
      simp only [Function.comp, Prod.mk.injEq, and_true]
      rw [← hrest]
      unfold restore
      ring) ps ids, Option.map_map]
    congr 1
    funext f
    simp [moveRows]
  · rw [h3.seql, uncovered_move]

/-- C124, origin, complex patterns, with the costs of the code (exact real numbers), for a nonempty series. Missing: other displacements (`hour_matters`). -/
theorem complex_days_exact_partial (c : ℤ) (hc : day ∣ c) (rows : List (ℤ × ε)) (h : rows.Pairwise (fun a b => a.1 ≤ b.1)) (hr : rows ≠ []) (u : ℝ) (maxP : Option ℤ) (tup : AnyCand → Cost.Alpha ℕ) (ht : ∀ t a, tup (mvA t a) = tup a)
    (first : List (PC ℝ) → ℕ → List Char → ℕ) (hf : ∀ t l, first (l.map (mvPC t)) = first l) :
    ∃ m m' q, fitData true rows = .ok m ∧ fitData true (moveRows c rows) = .ok m' ∧ m'.nZeros = m.nZeros ∧ m'.divNbSec = m.divNbSec ∧ restore m.nZeros m.divNbSec q = c ∧ ∃ F, ∀ fuel, F ≤ fuel → ∀ (Q : ℕ → Orders) (n : ℕ),
      (mineComplex (exactWorld u (details m'.data) tup first) (exactCosts u maxP (details m'.data)) Q fuel n m'.data).map Prod.snd =
        (mineComplex (exactWorld u (details m.data) tup first) (exactCosts u maxP (details m.data)) Q fuel n m.data).map (fun r => r.2.map (movePatt q)) := by
  obtain ⟨m, m', q, h1, h2, z1, z2, hrest, h3, hD⟩ := fitData_days c hc rows
  have hD := hD hr
  obtain ⟨m1, hm1, hd⟩ := fitData_dataOk true rows h
  rw [h1] at hm1
  obtain rfl : m = m1 := by injection hm1
  refine ⟨m, m', q, h1, h2, z1, z2, hrest, turns m.data, ?_⟩
  intro fuel hF Q n
  have hA : ∀ a, CostsShift q (exactCosts u maxP (details m.data) a) (exactCosts u maxP (details m'.data) a) := by
    intro a
    rw [(costs_congr (details m.data) (details m'.data) hD.nb hD.deltaT).2]
    exact exactCosts_shift u maxP (details m.data) q a
  rw [mineComplex_mv (exactWorld_move hD u tup (ht q) first (hf q)) _ _ hA Q fuel n m.data m'.data h3 hd.1 (fun k => le_trans (turns_ok m.data k) hF), Option.map_map]
  rfl

end Days

/-- The series of `exRun₃` with times in milliseconds, and the same series two days later: the same scale, the same number of candidates, the same corrections. -/
example : let ms := scaleRows 1000000 exRows
    let run := fun rows => (fitData true rows).toOption.bind (fun m => (mineComplex exW exA (fun _ => exQ) 100 1 m.data).map (fun r => (m.nZeros, m.divNbSec, r.1.pool.candidates.length, r.2.map (fun q => q.2.2))))
    (run ms).isSome = true ∧ run (moveRows (2 * day) ms) = run ms := by
  decide +kernel

end Verif.Complex
