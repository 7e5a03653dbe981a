import Verif.Complex.MoveComb
import Verif.Complex.Props

/-!
# Complex patterns do not depend on the origin of times (C126)

Source: `/repo/skmine/periodic/run_mine.py:813-987`.
-/

set_option autoImplicit false
set_option linter.unusedSectionVars false

namespace Verif.Complex

open Verif.PTree Verif.Concat Verif.PattKey Verif.DataSeq Verif.Mine Verif.Miner

section Mine

variable {K : Type} [Field K] [LinearOrder K] [IsStrictOrderedRing K] {ε : Type} [LinearOrder ε]

theorem ofCyc_mv (t : ℤ) (alpha : ℕ) (x : Cyc K) : ofCyc alpha (shCyc t x) = mvPC t (ofCyc alpha x) := by
  unfold ofCyc mvPC mvA shCyc
  simp only [computeE_move]

theorem initLoop_mv {t : ℤ} {W W' : World K} (h : WorldMove t W W') (A A' : ℕ → Costs K) (hA : ∀ a, CostsShift t (A a) (A' a)) (fuel : ℕ) (d d' : Built ε) (hd : Moved t d d') (hs : ∀ k, (getSequence d k).Pairwise (· < ·))
    (hf : ∀ k, (getSequence d k).length + 2 ≤ fuel) (s : CPool K) (alpha : ℕ) : initLoop W' A' fuel d' (mvPool t s) alpha = (initLoop W A fuel d s alpha).map (mvPool t) := by
  unfold initLoop
  rw [getSequence_move hd, mineAlpha_sh (hA alpha) fuel alpha _ (hs alpha) (hf alpha)]
  cases mineAlpha (A alpha) fuel alpha (getSequence d alpha) with
  | none => rfl
  | some cs =>
    simp only [Option.map_some, Option.bind_some]
    have e : (cs.map (shCyc t)).map (ofCyc alpha) = (cs.map (ofCyc alpha)).map (mvPC t) := by
      rw [List.map_map, List.map_map]
      exact List.map_congr_left (fun x _ => ofCyc_mv t alpha x)
    rw [e, addCands_mv h]
    cases CandPool.addCands (ops W) rowKey s (cs.map (ofCyc alpha)) none true with
    | mk s' e => cases e <;> rfl

theorem initPool_mv {t : ℤ} {W W' : World K} (h : WorldMove t W W') (A A' : ℕ → Costs K) (hA : ∀ a, CostsShift t (A a) (A' a)) (fuel : ℕ) (d d' : Built ε) (hd : Moved t d d') (hs : ∀ k, (getSequence d k).Pairwise (· < ·))
    (hf : ∀ k, (getSequence d k).length + 2 ≤ fuel) : initPool W' A' fuel d' = (initPool W A fuel d).map (mvPool t) := by
  unfold initPool
  rw [hd.listEv]
  exact foldlM_map_state (initLoop W A fuel d) (initLoop W' A' fuel d') (mvPool t) (initLoop_mv h A A' hA fuel d d' hd hs hf) (List.range d.listEv.length) CandPool.empty

theorem toPatt_mv (t : ℤ) (a : AnyCand) : toPatt (mvA t a) = (toPatt a).map (movePatt t) := by
  unfold toPatt
  rw [toCand_mv]
  change Option.map _ (sh t a.toCand.O).head? = _
  rw [head_sh, Option.map_map, Option.map_map]
  rfl

theorem choose_mv {t : ℤ} {W W' : World K} (h : WorldMove t W W') (s : CPool K) : choose W' (mvPool t s) = (choose W s).map (List.map (movePatt t)) := by
  unfold choose
  have hk : (mvPool t s).candidates.map Prod.fst = s.candidates.map Prod.fst := by
    change (s.candidates.map (fun e => (e.1, mvPC t e.2))).map Prod.fst = _
    rw [List.map_map]
    rfl
  have hl : ∀ i, (mvPool t s).candidates.lookup i = (s.candidates.lookup i).map (mvPC t) := fun i => lookup_mv t s.candidates i
  rw [hk, h.dcosts, filterCover_map (mvO t) Prod.snd (fun _ => rfl) W.dcosts (candsOf s.candidates) (candsOf (mvPool t s).candidates)]
  · cases Select.filterCover (candsOf s.candidates) W.dcosts Prod.snd 3 (s.candidates.map Prod.fst) with
    | none => rfl
    | some sel =>
      simp only [Option.bind_some]
      have := mapM_map' (fun i => (s.candidates.lookup i).bind (fun c => toPatt c.cand)) (fun i => ((mvPool t s).candidates.lookup i).bind (fun c => toPatt c.cand)) id (movePatt t) (fun i => by
        simp only [id, hl]
        cases s.candidates.lookup i with
        | none => rfl
        | some c => exact toPatt_mv t c.cand) sel
      rwa [List.map_id] at this
  · funext i
    simp only [candsOf, hl, Option.map_map]
    rfl
  · intro i
    simp only [candsOf, hl, Option.map_map]
    cases s.candidates.lookup i with
    | none => rfl
    | some c => exact evOccs_fin_mv t c.cand

theorem mineComplex_mv {t : ℤ} {W W' : World K} (h : WorldMove t W W') (A A' : ℕ → Costs K) (hA : ∀ a, CostsShift t (A a) (A' a)) (Q : ℕ → Orders) (fuel n : ℕ) (d d' : Built ε) (hd : Moved t d d')
    (hs : ∀ k, (getSequence d k).Pairwise (· < ·)) (hf : ∀ k, (getSequence d k).length + 2 ≤ fuel) :
    mineComplex W' A' Q fuel n d' = (mineComplex W A Q fuel n d).map (fun r => (mvS t r.1, r.2.map (movePatt t))) := by
  unfold mineComplex
  rw [initPool_mv h A A' hA fuel d d' hd hs hf]
  cases initPool W A fuel d with
  | none => rfl
  | some s =>
    simp only [Option.map_some, Option.bind_some]
    have e := rounds_mv h Q n ⟨s, 0, none, none⟩
    change rounds W' Q n ⟨mvPool t s, 0, none, none⟩ = _ at e
    rw [e]
    cases rounds W Q n ⟨s, 0, none, none⟩ with
    | none => rfl
    | some s' =>
      simp only [Option.map_some, Option.bind_some]
      change Option.map _ (choose W' (mvPool t s'.pool)) = _
      rw [choose_mv h]
      cases choose W s'.pool <;> rfl

/-- C126. A series in the order of time, `auto_time_scale=False`, and costs that do not see the origin of times. When all times of the series are moved by `c`, mining complex patterns finds the same patterns in the same order, with the
same trees and corrections, each starting `c` later, for every number of rounds and the same iteration orders; one raises if and only if the other does. The candidates of the two pools are the same, moved. `reconstruct` gives the same rows
moved, for every choice of patterns and every sort that does not see the origin, and the same occurrences are left over. -/
theorem complex_shift (c : ℤ) (rows : List (ℤ × ε)) (h : rows.Pairwise (fun a b => a.1 ≤ b.1)) :
    ∃ m m', fitData false rows = .ok m ∧ fitData false (moveRows c rows) = .ok m' ∧ m'.data.listEv = m.data.listEv ∧ m'.data.seql = moveRows c m.data.seql ∧
      ∃ F, ∀ fuel, F ≤ fuel → ∀ (W W' : World K) (A A' : ℕ → Costs K), WorldMove c W W' → (∀ a, CostsShift c (A a) (A' a)) → ∀ (Q : ℕ → Orders) (n : ℕ),
        (mineComplex W' A' Q fuel n m'.data = none ↔ mineComplex W A Q fuel n m.data = none) ∧
        ∀ s ps, mineComplex W A Q fuel n m.data = some (s, ps) → ∃ s', mineComplex W' A' Q fuel n m'.data = some (s', ps.map (movePatt c)) ∧
          s'.i = s.i ∧ s'.pool.candidates.map (fun e => (e.1, e.2.cost, e.2.cand.minorKey, evOccs e.2.cand)) = s.pool.candidates.map (fun e => (e.1, e.2.cost, e.2.cand.minorKey, moveRows c (evOccs e.2.cand))) ∧
          (∀ srt : Frame ε → Frame ε, (∀ f, srt (f.map (fun r => (r.1, (r.2.1 + c, r.2.2)))) = (srt f).map (fun r => (r.1, (r.2.1 + c, r.2.2)))) → ∀ ids,
            (reconstruct srt m' (ps.map (movePatt c)) ids).map (List.map Prod.snd) = (reconstruct srt m ps ids).map (fun f => moveRows c (f.map Prod.snd))) ∧
          uncovered m'.data.seql (ps.map (movePatt c)) = (uncovered m.data.seql ps).map (Finset.map (moveEmb c)) := by
  obtain ⟨m, m', h1, h2, h3, z1, z2, z3, z4⟩ := fitData_move c rows
  obtain ⟨m1, hm1, hd⟩ := fitData_dataOk false rows h
  rw [h1] at hm1
  obtain rfl : m = m1 := by injection hm1
  refine ⟨m, m', h1, h2, h3.listEv, h3.seql, turns m.data, ?_⟩
  intro fuel hF W W' A A' hW hA Q n
  have e := mineComplex_mv hW A A' hA Q fuel n m.data m'.data h3 hd.1 (fun k => le_trans (turns_ok m.data k) hF)
  refine ⟨by rw [e]; simp, ?_⟩
  intro s ps hp
  rw [hp] at e
  refine ⟨mvS c s, e, rfl, ?_, ?_, ?_⟩
  · change (s.pool.candidates.map (fun e => (e.1, mvPC c e.2))).map _ = _
    rw [List.map_map]
    refine List.map_congr_left (fun x _ => ?_)
    simp only [Function.comp, mvPC, minorKey_mv, evOccs_mv]
    rfl
  · intro srt hs ids
    rw [reconstruct_move srt c hs m m' h3 z1 z2 z3 z4, Option.map_map]
    congr 1
    funext f
    simp [moveRows]
  · rw [h3.seql, uncovered_move]

end Mine

/-! ### The costs of the code -/

section Exact

/-- Details of data moved in time. -/
structure DMove (t : ℤ) (D D' : Cost.Details ℕ) : Prop where
  nb : D'.nb = D.nb
  tStart : D'.tStart = D.tStart + t
  tEnd : D'.tEnd = D.tEnd + t

theorem DMove.deltaT {t : ℤ} {D D' : Cost.Details ℕ} (h : DMove t D D') : D'.deltaT = D.deltaT := by
  unfold Cost.Details.deltaT
  rw [h.tStart, h.tEnd]
  ring

theorem DMove.total {t : ℤ} {D D' : Cost.Details ℕ} (h : DMove t D D') : D'.total = D.total := by
  unfold Cost.Details.total
  rw [h.nb]

/-- The data of a nonempty series moved in time. -/
theorem details_move {ε : Type} [LinearOrder ε] (c : ℤ) (rows : List (ℤ × ε)) (hr : rows ≠ []) (m m' : Fitted ε) (h1 : fitData false rows = .ok m) (h2 : fitData false (moveRows c rows) = .ok m') : DMove c (details m.data) (details m'.data) := by
  obtain ⟨m0, m0', k1, k2, k3, -⟩ := fitData_move c rows
  rw [h1] at k1
  obtain rfl : m = m0 := by injection k1
  rw [h2] at k2
  obtain rfl : m' = m0' := by injection k2
  obtain ⟨x, l, hx⟩ : ∃ x l, rows = x :: l := List.exists_cons_of_ne_nil hr
  have hin : x ∈ dedupRows rows := ((dedupRows_spec rows).2 x).2 (by rw [hx]; simp)
  have hg : group (moveRows c (dedupRows rows)) = (group (dedupRows rows)).map (fun q => (q.1, sh c q.2)) := group_move c (dedupRows rows)
  have hne : group (dedupRows rows) ≠ [] := by
    intro h0
    have := (group_keys_mem (dedupRows rows) x.2).2 (List.mem_map.2 ⟨x, hin, rfl⟩)
    rw [h0] at this
    simp at this
  obtain ⟨d, a1, -, -, -, -, -, -, a8⟩ := ofDict_ok (group (dedupRows rows)) (group_nodup _) (fun q hq => (group_entry _ q.1 q.2 hq).2)
  obtain ⟨d', b1, -, -, -, -, -, -, b8⟩ := ofDict_ok (group (moveRows c (dedupRows rows))) (group_nodup _) (fun q hq => (group_entry _ q.1 q.2 hq).2)
  have hd : m.data = d := by
    have e : fitData false rows = .ok ⟨d, 0, 1⟩ := by
      have : ofList (dedupRows rows) = .ok d := a1
      simp [fitData, this, Except.map]
    rw [h1] at e
    injection e with e
    rw [e]
  have hd' : m'.data = d' := by
    have e : fitData false (moveRows c rows) = .ok ⟨d', 0, 1⟩ := by
      have : ofList (moveRows c (dedupRows rows)) = .ok d' := b1
      simp [fitData, dedupRows_move, this, Except.map]
    rw [h2] at e
    injection e with e
    rw [e]
  obtain ⟨⟨q1, hq1, hs1⟩, ⟨q2, hq2, hs2⟩, hall⟩ := a8 hne
  obtain ⟨⟨r1, hr1, ht1⟩, ⟨r2, hr2, ht2⟩, hall'⟩ := b8 (by rw [hg]; simpa using hne)
  rw [hg] at hr1 hr2
  obtain ⟨p1, hp1, rfl⟩ := List.mem_map.1 hr1
  obtain ⟨p2, hp2, rfl⟩ := List.mem_map.1 hr2
  obtain ⟨u1, hu1, e1'⟩ := List.mem_map.1 ht1
  obtain ⟨u2, hu2, e2'⟩ := List.mem_map.1 ht2
  have j1 := hall p1 hp1 u1 hu1
  have j2 := hall p2 hp2 u2 hu2
  have j3 := hall' (q1.1, sh c q1.2) (by rw [hg]; exact List.mem_map.2 ⟨q1, hq1, rfl⟩) (d.tStart + c) (mem_sh.2 hs1)
  have j4 := hall' (q2.1, sh c q2.2) (by rw [hg]; exact List.mem_map.2 ⟨q2, hq2, rfl⟩) (d.tEnd + c) (mem_sh.2 hs2)
  refine ⟨k3.counts, ?_, ?_⟩
  · change m'.data.tStart = m.data.tStart + c
    rw [hd, hd']
    omega
  · change m'.data.tEnd = m.data.tEnd + c
    rw [hd, hd']
    omega

mutual
theorem occsStar_add {α : Type} (t : ℤ) : ∀ (T : PTree.Tree α) (pref : Path) (x : ℤ), occsStar T pref (x + t) = (occsStar T pref x).map (fun o => (o.1 + t, o.2))
  | .leaf _, _, _ => rfl
  | .node r p ch, pref, x => by
    rw [occsStar, occsStar, List.map_flatMap]
    refine List.flatMap_congr (fun i _ => ?_)
    rw [show x + t + (i : ℤ) * p = x + (i : ℤ) * p + t by ring]
    exact occsStarF_add t ch 0 i pref (x + (i : ℤ) * p)
theorem occsStarF_add {α : Type} (t : ℤ) : ∀ (F : Forest α) (ni i : ℕ) (pref : Path) (x : ℤ), occsStarF F ni i pref (x + t) = (occsStarF F ni i pref x).map (fun o => (o.1 + t, o.2))
  | .nil, _, _, _, _ => rfl
  | .cons d T rest, ni, i, pref, x => by
    rw [occsStarF, occsStarF, List.map_append, show x + t + d = x + d + t by ring, occsStar_add t T, occsStarF_add t rest]
end

theorem npMaxZ_add (t : ℤ) (l : List ℤ) : Cost.npMaxZ (l.map (· + t)) = (Cost.npMaxZ l).map (· + t) := by
  cases l with
  | nil => rfl
  | cons n l =>
    simp only [List.map_cons, Cost.npMaxZ, Option.map_some, Option.some.injEq]
    induction l generalizing n with
    | nil => rfl
    | cons a l ih =>
      rw [List.map_cons, List.foldl_cons, List.foldl_cons, max_add_add_right]
      exact ih (max n a)

mutual
theorem codeLengthEvents_congr {D D' : Cost.Details ℕ} (h1 : D'.nb = D.nb) (h2 : D'.total = D.total) : ∀ T : PTree.Tree ℕ, Cost.codeLengthEvents D' T = Cost.codeLengthEvents D T
  | .leaf a => by simp only [Cost.codeLengthEvents, Cost.adjFreq, h1, h2]
  | .node r p ch => by simp only [Cost.codeLengthEvents, codeLengthEventsF_congr h1 h2 ch]
theorem codeLengthEventsF_congr {D D' : Cost.Details ℕ} (h1 : D'.nb = D.nb) (h2 : D'.total = D.total) : ∀ F : Forest ℕ, Cost.codeLengthEventsF D' F = Cost.codeLengthEventsF D F
  | .nil => rfl
  | .cons d T rest => by simp only [Cost.codeLengthEventsF, codeLengthEvents_congr h1 h2 T, codeLengthEventsF_congr h1 h2 rest]
end

mutual
theorem getMinOccs_congr {D D' : Cost.Details ℕ} (h1 : D'.nb = D.nb) : ∀ T : PTree.Tree ℕ, Cost.getMinOccs D' T = Cost.getMinOccs D T
  | .leaf a => by simp only [Cost.getMinOccs, h1]
  | .node r p ch => by simp only [Cost.getMinOccs, getMinOccsF_congr h1 ch]
theorem getMinOccsF_congr {D D' : Cost.Details ℕ} (h1 : D'.nb = D.nb) : ∀ F : Forest ℕ, Cost.getMinOccsF D' F = Cost.getMinOccsF D F
  | .nil => rfl
  | .cons d T rest => by simp only [Cost.getMinOccsF, getMinOccs_congr h1 T, getMinOccsF_congr h1 rest]
end

/-- The code length of a pattern does not see the origin of times. -/
theorem codeLength_move {t : ℤ} {D D' : Cost.Details ℕ} (h : DMove t D D') (T : PTree.Tree ℕ) (t0 : ℤ) (E : Option (List ℤ)) : Cost.codeLength T (t0 + t) E D' = Cost.codeLength T t0 E D := by
  cases T with
  | leaf a => rfl
  | node r p ch =>
    have e1 : ∀ E : List ℤ, getEDict (occsStar (.node r p ch) [] (t0 + t)) E = getEDict (occsStar (.node r p ch) [] t0) E := by
      intro E
      unfold getEDict
      rw [occsStar_add, List.length_map, List.map_map, List.map_map]
      rfl
    have e2 : (occsStar (.node r p ch) [] (t0 + t)).map (fun o => o.1) = ((occsStar (.node r p ch) [] t0).map (fun o => o.1)).map (· + t) := by
      rw [occsStar_add, List.map_map, List.map_map]
      rfl
    have e3 : ∀ za : Path, ((occsStar (.node r p ch) [] (t0 + t)).map (fun o => (o.2.2, o.1))).lookup za = (((occsStar (.node r p ch) [] t0).map (fun o => (o.2.2, o.1))).lookup za).map (· + t) := by
      intro za
      rw [occsStar_add, List.map_map, ← lookup_snd, List.map_map]
      rfl
    have e4 : Cost.codeLengthR D' (.node r p ch) = Cost.codeLengthR D (.node r p ch) := by
      unfold Cost.codeLengthR
      rw [getMinOccs_congr h.nb]
    simp only [Cost.codeLength, e1, e2, e3, npMaxZ_add, e4, codeLengthEvents_congr h.nb h.total, Cost.codeLengthPTop, Cost.codeLengthT0, h.deltaT, h.tEnd]
    have e5 : D.tEnd + t - (t0 + t) = D.tEnd - t0 := by ring
    rw [e5]
    cases leafKeyFromRep (.node r p ch) [] (r - 1) with
    | none => rfl
    | some za =>
      have sb : ∀ {β γ : Type} (a : β) (f : β → Option γ), (some a >>= f) = f a := fun _ _ => rfl
      simp only [sb]
      cases Cost.npMaxZ ((occsStar (.node r p ch) [] t0).map (fun o => o.1)) with
      | none => cases E <;> rfl
      | some mx =>
        cases ((occsStar (.node r p ch) [] t0).map (fun o => (o.2.2, o.1))).lookup za with
        | none => cases E <;> rfl
        | some tza => simp only [Option.map_some, sb, add_sub_add_right_eq_sub]

/-- `computeCost`, `/repo/skmine/periodic/candidate.py:82-87`. Undefined logarithms have the arbitrary value `u`. -/
noncomputable def exactPatt (u : ℝ) (D : Cost.Details ℕ) (c : Cand ℤ) : ℝ := (c.O.head?.bind (fun t0 => Cost.codeLength (mapT Int.toNat c.tree) t0 (some c.E) D)).getD u

/-- `getCostNoE`, `/repo/skmine/periodic/candidate.py:232-237`. -/
noncomputable def exactNoE (u : ℝ) (D : Cost.Details ℕ) : AnyCand → ℝ
  | .cycle a p O _ => (Cost.lengthCycle D (.one a.toNat) O p true).getD u
  | .pattern c => (c.O.head?.bind (fun t0 => Cost.codeLength (mapT Int.toNat c.tree) t0 none D)).getD u

open Classical in
/-- The comparisons in `extract_cycles_fold` for the events `al`, with `eff_trip` and `eff_chain` equal to `one`, `/repo/skmine/periodic/extract_cycles.py:326,331`. -/
noncomputable def exactPar (u : ℝ) (D : Cost.Details ℕ) (al : Cost.Alpha ℕ) (one : ℝ) : Fold.Par :=
  let cyc := fun l => (Cost.lengthCycleNone D al l).getD u
  let trip := fun dE dp => (Cost.costTriple D al dp dE).getD u
  ⟨fun dE => decide ((dE : ℝ) < (Cost.log2 ((D.deltaT + 1 : ℤ) : ℝ)).getD u - 2),
   fun dE dp => decide ((one < 0 ∧ trip dE dp < -2 * one) ∨ trip dE dp / 3 < one),
   fun l => decide ((one < 0 ∧ cyc l < -one * ((l.length : ℝ) - 1)) ∨ cyc l / (l.length : ℝ) < one), none⟩

/-- The order of `keep.sort()`, `/repo/skmine/periodic/run_mine.py:447`: size, key, start, indices. -/
def keepLE (a b : ℤ × List Char × ℤ × List ℕ) : Prop :=
  a.1 < b.1 ∨ (a.1 = b.1 ∧ (a.2.1 < b.2.1 ∨ (a.2.1 = b.2.1 ∧ (a.2.2.1 < b.2.2.1 ∨ (a.2.2.1 = b.2.2.1 ∧ a.2.2.2 ≤ b.2.2.2)))))

open Classical in
/-- The costs in the search for complex patterns: `computeCost`; the quotient of the cost of a cycle and of one occurrence; `cost_one` of the events; sums of costs; `-getCostNoE` of the candidate that comes first in its group. Which candidate comes
first is given by `first` from the candidates, the level and the key; the events passed to the search are given by `tup`. -/
noncomputable def exactWorld (u : ℝ) (D : Cost.Details ℕ) (tup : AnyCand → Cost.Alpha ℕ) (first : List (PC ℝ) → ℕ → List Char → ℕ) : World ℝ where
  patt := exactPatt u D
  floor c := match c.cand with
    | .cycle a _ _ _ => ⌊c.cost / (Cost.costOne D a.toNat).getD u⌋
    | .pattern _ => 0
  dcosts := D.nb.map (fun e => ((e.1 : ℤ), (Cost.costOne D e.1).getD u))
  env l := Nest.foldEnv (fun a b => decide ((a.map (fun i => ((l[i]?).map (fun c => c.cost)).getD 0)).sum < (b.map (fun i => ((l[i]?).map (fun c => c.cost)).getD 0)).sum))
    (fun lvl key => match l[first l lvl key]? with
      | some c => exactPar u D (tup c.cand) (-exactNoE u D c.cand)
      | none => exactPar u D (.many []) u)
    (fun l => (Mine.computePeriod l).getD 0) (fun k => k.insertionSort keepLE)

theorem alphaAndR_move {t : ℤ} {D D' : Cost.Details ℕ} (h : DMove t D D') (al : Cost.Alpha ℕ) : Cost.alphaAndR D' al = Cost.alphaAndR D al := by
  cases al <;> simp only [Cost.alphaAndR, Cost.adjFreq, h.nb, h.total]

theorem lengthCycle_move {t : ℤ} {D D' : Cost.Details ℕ} (h : DMove t D D') (al : Cost.Alpha ℕ) (l : List ℤ) (p : ℤ) (b : Bool) : Cost.lengthCycle D' al (sh t l) p b = Cost.lengthCycle D al l p b := by
  unfold Cost.lengthCycle Cost.lengthEOccs Cost.computeE
  rw [alphaAndR_move h, h.deltaT, diff_sh, sh_length]

theorem lengthCycleNone_move {t : ℤ} {D D' : Cost.Details ℕ} (h : DMove t D D') (al : Cost.Alpha ℕ) (l : List ℤ) : Cost.lengthCycleNone D' al (sh t l) = Cost.lengthCycleNone D al l := by
  unfold Cost.lengthCycleNone
  rw [computePeriod_sh]
  congr 1
  funext p
  exact lengthCycle_move h al l p false

theorem costTriple_move {t : ℤ} {D D' : Cost.Details ℕ} (h : DMove t D D') : Cost.costTriple D' = Cost.costTriple D := by
  funext al dp e
  unfold Cost.costTriple
  rw [alphaAndR_move h, h.deltaT]

theorem exactPar_move {t : ℤ} {D D' : Cost.Details ℕ} (h : DMove t D D') (u : ℝ) (al : Cost.Alpha ℕ) (one : ℝ) : ParShift t (exactPar u D al one) (exactPar u D' al one) := by
  refine ⟨?_, ?_, ?_, rfl⟩
  · simp only [exactPar, h.deltaT]
  · simp only [exactPar, costTriple_move h]
  · intro l
    simp only [exactPar, lengthCycleNone_move h, sh_length]

theorem exactPatt_move {t : ℤ} {D D' : Cost.Details ℕ} (h : DMove t D D') (u : ℝ) (E : Option (List ℤ)) (c : Cand ℤ) :
    ((mvC t c).O.head?.bind (fun t0 => Cost.codeLength (mapT Int.toNat (mvC t c).tree) t0 E D')) = (c.O.head?.bind (fun t0 => Cost.codeLength (mapT Int.toNat c.tree) t0 E D)) := by
  change (sh t c.O).head?.bind (fun t0 => Cost.codeLength (mapT Int.toNat c.tree) t0 E D') = _
  rw [head_sh]
  cases c.O.head? with
  | none => rfl
  | some t0 =>
    simp only [Option.map_some, Option.bind_some]
    exact codeLength_move h _ t0 E

theorem exactNoE_move {t : ℤ} {D D' : Cost.Details ℕ} (h : DMove t D D') (u : ℝ) (a : AnyCand) : exactNoE u D' (mvA t a) = exactNoE u D a := by
  cases a with
  | cycle a p O E =>
    simp only [mvA, exactNoE]
    rw [lengthCycle_move h]
  | pattern c =>
    simp only [mvA, exactNoE]
    rw [exactPatt_move h u none]

theorem costOne_move {t : ℤ} {D D' : Cost.Details ℕ} (h : DMove t D D') (a : ℕ) : Cost.costOne D' a = Cost.costOne D a := by
  unfold Cost.costOne Cost.orgFreq
  rw [h.nb, h.deltaT, h.total]

/-- The costs of the code do not see the origin of times. -/
theorem exactWorld_move {t : ℤ} {D D' : Cost.Details ℕ} (h : DMove t D D') (u : ℝ) (tup : AnyCand → Cost.Alpha ℕ) (ht : ∀ a, tup (mvA t a) = tup a) (first : List (PC ℝ) → ℕ → List Char → ℕ) (hf : ∀ l, first (l.map (mvPC t)) = first l) :
    WorldMove t (exactWorld u D tup first) (exactWorld u D' tup first) := by
  refine ⟨fun c => ?_, fun c => ?_, ?_, fun l => ?_⟩
  · simp only [exactWorld, exactPatt]
    rw [exactPatt_move h u]
    rfl
  · obtain ⟨a, cost⟩ := c
    cases a with
    | cycle a p O E => simp only [exactWorld, mvPC, mvA, costOne_move h]
    | pattern c => rfl
  · simp only [exactWorld, h.nb, costOne_move h]
  · have hcost : ∀ i : ℕ, (((l.map (mvPC t))[i]?).map (fun c => c.cost)).getD 0 = ((l[i]?).map (fun c => c.cost)).getD 0 := by
      intro i
      rw [List.getElem?_map, Option.map_map]
      rfl
    simp only [exactWorld, hcost]
    refine foldEnv_move t _ _ _ _ _ _ _ (fun lvl key => ?_) (fun ts => by rw [computePeriod_sh]) (fun k => ?_)
    · rw [hf, List.getElem?_map]
      cases l[first l lvl key]? with
      | none => exact exactPar_move h u _ _
      | some c =>
        simp only [Option.map_some]
        have e1 : tup (mvPC t c).cand = tup c.cand := ht c.cand
        have e2 : exactNoE u D' (mvPC t c).cand = exactNoE u D c.cand := exactNoE_move h u c.cand
        rw [e1, e2]
        exact exactPar_move h u _ _
    · classical
      refine (List.map_insertionSort _ _ (mvK t) k ?_).symm
      intro a _ b _
      simp only [keepLE, mvK, add_lt_add_iff_right, add_left_inj]

/-- C126, with the costs of the code (exact real numbers): for a nonempty series the complex patterns found do not depend on the origin of times. -/
theorem complex_shift_exact {ε : Type} [LinearOrder ε] (c : ℤ) (rows : List (ℤ × ε)) (h : rows.Pairwise (fun a b => a.1 ≤ b.1)) (hr : rows ≠ []) (u : ℝ) (maxP : Option ℤ) (tup : AnyCand → Cost.Alpha ℕ) (ht : ∀ a, tup (mvA c a) = tup a)
    (first : List (PC ℝ) → ℕ → List Char → ℕ) (hf : ∀ l, first (l.map (mvPC c)) = first l) :
    ∃ m m', fitData false rows = .ok m ∧ fitData false (moveRows c rows) = .ok m' ∧ ∃ F, ∀ fuel, F ≤ fuel → ∀ (Q : ℕ → Orders) (n : ℕ),
      (mineComplex (exactWorld u (details m'.data) tup first) (exactCosts u maxP (details m'.data)) Q fuel n m'.data).map Prod.snd =
        (mineComplex (exactWorld u (details m.data) tup first) (exactCosts u maxP (details m.data)) Q fuel n m.data).map (fun r => r.2.map (movePatt c)) := by
  obtain ⟨m, m', h1, h2, -, -, F, hF⟩ := complex_shift (K := ℝ) c rows h
  have hD := details_move c rows hr m m' h1 h2
  refine ⟨m, m', h1, h2, F, ?_⟩
  intro fuel hf' Q n
  have hA : ∀ a, CostsShift c (exactCosts u maxP (details m.data) a) (exactCosts u maxP (details m'.data) a) := by
    intro a
    rw [(costs_congr (details m.data) (details m'.data) hD.nb hD.deltaT).2]
    exact exactCosts_shift u maxP (details m.data) c a
  obtain ⟨k1, k2⟩ := hF fuel hf' _ _ _ _ (exactWorld_move hD u tup ht first hf) hA Q n
  cases hr1 : mineComplex (exactWorld u (details m.data) tup first) (exactCosts u maxP (details m.data)) Q fuel n m.data with
  | none =>
    rw [k1.2 hr1]
    rfl
  | some r =>
    obtain ⟨s', e, -⟩ := k2 r.1 r.2 hr1
    rw [e]
    rfl

end Exact

/-! ### Example -/

theorem exLine_sh (t : ℤ) (l : List ℤ) : exLine (sh t l) = exLine l := by
  unfold exLine
  rw [computePeriod_sh, computeE_move]

theorem exPar_move (t one : ℤ) : ParShift t (exPar one) (exPar one) :=
  ⟨rfl, rfl, fun l => by simp only [exPar, exLine_sh, sh_length], rfl⟩

/-- The costs of the example do not see the origin of times. -/
theorem exW_move (t : ℤ) : WorldMove t exW exW :=
  ⟨fun _ => rfl, fun _ => rfl, rfl, fun _ => foldEnv_move t _ _ _ _ _ _ _ (fun _ _ => exPar_move t 100) (fun ts => by rw [computePeriod_sh]) (fun _ => rfl)⟩

theorem exA_move (t : ℤ) (a : ℕ) : CostsShift t (exA a) (exA a) :=
  ⟨fun l => by simp only [exA, exLine_sh], rfl, rfl, exPar_move t _⟩

/-- The run of `exRun₃`, which makes two rounds of combinations, and the same series a thousand later. -/
example : ((fitData false exRows).toOption.bind (fun m => (mineComplex exW exA (fun _ => exQ) 100 1 m.data).map (fun r => (r.1.pool.candidates.length, r.2.map (fun q => getCovSeq q.1 q.2.1 q.2.2))))).isSome = true ∧
    ((fitData false (moveRows 1000 exRows)).toOption.bind (fun m => (mineComplex exW exA (fun _ => exQ) 100 1 m.data).map (fun r => (r.1.pool.candidates.length, r.2.map (fun q => getCovSeq q.1 q.2.1 q.2.2))))) =
      ((fitData false exRows).toOption.bind (fun m => (mineComplex exW exA (fun _ => exQ) 100 1 m.data).map (fun r => (r.1.pool.candidates.length, r.2.map (fun q => (getCovSeq q.1 q.2.1 q.2.2).map (moveRows 1000)))))) := by
  decide +kernel

/-- The functions that are left open in `complex_shift_exact` exist: the events of the candidate, and the first candidate. -/
example (t : ℤ) : (∀ a, (fun a : AnyCand => (Cost.Alpha.many ((intTuple a).map Int.toNat) : Cost.Alpha ℕ)) (mvA t a) = Cost.Alpha.many ((intTuple a).map Int.toNat)) ∧ ∀ l : List (PC ℝ), (fun (_ : List (PC ℝ)) (_ : ℕ) (_ : List Char) => 0) (l.map (mvPC t)) = fun _ _ => 0 :=
  ⟨fun a => by simp only [intTuple_mv], fun _ => rfl⟩

end Verif.Complex
