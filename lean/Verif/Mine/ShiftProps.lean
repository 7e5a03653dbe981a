import Verif.Mine.ShiftLemmas
import Verif.Cost.Model

/-!
# The origin of times does not matter to the simple miner (C116)

Source: `/repo/skmine/periodic/cycles.py:97-191`, `/repo/skmine/periodic/run_mine.py:813-1000`. The models are those of C71 (fit and mining of simple cycles) and C72 (costs).
-/

set_option autoImplicit false
set_option linter.unusedSectionVars false

namespace Verif.Mine

open Verif.DataSeq Verif.Miner Verif.PTree Verif.TimeScale

/-! ### What is moved -/

/-- The rows of a series, all times moved by `c`. -/
def moveRows {β : Type} (c : ℤ) (rows : List (ℤ × β)) : List (ℤ × β) := rows.map (fun x => (x.1 + c, x.2))

/-- The same pattern (tree and corrections), starting `c` later. -/
def movePatt (c : ℤ) (q : Patt) : Patt := (q.1, q.2.1 + c, q.2.2)

/-- Two data sequences with the same events, the times of the second moved by `c`. -/
structure Moved {ε : Type} (c : ℤ) (d d' : Built ε) : Prop where
  listEv : d'.listEv = d.listEv
  counts : d'.evNbOccs = d.evNbOccs
  seqd : d'.seqd = d.seqd.map (fun e => (e.1, sh c e.2))
  seql : d'.seql = moveRows c d.seql
  deltaT : d'.deltaT = d.deltaT
  span : d'.tEnd - d'.tStart = d.tEnd - d.tStart

section Data

variable {ε : Type} [LinearOrder ε]

theorem move_inj {β : Type} (c : ℤ) : Function.Injective (fun x : ℤ × β => (x.1 + c, x.2)) := fun a b h => by
  simp only [Prod.mk.injEq, add_left_inj] at h
  exact Prod.ext h.1 h.2

theorem keepFirst_map {β γ : Type} [DecidableEq β] [DecidableEq γ] (f : β → γ) (hf : Function.Injective f) : ∀ (l seen : List β), keepFirst (seen.map f) (l.map f) = (keepFirst seen l).map f := by
  intro l
  induction l with
  | nil => intro seen; rfl
  | cons a l ih =>
    intro seen
    rw [List.map_cons, keepFirst, keepFirst]
    simp only [List.mem_map_of_injective hf]
    by_cases h : a ∈ seen
    · rw [if_pos h, if_pos h, ih]
    · rw [if_neg h, if_neg h, List.map_cons, ← ih, List.map_cons]

theorem dedupRows_move (c : ℤ) (rows : List (ℤ × ε)) : dedupRows (moveRows c rows) = moveRows c (dedupRows rows) := by
  have e : (moveRows c rows).map Prod.fst = sh c (rows.map Prod.fst) := by
    unfold moveRows sh; rw [List.map_map, List.map_map]; rfl
  unfold dedupRows
  rw [e]
  have hn : (sh c (rows.map Prod.fst)).Nodup ↔ (rows.map Prod.fst).Nodup := List.nodup_map_iff (sh_inj c)
  by_cases h : (rows.map Prod.fst).Nodup
  · rw [if_pos h, if_pos (hn.2 h)]
  · rw [if_neg h, if_neg (fun h' => h (hn.1 h'))]
    have ek : keepFirst [] (sh c (rows.map Prod.fst)) = sh c (keepFirst [] (rows.map Prod.fst)) := keepFirst_map _ (sh_inj c) _ []
    rw [ek, sorted_sh, show ∀ l : List (ℤ × ε), moveRows c l = l.map (fun x => (x.1 + c, x.2)) from fun _ => rfl, show ∀ l : List (ℤ × ε), moveRows c l = l.map (fun x => (x.1 + c, x.2)) from fun _ => rfl, List.map_flatMap, sh, List.flatMap_map]
    refine List.flatMap_congr ?_
    intro t _
    have ef : (moveRows c rows).filter (fun x => decide (x.1 = t + c)) = (rows.filter (fun x => decide (x.1 = t))).map (fun x => (x.1 + c, x.2)) := by
      unfold moveRows
      rw [List.filter_map]
      congr 1
      refine List.filter_congr ?_
      intro x _
      simp
    refine (congrArg (keepFirst []) ef).trans ?_
    exact keepFirst_map _ (move_inj c) _ []

theorem addTime_sh (c t : ℤ) (e : ε) : ∀ tmp : List (ε × List ℤ), addTime (tmp.map (fun q => (q.1, sh c q.2))) (t + c) e = (addTime tmp t e).map (fun q => (q.1, sh c q.2)) := by
  intro tmp
  induction tmp with
  | nil => rfl
  | cons q tmp ih =>
    obtain ⟨e', ts⟩ := q
    rw [List.map_cons, addTime, addTime]
    by_cases h : e' = e
    · rw [if_pos h, if_pos h]; simp [sh]
    · rw [if_neg h, if_neg h, ih]; rfl

theorem group_move (c : ℤ) (seq : List (ℤ × ε)) : group (moveRows c seq) = (group seq).map (fun q => (q.1, sh c q.2)) := by
  unfold group moveRows
  rw [List.foldl_map]
  have : ∀ (l : List (ℤ × ε)) (tmp : List (ε × List ℤ)), l.foldl (fun tmp x => addTime tmp (x.1 + c) x.2) (tmp.map (fun q => (q.1, sh c q.2))) =
      (l.foldl (fun tmp x => addTime tmp x.1 x.2) tmp).map (fun q => (q.1, sh c q.2)) := by
    intro l
    induction l with
    | nil => intro tmp; rfl
    | cons x l ih => intro tmp; rw [List.foldl_cons, List.foldl_cons, addTime_sh, ih]
  exact this seq []

theorem ofList_move (c : ℤ) (seq : List (ℤ × ε)) : ∃ d d', ofList seq = .ok d ∧ ofList (moveRows c seq) = .ok d' ∧ Moved c d d' := by
  have hg : group (moveRows c seq) = (group seq).map (fun q => (q.1, sh c q.2)) := group_move c seq
  have hk : (group (moveRows c seq)).map Prod.fst = (group seq).map Prod.fst := by rw [hg, List.map_map]; rfl
  obtain ⟨d, a1, a2, -, a4, a5, a6, a7, a8⟩ := ofDict_ok (group seq) (group_nodup seq) (fun q hq => (group_entry seq q.1 q.2 hq).2)
  obtain ⟨d', b1, b2, -, b4, b5, b6, b7, b8⟩ := ofDict_ok (group (moveRows c seq)) (group_nodup _) (fun q hq => (group_entry _ q.1 q.2 hq).2)
  have e1 : d'.listEv = d.listEv := by rw [b2, a2, hk]
  have e2 : d'.seqd = d.seqd.map (fun e => (e.1, sh c e.2)) := by
    rw [b4, a4, hg, e1, List.map_map, List.map_map]; rfl
  have hspan : d'.tEnd - d'.tStart = d.tEnd - d.tStart := by
    by_cases hne : group seq = []
    · have h0 : seq = [] := by
        cases seq with
        | nil => rfl
        | cons x l =>
          have := (group_keys_mem (x :: l) x.2).2 (by simp)
          rw [hne] at this
          simp at this
      subst h0
      rw [show moveRows c ([] : List (ℤ × ε)) = [] from rfl, a1] at b1
      injection b1 with b1
      rw [b1]
    · obtain ⟨⟨q1, hq1, hs1⟩, ⟨q2, hq2, hs2⟩, hall⟩ := a8 hne
      obtain ⟨⟨r1, hr1, ht1⟩, ⟨r2, hr2, ht2⟩, hall'⟩ := b8 (by rw [hg]; simpa using hne)
      rw [hg] at hr1 hr2
      obtain ⟨p1, hp1, rfl⟩ := List.mem_map.1 hr1
      obtain ⟨p2, hp2, rfl⟩ := List.mem_map.1 hr2
      obtain ⟨u1, hu1, e1'⟩ := List.mem_map.1 ht1
      obtain ⟨u2, hu2, e2'⟩ := List.mem_map.1 ht2
      have k1 := hall p1 hp1 u1 hu1
      have k2 := hall p2 hp2 u2 hu2
      have k3 := hall' (q1.1, sh c q1.2) (by rw [hg]; exact List.mem_map.2 ⟨q1, hq1, rfl⟩) (d.tStart + c) (mem_sh.2 hs1)
      have k4 := hall' (q2.1, sh c q2.2) (by rw [hg]; exact List.mem_map.2 ⟨q2, hq2, rfl⟩) (d.tEnd + c) (mem_sh.2 hs2)
      omega
  refine ⟨d, d', a1, b1, e1, ?_, e2, ?_, by rw [a7, b7, hspan], hspan⟩
  · rw [b6, a6, e2, List.map_map]
    refine List.map_congr_left ?_
    intro e _
    simp
  · rw [b5, a5, e2, moveRows, List.map_insertionSort (r := pairLe) (s := pairLe)]
    · congr 1
      rw [List.flatMap_map, List.map_flatMap]
      refine List.flatMap_congr ?_
      intro e _
      simp [sh]
    · intro x _ y _
      simp [pairLe]

theorem fitData_move (c : ℤ) (rows : List (ℤ × ε)) : ∃ m m', fitData false rows = .ok m ∧ fitData false (moveRows c rows) = .ok m' ∧ Moved c m.data m'.data ∧
    m.nZeros = 0 ∧ m.divNbSec = 1 ∧ m'.nZeros = 0 ∧ m'.divNbSec = 1 := by
  obtain ⟨d, d', h1, h2, h3⟩ := ofList_move c (dedupRows rows)
  refine ⟨⟨d, 0, 1⟩, ⟨d', 0, 1⟩, ?_, ?_, h3, rfl, rfl, rfl, rfl⟩
  · simp [fitData, h1, Except.map]
  · simp [fitData, dedupRows_move, h2, Except.map]

theorem lookup_snd {β γ δ : Type} [BEq β] (f : γ → δ) (k : β) : ∀ l : List (β × γ), (l.map (fun e => (e.1, f e.2))).lookup k = (l.lookup k).map f := by
  intro l
  induction l with
  | nil => rfl
  | cons a l ih =>
    obtain ⟨b, v⟩ := a
    simp only [List.map_cons, List.lookup_cons]
    cases k == b with
    | true => rfl
    | false => exact ih

theorem getSequence_move {c : ℤ} {d d' : Built ε} (h : Moved c d d') (k : ℕ) : getSequence d' k = sh c (getSequence d k) := by
  unfold getSequence
  rw [h.seqd, lookup_snd]
  cases d.seqd.lookup k <;> rfl

end Data

/-! ### The pool and the selection -/

section Mine

variable {K : Type} [Field K] [LinearOrder K] [IsStrictOrderedRing K] {ε R κ R' κ' : Type} [LinearOrder ε] [LinearOrder κ] [LinearOrder κ']

/-- The candidates of the pool are the initial candidates of the events, in order. -/
theorem poolLoop_all (rows : (ℕ × Cyc K) → ℕ → ℕ → Bool → List R) (rk : R → κ) (W : ℕ → Costs K) (fuel : ℕ) (ds : Built ε) (hd : ∀ k, (getSequence ds k).Pairwise (· < ·))
    (hf : ∀ k, (getSequence ds k).length + 2 ≤ fuel) (n : ℕ) :
    ∃ s, (List.range n).foldlM (poolLoop rows rk W fuel ds) CandPool.empty = some s ∧ s.candidates.map Prod.fst = List.range s.candidates.length ∧
      s.candidates.map Prod.snd = (List.range n).flatMap (fun k => ((mineAlpha (W k) fuel k (getSequence ds k)).getD []).map (fun c => (k, c))) ∧ CandPool.Inv (cycOps rows) s ∧ CandPool.PidsOk rk s := by
  induction n with
  | zero => exact ⟨CandPool.empty, rfl, rfl, rfl, CandPool.empty_inv _, Or.inl ⟨rfl, rfl⟩⟩
  | succ n ih =>
    obtain ⟨s, h1, -, h4, h2, h3⟩ := ih
    obtain ⟨cycles, out, -, hout, ho1, ho2, ho3, -⟩ := mineAlpha_sound (W n) fuel n (getSequence ds n) (hd n) (hf n)
    obtain ⟨f1, f2, f3, f4, f5, f6, f7, f8, f9⟩ := CandPool.recordKey_fields s (none : Option String)
    obtain ⟨s', k1, k2, k3, k4⟩ := addLoop_fresh (cycOps rows) rk (none : Option String) true (out.map (fun c => (n, c))) (CandPool.recordKey s none) []
      ⟨by rw [f1, f2]; exact h2.ids, by rw [f1, f3]; exact h2.keys, by rw [f1]; exact h2.nodup⟩ (by unfold CandPool.PidsOk at h3 ⊢; rw [f6, f7]; exact h3) (by
        intro c hc hmem
        obtain ⟨x, hx, rfl⟩ := List.mem_map.1 hc
        rw [f1] at hmem
        obtain ⟨e, he, hk⟩ := List.mem_map.1 hmem
        have h' := (cyc_key_same rows _ _ hk).1
        have : e.2 ∈ s.candidates.map Prod.snd := List.mem_map.2 ⟨e, he, rfl⟩
        rw [h4] at this
        obtain ⟨k, hk', he'⟩ := List.mem_flatMap.1 this
        obtain ⟨y, -, e1⟩ := List.mem_map.1 he'
        rw [List.mem_range] at hk'
        rw [← e1] at h'
        simp only at h'
        omega) (by
        rw [List.map_map, List.Nodup, List.pairwise_map]
        refine ho3.imp ?_
        intro a b hab hk
        exact hab (cyc_key_same rows _ _ hk).2)
    rw [f1] at k4
    refine ⟨s', ?_, ?_, ?_, k2, k3⟩
    · rw [List.range_succ, List.foldlM_append, h1]
      simp only [Option.bind_eq_bind, Option.bind_some, List.foldlM_cons, List.foldlM_nil, Option.pure_def, Option.bind_fun_some]
      unfold poolLoop
      rw [hout, Option.bind_some, CandPool.addCands, k1]
    · have := k2.ids
      have hl := congrArg List.length this
      rw [List.length_map, List.length_range] at hl
      rw [this, hl]
    · rw [k4, h4, List.range_succ, List.flatMap_append]
      simp [hout]

theorem eq_zip {β γ : Type} (l : List (β × γ)) : l = (l.map Prod.fst).zip (l.map Prod.snd) := by
  induction l with
  | nil => rfl
  | cons a l ih => rw [List.map_cons, List.map_cons, List.zip_cons_cons, ← ih]

theorem pool_move (rows : (ℕ × Cyc K) → ℕ → ℕ → Bool → List R) (rk : R → κ) (rows' : (ℕ × Cyc K) → ℕ → ℕ → Bool → List R') (rk' : R' → κ') {c : ℤ} (W W' : ℕ → Costs K) (hW : ∀ a, CostsShift c (W a) (W' a)) (fuel : ℕ)
    (d d' : Built ε) (h : Moved c d d') (hd : ∀ k, (getSequence d k).Pairwise (· < ·)) (hf : ∀ k, (getSequence d k).length + 2 ≤ fuel) (n : ℕ) :
    ∃ s s', (List.range n).foldlM (poolLoop rows rk W fuel d) CandPool.empty = some s ∧ (List.range n).foldlM (poolLoop rows' rk' W' fuel d') CandPool.empty = some s' ∧
      s'.candidates = s.candidates.map (fun e => (e.1, (e.2.1, shCyc c e.2.2))) := by
  obtain ⟨s, a1, a2, a3, -⟩ := poolLoop_all rows rk W fuel d hd hf n
  obtain ⟨s', b1, b2, b3, -⟩ := poolLoop_all rows' rk' W' fuel d' (fun k => by rw [getSequence_move h]; exact sh_sorted (hd k)) (fun k => by rw [getSequence_move h, sh_length]; exact hf k) n
  refine ⟨s, s', a1, b1, ?_⟩
  have e : s'.candidates.map Prod.snd = (s.candidates.map Prod.snd).map (fun e => (e.1, shCyc c e.2)) := by
    rw [b3, a3, List.map_flatMap]
    refine List.flatMap_congr ?_
    intro k _
    rw [getSequence_move h, mineAlpha_sh (hW k) fuel k _ (hd k) (hf k)]
    cases mineAlpha (W k) fuel k (getSequence d k) with
    | none => rfl
    | some cs => simp
  have hl : s'.candidates.length = s.candidates.length := by
    have := congrArg List.length e
    simpa using this
  rw [eq_zip s'.candidates, b2, e, hl, ← a2]
  conv_rhs => rw [eq_zip s.candidates]
  rw [List.zip_map_right]
  rfl

end Mine

section Sel

variable {K : Type} [Field K] [LinearOrder K] {ω β : Type} [DecidableEq ω] [BEq β]

theorem isEfficient_map (f : ω ↪ ω) (ev : ω → β) (hev : ∀ o, ev (f o) = ev o) (dcosts : List (β × K)) (cost : K) (u : Finset ω) :
    Select.isEfficient dcosts ev cost (u.map f) = Select.isEfficient dcosts ev cost u := by
  unfold Select.isEfficient Select.sumCosts
  rw [Finset.card_map, Finset.sum_map]
  simp only [hev, Finset.mem_map, forall_exists_index, and_imp, forall_apply_eq_imp_iff₂]

theorem loop_map (f : ω ↪ ω) (ev : ω → β) (hev : ∀ o, ev (f o) = ev o) (dcosts : List (β × K)) (C C' : Select.Cands K ω) (hC : C'.cost = C.cost) (minCov : ℕ) (maxEff : K) :
    ∀ (n : ℕ) (cis : List ℕ) (u u' : ℕ → Finset ω) (sel : List ℕ), (∀ i, u' i = (u i).map f) →
      Select.loop C' dcosts ev minCov maxEff n cis u' sel = Select.loop C dcosts ev minCov maxEff n cis u sel := by
  have hr : ∀ (cost : K) (v : Finset ω), Select.ratio cost (v.map f) = Select.ratio cost v := by
    intro cost v; unfold Select.ratio; rw [Finset.card_map]
  intro n
  induction n with
  | zero =>
    intro cis u u' sel _
    cases cis <;> rfl
  | succ n ih =>
    intro cis u u' sel hu
    cases cis with
    | nil => rfl
    | cons x cis =>
      rw [Select.loop, Select.loop, hC, hu x, hr, Finset.card_map, isEfficient_map f ev hev]
      have hu' : ∀ i, (if i ∈ cis then u' i \ (u x).map f else u' i) = (if i ∈ cis then u i \ u x else u i).map f := by
        intro i
        rw [hu i]
        by_cases hi : i ∈ cis
        · rw [if_pos hi, if_pos hi, Finset.map_sdiff]
        · rw [if_neg hi, if_neg hi]
      have hk : ∀ (v v' : ℕ → Finset ω), (∀ i, v' i = (v i).map f) → ∀ l, Select.sortCis C' v' (Select.keepCis C' minCov maxEff v' l) = Select.sortCis C v (Select.keepCis C minCov maxEff v l) := by
        intro v v' hv l
        unfold Select.sortCis Select.keepCis
        simp only [hC, hv, hr, Finset.card_map]
      split_ifs with h1
      · cases Select.isEfficient dcosts ev (C.cost x) (u x) with
        | none => rfl
        | some b =>
          cases b with
          | false => exact ih cis u u' sel hu
          | true =>
            simp only
            rw [hk _ _ hu', ih _ _ _ _ hu']
      · exact ih cis u u' sel hu

theorem filterCover_map (f : ω ↪ ω) (ev : ω → β) (hev : ∀ o, ev (f o) = ev o) (dcosts : List (β × K)) (C C' : Select.Cands K ω) (hC : C'.cost = C.cost) (hO : ∀ i, C'.occs i = (C.occs i).map f) (minCov : ℕ) (cis : List ℕ) :
    Select.filterCover C' dcosts ev minCov cis = Select.filterCover C dcosts ev minCov cis := by
  unfold Select.filterCover
  cases dcosts.map Prod.snd with
  | nil => rfl
  | cons d ds =>
    simp only
    have hs : Select.sortCis C' C'.occs cis = Select.sortCis C C.occs cis := by
      unfold Select.sortCis
      have hr : ∀ i, Select.ratio (C'.cost i) (C'.occs i) = Select.ratio (C.cost i) (C.occs i) := by
        intro i; rw [hC, hO]; unfold Select.ratio; rw [Finset.card_map]
      simp only [hr]
    rw [hs, loop_map f ev hev dcosts C C' hC minCov _ _ _ _ _ _ hO]

end Sel

/-- Moving occurrences, as an embedding. -/
def moveEmb (c : ℤ) : (ℤ × ℕ) ↪ (ℤ × ℕ) := ⟨fun x => (x.1 + c, x.2), move_inj c⟩

theorem computeE_move (c : ℤ) (p : ℤ) : ∀ l : List ℤ, Miner.computeE (sh c l) p = Miner.computeE l p
  | [] => rfl
  | [_] => rfl
  | a :: b :: l => by
    have := computeE_move c p (b :: l)
    simp only [sh, List.map_cons, Miner.computeE] at this ⊢
    rw [this]
    congr 1
    ring

theorem simplePatt_move (c : ℤ) (ev : ℕ) (O : List ℤ) (p : ℤ) : simplePatt ev (sh c O) p = (simplePatt ev O p).map (movePatt c) := by
  unfold simplePatt
  rw [computeE_move, sh_length]
  cases O <;> rfl

section Mine

variable {K : Type} [Field K] [LinearOrder K] [IsStrictOrderedRing K] {ε R κ R' κ' : Type} [LinearOrder ε] [LinearOrder κ] [LinearOrder κ']

theorem candsOf_move (c : ℤ) (cs : List (ℕ × (ℕ × Cyc K))) :
    (candsOf (cs.map (fun e => (e.1, (e.2.1, shCyc c e.2.2))))).cost = (candsOf cs).cost ∧
      ∀ i, (candsOf (cs.map (fun e => (e.1, (e.2.1, shCyc c e.2.2))))).occs i = ((candsOf cs).occs i).map (moveEmb c) := by
  constructor
  · funext i
    simp only [candsOf]
    rw [lookup_snd (fun x : ℕ × Cyc K => (x.1, shCyc c x.2)), Option.map_map]
    congr 1
  · intro i
    simp only [candsOf]
    rw [lookup_snd (fun x : ℕ × Cyc K => (x.1, shCyc c x.2)), Option.map_map]
    cases cs.lookup i with
    | none => simp
    | some x =>
      simp only [Option.map_some, Option.getD_some, Function.comp, shCyc]
      ext o
      simp only [List.mem_toFinset, List.mem_map, Finset.mem_map, sh]
      constructor
      · rintro ⟨_, ⟨t, ht, rfl⟩, rfl⟩
        exact ⟨(t, x.1), ⟨t, ht, rfl⟩, rfl⟩
      · rintro ⟨_, ⟨t, ht, rfl⟩, rfl⟩
        exact ⟨_, ⟨t, ht, rfl⟩, rfl⟩

/-- C116, on data sequences: the patterns found on the moved times are the patterns found on the times, moved. -/
theorem mineSimple_move (rows : (ℕ × Cyc K) → ℕ → ℕ → Bool → List R) (rk : R → κ) (rows' : (ℕ × Cyc K) → ℕ → ℕ → Bool → List R') (rk' : R' → κ') {c : ℤ} (W W' : ℕ → Costs K) (hW : ∀ a, CostsShift c (W a) (W' a)) (one : ℕ → K) (fuel : ℕ)
    (d d' : Built ε) (h : Moved c d d') (hd : ∀ k, (getSequence d k).Pairwise (· < ·)) (hf : ∀ k, (getSequence d k).length + 2 ≤ fuel) :
    mineSimple rows' rk' W' one fuel d' = (mineSimple rows rk W one fuel d).map (List.map (movePatt c)) := by
  obtain ⟨s, s', h1, h2, h3⟩ := pool_move rows rk rows' rk' W W' hW fuel d d' h hd hf d.listEv.length
  unfold mineSimple
  rw [h.listEv, h1, h2, Option.bind_some, Option.bind_some, h.counts]
  have hk : s'.candidates.map Prod.fst = s.candidates.map Prod.fst := by rw [h3, List.map_map]; rfl
  rw [hk, h3, filterCover_map (moveEmb c) Prod.snd (fun _ => rfl) _ _ _ (candsOf_move c s.candidates).1 (candsOf_move c s.candidates).2]
  cases Select.filterCover (candsOf s.candidates) (d.evNbOccs.map (fun e => (e.1, one e.1))) Prod.snd 3 (s.candidates.map Prod.fst) with
  | none => rfl
  | some sel =>
    simp only [Option.bind_some]
    have := mapM_map' (fun i => (s.candidates.lookup i).bind (fun x => Miner.simplePatt x.1 x.2.occs x.2.p))
      (fun i => ((s.candidates.map (fun e => (e.1, (e.2.1, shCyc c e.2.2)))).lookup i).bind (fun x => Miner.simplePatt x.1 x.2.occs x.2.p)) id (movePatt c) (by
        intro i
        simp only [id]
        rw [lookup_snd (fun x : ℕ × Cyc K => (x.1, shCyc c x.2))]
        cases s.candidates.lookup i with
        | none => rfl
        | some x => exact simplePatt_move c x.1 x.2.occs x.2.p) sel
    rw [List.map_id] at this
    exact this

/-- The occurrences generated by moved patterns. -/
theorem getCovSeq_move {α : Type} (c : ℤ) (T : PTree.Tree α) (t0 : ℤ) (E : List ℤ) : getCovSeq T (t0 + c) E = (getCovSeq T t0 E).map (moveRows c) := by
  unfold getCovSeq
  have := mapM_map' (fun o : ℤ × α × Path => (getCCorr T o.2.2 (getEDict (occsStar T [] 0) E)).map (fun k => (o.1 + t0 + k, o.2.1)))
    (fun o : ℤ × α × Path => (getCCorr T o.2.2 (getEDict (occsStar T [] 0) E)).map (fun k => (o.1 + (t0 + c) + k, o.2.1))) id (fun x : ℤ × α => (x.1 + c, x.2)) (by
      intro o
      rw [Option.map_map]
      congr 1
      funext k
      simp only [Function.comp, id, Prod.mk.injEq, and_true]
      ring) (occsStar T [] 0)
  rw [List.map_id] at this
  exact this

theorem occLists_move (c : ℤ) (ps : List Patt) : occLists (ps.map (movePatt c)) = (occLists ps).map (List.map (moveRows c)) :=
  mapM_map' _ _ _ _ (fun q => getCovSeq_move c q.1 q.2.1 q.2.2) ps

theorem uncovered_move (c : ℤ) (seql : List (ℤ × ℕ)) (ps : List Patt) : uncovered (moveRows c seql) (ps.map (movePatt c)) = (uncovered seql ps).map (Finset.map (moveEmb c)) := by
  unfold uncovered
  rw [occLists_move]
  cases occLists ps with
  | none => rfl
  | some ls =>
    simp only [Option.map_some, Option.some.injEq]
    have key : ∀ l : List (ℤ × ℕ), (moveRows c l).toFinset = l.toFinset.map (moveEmb c) := by
      intro l
      ext o
      simp only [List.mem_toFinset, Finset.mem_map, moveRows, List.mem_map]
      rfl
    rw [key]
    generalize seql.toFinset = s
    induction ls generalizing s with
    | nil => rfl
    | cons l ls ih => rw [List.map_cons, List.foldl_cons, List.foldl_cons, key, ← Finset.map_sdiff, ih]

theorem restore_one (t : ℤ) : restore 0 1 t = t := by simp [restore]

/-- `reconstruct` of moved patterns, for a sort that does not see the origin. -/
theorem reconstruct_move (srt : Frame ε → Frame ε) (c : ℤ) (hs : ∀ f : Frame ε, srt (f.map (fun r => (r.1, (r.2.1 + c, r.2.2)))) = (srt f).map (fun r => (r.1, (r.2.1 + c, r.2.2)))) (m m' : Fitted ε) (hm : Moved c m.data m'.data)
    (h1 : m.nZeros = 0) (h2 : m.divNbSec = 1) (h3 : m'.nZeros = 0) (h4 : m'.divNbSec = 1) (ps : List Patt) (ids : List ℕ) :
    reconstruct srt m' (ps.map (movePatt c)) ids = (reconstruct srt m ps ids).map (fun f => f.map (fun r => (r.1, (r.2.1 + c, r.2.2)))) := by
  have hdec : ∀ x : ℤ × ℕ, decode m' (x.1 + c, x.2) = (decode m x).map (fun r => (r.1 + c, r.2)) := by
    intro x
    unfold decode numToEv
    rw [hm.listEv, h1, h2, h3, h4, Option.map_map]
    simp only [restore_one]
    rfl
  have hrow : ∀ q : Patt, patternRows m' (movePatt c q) = (patternRows m q).map (moveRows c) := by
    intro q
    unfold patternRows
    simp only [movePatt]
    have hocc : getOccs q.1 (occsStar q.1 [] 0) (q.2.1 + c) q.2.2 = (getOccs q.1 (occsStar q.1 [] 0) q.2.1 q.2.2).map (sh c) := by
      unfold getOccs
      have := mapM_map' (fun o : ℤ × ℕ × Path => (getCCorr q.1 o.2.2 (getEDict (occsStar q.1 [] 0) q.2.2)).map (fun k => o.1 + q.2.1 + k))
        (fun o : ℤ × ℕ × Path => (getCCorr q.1 o.2.2 (getEDict (occsStar q.1 [] 0) q.2.2)).map (fun k => o.1 + (q.2.1 + c) + k)) id (· + c) (by
          intro o
          rw [Option.map_map]
          congr 1
          funext k
          simp only [Function.comp, id]
          ring) (occsStar q.1 [] 0)
      rw [List.map_id] at this
      exact this
    rw [hocc]
    cases getOccs q.1 (occsStar q.1 [] 0) q.2.1 q.2.2 with
    | none => rfl
    | some occs =>
      simp only [Option.map_some, Option.bind_some]
      rw [sh, List.zip_map_left]
      exact mapM_map' (decode m) (decode m') (Prod.map (· + c) id) (fun r => (r.1 + c, r.2)) (fun x => hdec x) _
  have hids : ids.mapM (fun i => ((ps.map (movePatt c))[i]?).bind (patternRows m')) = (ids.mapM (fun i => (ps[i]?).bind (patternRows m))).map (List.map (moveRows c)) := by
    have := mapM_map' (fun i : ℕ => (ps[i]?).bind (patternRows m)) (fun i : ℕ => ((ps.map (movePatt c))[i]?).bind (patternRows m')) id (moveRows c) (by
      intro i
      simp only [id]
      rw [List.getElem?_map]
      cases ps[i]? with
      | none => rfl
      | some q => exact hrow q) ids
    rw [List.map_id] at this
    exact this
  unfold reconstruct
  rw [hids]
  cases ids.mapM (fun i => (ps[i]?).bind (patternRows m)) with
  | none => rfl
  | some rs =>
    simp only [Option.map_some, Option.bind_some]
    have hfl : (rs.map (moveRows c)).flatten = rs.flatten.map (fun r => (r.1 + c, r.2)) := by rw [List.map_flatten]; rfl
    rw [hfl]
    by_cases h0 : rs.flatten = []
    · rw [if_pos h0, if_pos (by rw [h0]; rfl)]; rfl
    · rw [if_neg h0, if_neg (by simpa using h0), Option.map_some, List.zipIdx_map, List.map_map]
      have e : (rs.flatten.zipIdx.map (Prod.swap ∘ Prod.map (fun r : ℤ × ε => (r.1 + c, r.2)) id)) = (rs.flatten.zipIdx.map Prod.swap).map (fun r => (r.1, (r.2.1 + c, r.2.2))) := by
        rw [List.map_map]; rfl
      rw [e, hs]
      congr 1
      generalize srt (rs.flatten.zipIdx.map Prod.swap) = f
      have : ∀ (f : Frame ε) (seen : List (ℤ × ε)), dropDup (seen.map (fun r => (r.1 + c, r.2))) (f.map (fun r => (r.1, (r.2.1 + c, r.2.2)))) = (dropDup seen f).map (fun r => (r.1, (r.2.1 + c, r.2.2))) := by
        intro f
        induction f with
        | nil => intro seen; rfl
        | cons a f ih =>
          intro seen
          rw [List.map_cons, dropDup, dropDup]
          have hmem : (a.2.1 + c, a.2.2) ∈ seen.map (fun r : ℤ × ε => (r.1 + c, r.2)) ↔ a.2 ∈ seen := List.mem_map_of_injective (move_inj c) (a := a.2)
          by_cases hin : a.2 ∈ seen
          · rw [if_pos hin, if_pos (hmem.2 hin), ih]
          · rw [if_neg hin, if_neg (fun h => hin (hmem.1 h)), List.map_cons, ← ih, List.map_cons]
      exact this f []

/-! ### The theorem -/

/-- C116. A series in the order of time, `auto_time_scale=False`, and costs that do not see the origin of times. When all times of the series are moved by `c`, mining simple cycles finds the same patterns in the same order, with the same periods, repetitions and
corrections, each starting `c` later; `reconstruct` gives the same rows moved by `c`, for every choice of patterns and every sort that does not see the origin; the occurrences left over are the same, moved. -/
theorem shift_equivariant (rws : (ℕ × Cyc K) → ℕ → ℕ → Bool → List R) (rk : R → κ) (rws' : (ℕ × Cyc K) → ℕ → ℕ → Bool → List R') (rk' : R' → κ') (c : ℤ) (W W' : ℕ → Costs K) (hW : ∀ a, CostsShift c (W a) (W' a)) (one : ℕ → K)
    (rows : List (ℤ × ε)) (h : rows.Pairwise (fun a b => a.1 ≤ b.1)) :
    ∃ m m', fitData false rows = .ok m ∧ fitData false (moveRows c rows) = .ok m' ∧ m'.data.listEv = m.data.listEv ∧ m'.data.seql = moveRows c m.data.seql ∧
      ∃ F, ∀ fuel, F ≤ fuel → ∃ ps, mineSimple rws rk W one fuel m.data = some ps ∧ mineSimple rws' rk' W' one fuel m'.data = some (ps.map (movePatt c)) ∧
        (∀ srt : Frame ε → Frame ε, (∀ f, srt (f.map (fun r => (r.1, (r.2.1 + c, r.2.2)))) = (srt f).map (fun r => (r.1, (r.2.1 + c, r.2.2)))) → ∀ ids,
          (reconstruct srt m' (ps.map (movePatt c)) ids).map (List.map Prod.snd) = (reconstruct srt m ps ids).map (fun f => moveRows c (f.map Prod.snd))) ∧
        ∃ u u', uncovered m.data.seql ps = some u ∧ uncovered m'.data.seql (ps.map (movePatt c)) = some u' ∧ ∀ t a, (t + c, a) ∈ u' ↔ (t, a) ∈ u := by
  obtain ⟨m, m', h1, h2, h3, z1, z2, z3, z4⟩ := fitData_move c rows
  obtain ⟨m1, hm1, hd⟩ := fitData_dataOk false rows h
  rw [h1] at hm1
  obtain rfl : m = m1 := by injection hm1
  refine ⟨m, m', h1, h2, h3.listEv, h3.seql, (m.data.seqd.map (fun e => e.2.length)).sum + 2, ?_⟩
  intro fuel hF
  have hf : ∀ k, (getSequence m.data k).length + 2 ≤ fuel := by
    intro k
    unfold getSequence
    cases hlk : m.data.seqd.lookup k with
    | none => simp; omega
    | some ts =>
      have := List.le_sum_of_mem (List.mem_map.2 ⟨(k, ts), lookup_mem' hlk, rfl⟩ : ts.length ∈ m.data.seqd.map (fun e => e.2.length))
      rw [Option.getD_some]
      omega
  obtain ⟨_, _, ps, _, hp, _, _, _, _, _, _, _, hfrom⟩ := mineSimple_ok rws rk W one fuel m.data hd hf
  obtain ⟨ls, u, hls, hu, -⟩ := cover_and_uncovered m.data.seql ps hfrom
  refine ⟨ps, hp, ?_, ?_, u, u.map (moveEmb c), hu, ?_, ?_⟩
  · rw [mineSimple_move rws rk rws' rk' W W' hW one fuel m.data m'.data h3 hd.1 hf, hp]; rfl
  · intro srt hs ids
    rw [reconstruct_move srt c hs m m' h3 z1 z2 z3 z4, Option.map_map]
    congr 1
    funext f
    simp [moveRows]
  · rw [h3.seql, uncovered_move, hu]; rfl
  · intro t a
    exact Finset.mem_map' (moveEmb c) (a := (t, a))

end Mine

/-! ### The costs of the code -/

section Exact

/-- `data_details` of a data sequence, `/repo/skmine/periodic/data_sequence.py:68-82`. -/
def details {ε : Type} (d : Built ε) : Cost.Details ℕ := ⟨d.evNbOccs, d.tStart, d.tEnd⟩

open Classical in
/-- The costs passed to the search for the event `a`: `computeLengthCycle`, `computeLengthResidual` of one occurrence, `cost_triple`, the bound `log2(deltaT + 1) - 2` (`/repo/skmine/periodic/run_mine.py:231`) and the comparisons with
`costOne` (`/repo/skmine/periodic/extract_cycles.py:326,331`). Undefined logarithms have the arbitrary value `u`. -/
noncomputable def exactCosts (u : ℝ) (maxP : Option ℤ) (D : Cost.Details ℕ) (a : ℕ) : Costs ℝ :=
  let one := (Cost.costOne D a).getD u
  let cyc := fun l => (Cost.lengthCycleNone D (.one a) l).getD u
  let trip := fun dE dp => (Cost.costTriple D (.one a) dp dE).getD u
  ⟨cyc, one, trip,
    ⟨fun dE => decide ((dE : ℝ) < (Cost.log2 ((D.deltaT + 1 : ℤ) : ℝ)).getD u - 2),
     fun dE dp => decide ((one < 0 ∧ trip dE dp < -2 * one) ∨ trip dE dp / 3 < one),
     fun l => decide ((one < 0 ∧ cyc l < -one * ((l.length : ℝ) - 1)) ∨ cyc l / (l.length : ℝ) < one), maxP⟩⟩

/-- The costs of simple cycles depend on the numbers of occurrences and on `deltaT` only. -/
theorem costs_congr (D D' : Cost.Details ℕ) (h1 : D'.nb = D.nb) (h2 : D'.deltaT = D.deltaT) : Cost.costOne D' = Cost.costOne D ∧ (∀ u maxP, exactCosts u maxP D' = exactCosts u maxP D) := by
  have ht : D'.total = D.total := by unfold Cost.Details.total; rw [h1]
  have hone : Cost.costOne D' = Cost.costOne D := by
    funext a
    unfold Cost.costOne Cost.orgFreq
    rw [h1, h2, ht]
  have har : Cost.alphaAndR D' = Cost.alphaAndR D := by
    funext al
    cases al <;> simp only [Cost.alphaAndR, Cost.adjFreq, h1, ht]
  have hcyc : Cost.lengthCycleNone D' = Cost.lengthCycleNone D := by
    funext al l
    unfold Cost.lengthCycleNone Cost.lengthCycle
    rw [har, h2]
  have htrip : Cost.costTriple D' = Cost.costTriple D := by
    funext al dp e
    unfold Cost.costTriple
    rw [har, h2]
  refine ⟨hone, ?_⟩
  intro u maxP
  funext a
  simp only [exactCosts, hone, hcyc, htrip, h2]

theorem lengthCycleNone_sh (D : Cost.Details ℕ) (al : Cost.Alpha ℕ) (c : ℤ) (l : List ℤ) : Cost.lengthCycleNone D al (sh c l) = Cost.lengthCycleNone D al l := by
  unfold Cost.lengthCycleNone
  rw [computePeriod_sh]
  congr 1
  funext cp
  unfold Cost.lengthCycle Cost.lengthEOccs Cost.computeE
  rw [diff_sh, sh_length]

/-- The costs of the code do not see the origin of times. -/
theorem exactCosts_shift (u : ℝ) (maxP : Option ℤ) (D : Cost.Details ℕ) (c : ℤ) (a : ℕ) : CostsShift c (exactCosts u maxP D a) (exactCosts u maxP D a) := by
  refine ⟨?_, rfl, rfl, rfl, rfl, ?_, rfl⟩
  · intro l
    simp only [exactCosts, lengthCycleNone_sh]
  · intro l
    simp only [exactCosts, lengthCycleNone_sh, sh_length]

/-- C116, with the costs of the code (exact real numbers): the patterns found do not depend on the origin of times. -/
theorem shift_exact {ε R κ : Type} [LinearOrder ε] [LinearOrder κ] (rws : (ℕ × Cyc ℝ) → ℕ → ℕ → Bool → List R) (rk : R → κ) (c : ℤ) (u : ℝ) (maxP : Option ℤ) (rows : List (ℤ × ε)) (h : rows.Pairwise (fun a b => a.1 ≤ b.1)) :
    ∃ m m', fitData false rows = .ok m ∧ fitData false (moveRows c rows) = .ok m' ∧
      ∃ F, ∀ fuel, F ≤ fuel → ∃ ps,
        mineSimple rws rk (exactCosts u maxP (details m.data)) (fun a => (Cost.costOne (details m.data) a).getD u) fuel m.data = some ps ∧
        mineSimple rws rk (exactCosts u maxP (details m'.data)) (fun a => (Cost.costOne (details m'.data) a).getD u) fuel m'.data = some (ps.map (movePatt c)) := by
  obtain ⟨m, m', h1, h2, h3, -⟩ := fitData_move c rows
  obtain ⟨hD1, hD2⟩ := costs_congr (details m.data) (details m'.data) h3.counts h3.span
  obtain ⟨m1, m2, k1, k2, -, -, F, hF⟩ := shift_equivariant rws rk rws rk c (exactCosts u maxP (details m.data)) (exactCosts u maxP (details m.data)) (exactCosts_shift u maxP (details m.data) c)
    (fun a => (Cost.costOne (details m.data) a).getD u) rows h
  rw [h1] at k1
  obtain rfl : m = m1 := by injection k1
  rw [h2] at k2
  obtain rfl : m' = m2 := by injection k2
  refine ⟨m, m', h1, h2, F, ?_⟩
  intro fuel hf
  obtain ⟨ps, p1, p2, -⟩ := hF fuel hf
  exact ⟨ps, p1, by rw [hD1, hD2]; exact p2⟩

end Exact

/-! ### Example -/

/-- Costs by number and regularity of the occurrences. -/
def exShift : Costs ℚ := ⟨fun l => if l.length = 4 ∧ diff l = [2, 2, 2] then 5 else 30, 4, fun e _ => if e = 0 then 6 else 7, ⟨fun e => decide (e < 2), fun _ _ => true, fun _ => true, none⟩⟩

example (c : ℤ) : CostsShift c exShift exShift :=
  ⟨fun l => by simp only [exShift, sh_length, diff_sh], rfl, rfl, rfl, rfl, fun _ => rfl, rfl⟩

/-- What the run gives on rows: the starts of the patterns, and their occurrences. -/
def exRun (rows : List (ℤ × ℕ)) : Option (List ℤ × Option (List (List (ℤ × ℕ)))) :=
  (fitData false rows).toOption.bind (fun m => (mineSimple (fun _ _ _ _ => []) (id : ℕ → ℕ) (fun _ => exShift) (fun _ => 4) 20 m.data).map (fun ps => (ps.map (fun q => q.2.1), occLists ps)))

/-- A pattern is found, and moved. -/
example : exRun [(1, 9), (2, 7), (4, 7), (6, 7), (8, 7), (30, 7)] = some ([2], some [[(2, 0), (4, 0), (6, 0), (8, 0)]]) := by decide +kernel

example : exRun (moveRows (-50) [(1, 9), (2, 7), (4, 7), (6, 7), (8, 7), (30, 7)]) = some ([-48], some [[(-48, 0), (-46, 0), (-44, 0), (-42, 0)]]) := by decide +kernel

/-- Sorting by time does not see the origin. -/
example (c : ℤ) (f : Frame ℕ) : byTime (f.map (fun r => (r.1, (r.2.1 + c, r.2.2)))) = (byTime f).map (fun r => (r.1, (r.2.1 + c, r.2.2))) := by
  unfold byTime
  rw [List.map_insertionSort (r := fun a b : ℕ × (ℤ × ℕ) => a.2.1 ≤ b.2.1) (s := fun a b : ℕ × (ℤ × ℕ) => a.2.1 ≤ b.2.1)]
  intro a _ b _
  simp

end Verif.Mine
