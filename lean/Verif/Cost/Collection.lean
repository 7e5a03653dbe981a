import Verif.Cost.Props
import Verif.DataSeq.Props
import Verif.Miner.Model

set_option autoImplicit false
set_option linter.unusedSectionVars false

namespace Verif.Cost

open Verif.PTree

/-! ### Model -/

/-- `DataSequence.getDetails`, `/repo/skmine/periodic/data_sequence.py:74-82` and `120-121`. -/
def detailsOf {ε : Type} (d : DataSeq.Built ε) : Details ℕ := ⟨d.evNbOccs, d.tStart, d.tEnd⟩

/-- `DataSequence.codeLengthResiduals`, `/repo/skmine/periodic/data_sequence.py:123-127`. -/
noncomputable def residualsOnly {ε : Type} (d : DataSeq.Built ε) : Option ℝ :=
  (d.seqd.mapM (fun e => (costOne (detailsOf d) e.1).map (fun c => (e.2.length : ℝ) * c))).map List.sum

/-- `nbs[ev] = nbs.get(ev, 0) + 1`. -/
def addOne : List (ℕ × ℕ) → ℕ → List (ℕ × ℕ)
  | [], e => [(e, 1)]
  | (e', n) :: rest, e => if e' = e then (e', n + 1) :: rest else (e', n) :: addOne rest e

/-- `PatternCollection.getNbUncoveredOccsByEv`, `/repo/skmine/periodic/pattern_collection.py:110-128`, on the set enumerated as `U`. -/
def nbByEv (U : List (ℤ × ℕ)) : List (ℕ × ℕ) := U.foldl (fun nbs x => addOne nbs x.2) []

/-- `PatternCollection.codeLength`, `/repo/skmine/periodic/pattern_collection.py:146-154`, the set of uncovered occurrences being enumerated by `enum`. -/
noncomputable def collectionCost {ε : Type} (enum : Finset (ℤ × ℕ) → List (ℤ × ℕ)) (d : DataSeq.Built ε) (ps : List Miner.Patt) : Option ℝ := do
  let cs ← ps.mapM (fun z => codeLength z.1 z.2.1 (some z.2.2) (detailsOf d))
  let u ← Miner.uncovered d.seql ps
  let rs ← (nbByEv (enum u)).mapM (fun e => (costOne (detailsOf d) e.1).map (fun c => (e.2 : ℝ) * c))
  return cs.sum + rs.sum

/-! ### Details of a data sequence -/

theorem count_flat (sd : List (ℕ × List ℤ)) (hn : (sd.map Prod.fst).Nodup) :
    (∀ e ∈ sd, countEv (sd.flatMap (fun e => e.2.map (fun t => (t, e.1)))) e.1 = e.2.length) ∧ ∀ k, k ∉ sd.map Prod.fst → countEv (sd.flatMap (fun e => e.2.map (fun t => (t, e.1)))) k = 0 := by
  have h0 : ∀ (sd : List (ℕ × List ℤ)) (k : ℕ), k ∉ sd.map Prod.fst → countEv (sd.flatMap (fun e => e.2.map (fun t => (t, e.1)))) k = 0 := by
    intro sd k h
    rw [countEv, List.count_eq_zero]
    intro hk
    apply h
    obtain ⟨x, hx, rfl⟩ := List.mem_map.1 hk
    obtain ⟨e, he, hx⟩ := List.mem_flatMap.1 hx
    obtain ⟨t, _, rfl⟩ := List.mem_map.1 hx
    exact List.mem_map.2 ⟨e, he, rfl⟩
  have hself : ∀ (k : ℕ) (ts : List ℤ), ((ts.map (fun t => (t, k))).map Prod.snd).count k = ts.length := by
    intro k ts
    rw [List.map_map]
    induction ts with
    | nil => rfl
    | cons t ts ih => simp only [List.map_cons, Function.comp_apply, List.count_cons_self, List.length_cons] at ih ⊢; rw [ih]
  refine ⟨?_, h0 sd⟩
  induction sd with
  | nil => simp
  | cons a sd ih =>
    simp only [List.map_cons, List.nodup_cons] at hn
    intro e he
    rw [List.flatMap_cons, countEv, List.map_append, List.count_append]
    rcases List.mem_cons.1 he with rfl | he
    · have := h0 sd e.1 hn.1
      rw [countEv] at this
      rw [hself, this, Nat.add_zero]
    · have := ih hn.2 e he
      rw [countEv] at this
      rw [this]
      have hne : e.1 ≠ a.1 := fun h => hn.1 (h ▸ List.mem_map.2 ⟨e, he, rfl⟩)
      have : ((a.2.map (fun t => (t, a.1))).map Prod.snd).count e.1 = 0 := by
        rw [List.count_eq_zero, List.map_map]
        intro h
        obtain ⟨t, _, h⟩ := List.mem_map.1 h
        exact hne h.symm
      rw [this, Nat.zero_add]

theorem countEv_perm {S S' : List (ℤ × ℕ)} (h : S.Perm S') (k : ℕ) : countEv S k = countEv S' k := (h.map Prod.snd).count_eq k

/-- The details of a data sequence describe its list of occurrences; and every event of its dictionary has its count. -/
theorem details_ok {ε : Type} [LinearOrder ε] (seq : List (ℤ × ε)) : ∃ d, DataSeq.ofList seq = .ok d ∧ IsDetails d.seql (detailsOf d) ∧ (d.seqd.map Prod.fst).Nodup ∧
    d.seql.Perm (d.seqd.flatMap (fun e => e.2.map (fun t => (t, e.1)))) ∧ ∀ e ∈ d.seqd, e.2 ≠ [] := by
  obtain ⟨d, hd, hL, hM, hS, hl, hN, hdt, hw⟩ := DataSeq.ofDict_ok (DataSeq.group seq) (DataSeq.group_nodup seq) (fun q hq => (DataSeq.group_entry seq q.1 q.2 hq).2)
  have hnd : (d.seqd.map Prod.fst).Nodup := by
    rw [hS, List.map_map]
    have : (DataSeq.group seq).map (Prod.fst ∘ fun q => (d.listEv.idxOf q.1, q.2)) = ((DataSeq.group seq).map Prod.fst).map (fun x => d.listEv.idxOf x) := by
      rw [List.map_map]; rfl
    rw [this]
    refine List.Nodup.map_on ?_ (DataSeq.group_nodup seq)
    intro x hx y hy h
    have hx' : x ∈ d.listEv := by rw [hL, List.mem_insertionSort]; exact hx
    exact (List.idxOf_inj hx').1 h
  have hperm : d.seql.Perm (d.seqd.flatMap (fun e => e.2.map (fun t => (t, e.1)))) := by
    rw [hl]; exact List.perm_insertionSort _ _
  have hne : ∀ e ∈ d.seqd, e.2 ≠ [] := by
    intro e he
    rw [hS] at he
    obtain ⟨q, hq, rfl⟩ := List.mem_map.1 he
    exact (DataSeq.group_entry seq q.1 q.2 hq).2
  obtain ⟨c1, c2⟩ := count_flat d.seqd hnd
  refine ⟨d, hd, ⟨?_, ?_, ?_⟩, hnd, hperm, hne⟩
  · rw [detailsOf, hN, List.map_map]; exact hnd
  · intro a n
    rw [detailsOf, hN]
    constructor
    · intro h
      obtain ⟨e, he, h⟩ := List.mem_map.1 h
      simp only [Prod.mk.injEq] at h
      obtain ⟨rfl, rfl⟩ := h
      exact ⟨by rw [countEv_perm hperm, c1 e he], List.length_pos_iff.2 (hne e he)⟩
    · rintro ⟨rfl, h⟩
      rw [countEv_perm hperm] at h ⊢
      by_cases ha : a ∈ d.seqd.map Prod.fst
      · obtain ⟨e, he, rfl⟩ := List.mem_map.1 ha
        exact List.mem_map.2 ⟨e, he, by rw [c1 e he]⟩
      · rw [c2 a ha] at h; omega
  · intro x hx
    have hx := hperm.mem_iff.1 hx
    obtain ⟨e, he, hx⟩ := List.mem_flatMap.1 hx
    obtain ⟨t, ht, rfl⟩ := List.mem_map.1 hx
    rw [hS] at he
    obtain ⟨q, hq, rfl⟩ := List.mem_map.1 he
    exact (hw (List.ne_nil_of_mem hq)).2.2 q hq t ht

/-! ### Sums -/

/-- Bits of an occurrence left to itself: the logarithm of the window and of the inverse of the share of its event. -/
noncomputable def oneBits (S : List (ℤ × ℕ)) (D : Details ℕ) (a : ℕ) : ℝ := Real.logb 2 ((S.length : ℝ) / (countEv S a : ℝ)) + Real.logb 2 ((D.tEnd - D.tStart + 1 : ℤ) : ℝ)

theorem costOne_ok {S : List (ℤ × ℕ)} {D : Details ℕ} (hD : IsDetails S D) {a : ℕ} (ha : 0 < countEv S a) : costOne D a = some (oneBits S D a) := by
  have hpos : (0 : ℝ) < (countEv S a : ℝ) := by exact_mod_cast ha
  have hlen : (0 : ℝ) < (S.length : ℝ) := by exact_mod_cast ha.trans_le (countEv_le S a)
  have hw : 0 < D.deltaT + 1 := by
    obtain ⟨x, hx, _⟩ := List.mem_map.1 (List.count_pos_iff.1 ha)
    have := hD.window x hx
    unfold Details.deltaT
    omega
  have ho : orgFreq D a = some ((countEv S a : ℝ) / (S.length : ℝ)) := by rw [orgFreq, hD.lookup ha, hD.total]; rfl
  rw [costOne, log2_some hw]
  simp only [ho, Option.bind_eq_bind, Option.bind_some]
  rw [log2, if_pos (by positivity)]
  simp only [Option.bind_some, Option.pure_def, oneBits, Details.deltaT]
  rw [← Real.logb_inv, inv_div]

/-- C75: the code length of occurrences of an event left to themselves, as compared with cycles in the extraction, is the sum of what each of them costs. -/
theorem residual_cost {S : List (ℤ × ℕ)} {D : Details ℕ} (hD : IsDetails S D) {a : ℕ} (ha : 0 < countEv S a) (occs : List ℤ) : lengthResidual D a occs = some (occs.map (fun _ => oneBits S D a)).sum := by
  rw [lengthResidual, costOne_ok hD ha]
  simp

theorem addOne_sum (f : ℕ → ℝ) (e : ℕ) : ∀ l : List (ℕ × ℕ), ((addOne l e).map (fun x => (x.2 : ℝ) * f x.1)).sum = (l.map (fun x => (x.2 : ℝ) * f x.1)).sum + f e
  | [] => by simp [addOne]
  | (e', n) :: rest => by
    rw [addOne]
    split
    · next h => subst h; simp only [List.map_cons, List.sum_cons]; push_cast; ring
    · simp only [List.map_cons, List.sum_cons, addOne_sum f e rest]; ring

theorem addOne_keys (e : ℕ) : ∀ (l : List (ℕ × ℕ)) (x : ℕ × ℕ), x ∈ addOne l e → x.1 = e ∨ x.1 ∈ l.map Prod.fst
  | [], x, h => by
    simp only [addOne, List.mem_cons, List.not_mem_nil, or_false] at h
    left; rw [h]
  | (e', n) :: rest, x, h => by
    rw [addOne] at h
    split at h
    · next h' =>
      rcases List.mem_cons.1 h with rfl | h
      · left; exact h'
      · right; exact List.mem_cons_of_mem _ (List.mem_map.2 ⟨x, h, rfl⟩)
    · rcases List.mem_cons.1 h with rfl | h
      · right; simp
      · rcases addOne_keys e rest x h with h | h
        · left; exact h
        · right; exact List.mem_cons_of_mem _ h

theorem nbByEv_sum (f : ℕ → ℝ) (U : List (ℤ × ℕ)) : ((nbByEv U).map (fun x => (x.2 : ℝ) * f x.1)).sum = (U.map (fun x => f x.2)).sum := by
  induction U using List.reverseRecOn with
  | nil => rfl
  | append_singleton U x ih =>
    have : nbByEv (U ++ [x]) = addOne (nbByEv U) x.2 := by simp [nbByEv]
    rw [this, addOne_sum, ih]
    simp

theorem nbByEv_keys (U : List (ℤ × ℕ)) : ∀ x ∈ nbByEv U, ∃ y ∈ U, y.2 = x.1 := by
  induction U using List.reverseRecOn with
  | nil => intro x hx; simp [nbByEv] at hx
  | append_singleton U y ih =>
    have : nbByEv (U ++ [y]) = addOne (nbByEv U) y.2 := by simp [nbByEv]
    intro x hx
    rw [this] at hx
    rcases addOne_keys _ _ _ hx with h | h
    · exact ⟨y, by simp, h.symm⟩
    · obtain ⟨z, hz, e⟩ := List.mem_map.1 h
      obtain ⟨w, hw, e'⟩ := ih z hz
      exact ⟨w, by simp [hw], e'.trans e⟩

theorem sdiff_fold (ls : List (List (ℤ × ℕ))) (s : Finset (ℤ × ℕ)) : ∀ x, x ∈ ls.foldl (fun s l => s \ l.toFinset) s ↔ x ∈ s ∧ ∀ l ∈ ls, x ∉ l := by
  induction ls generalizing s with
  | nil => simp
  | cons a ls ih =>
    intro x
    rw [List.foldl_cons, ih]
    simp only [Finset.mem_sdiff, List.mem_toFinset, List.mem_cons, forall_eq_or_imp]
    tauto

/-- C75. The code length of a collection of patterns whose occurrences are in the data: defined, and the sum of the code lengths of the patterns and of the costs of the distinct occurrences that no pattern
covers. -/
theorem collection_cost {ε : Type} [LinearOrder ε] (seq : List (ℤ × ε)) (enum : Finset (ℤ × ℕ) → List (ℤ × ℕ)) (henum : ∀ u, (enum u).Nodup ∧ ∀ x, x ∈ enum u ↔ x ∈ u)
    (d : DataSeq.Built ε) (hd : DataSeq.ofList seq = .ok d) (ps : List Miner.Patt) (hps : ∀ z ∈ ps, Fitted d.seql z) :
    ∃ (c : Miner.Patt → ℝ) (U : Finset (ℤ × ℕ)), (∀ z ∈ ps, codeLength z.1 z.2.1 (some z.2.2) (detailsOf d) = some (c z)) ∧
      (∀ x, x ∈ U ↔ x ∈ d.seql ∧ ∀ z ∈ ps, ∀ cov, getCovSeq z.1 z.2.1 z.2.2 = some cov → x ∉ cov) ∧
      collectionCost enum d ps = some ((ps.map c).sum + ∑ x ∈ U, oneBits d.seql (detailsOf d) x.2) := by
  obtain ⟨d', hd', hD, -⟩ := details_ok seq
  obtain rfl : d = d' := by rw [hd] at hd'; exact Except.ok.inj hd'
  have hc : ∀ z, ∃ c : ℝ, z ∈ ps → codeLength z.1 z.2.1 (some z.2.2) (detailsOf d) = some c := by
    intro z
    by_cases hz : z ∈ ps
    · obtain ⟨c, h, _⟩ := cost_nonneg d.seql (detailsOf d) hD z (hps z hz)
      exact ⟨c, fun _ => h⟩
    · exact ⟨0, fun h => absurd h hz⟩
  choose c hc using hc
  have hv : ∀ z, ∃ cov : List (ℤ × ℕ), z ∈ ps → getCovSeq z.1 z.2.1 z.2.2 = some cov := by
    intro z
    by_cases hz : z ∈ ps
    · obtain ⟨cov, h, _⟩ := (hps z hz).occs
      exact ⟨cov, fun _ => h⟩
    · exact ⟨[], fun h => absurd h hz⟩
  choose cov hv using hv
  have hm1 := PTree.mapM_some_map ps (fun z : Miner.Patt => codeLength z.1 z.2.1 (some z.2.2) (detailsOf d)) c (fun z hz => hc z hz)
  have hm2 : Miner.occLists ps = some (ps.map cov) := PTree.mapM_some_map ps _ cov (fun z hz => hv z hz)
  obtain ⟨U, hU⟩ : ∃ U, U = (ps.map cov).foldl (fun s l => s \ l.toFinset) d.seql.toFinset := ⟨_, rfl⟩
  have hmem : ∀ x, x ∈ U ↔ x ∈ d.seql ∧ ∀ z ∈ ps, ∀ cov, getCovSeq z.1 z.2.1 z.2.2 = some cov → x ∉ cov := by
    intro x
    rw [hU, sdiff_fold, List.mem_toFinset]
    refine and_congr_right (fun _ => ?_)
    constructor
    · intro h z hz cv hcv
      rw [hv z hz] at hcv
      obtain rfl := Option.some.inj hcv
      exact h _ (List.mem_map.2 ⟨z, hz, rfl⟩)
    · intro h l hl
      obtain ⟨z, hz, rfl⟩ := List.mem_map.1 hl
      exact h z hz _ (hv z hz)
  refine ⟨c, U, fun z hz => hc z hz, hmem, ?_⟩
  have hcost : ∀ e ∈ nbByEv (enum U), (costOne (detailsOf d) e.1).map (fun c => (e.2 : ℝ) * c) = some ((e.2 : ℝ) * oneBits d.seql (detailsOf d) e.1) := by
    intro e he
    obtain ⟨y, hy, h⟩ := nbByEv_keys _ e he
    have hyS := ((hmem y).1 (((henum U).2 y).1 hy)).1
    rw [costOne_ok hD (a := e.1) (List.count_pos_iff.2 (List.mem_map.2 ⟨y, hyS, h⟩))]
    rfl
  unfold collectionCost Miner.uncovered
  rw [hm1, hm2]
  simp only [Option.bind_eq_bind, Option.bind_some, Option.map_some, ← hU]
  rw [PTree.mapM_some_map _ _ _ hcost]
  simp only [Option.bind_some, Option.pure_def]
  rw [nbByEv_sum (oneBits d.seql (detailsOf d))]
  congr 2
  have : (enum U).toFinset = U := by ext x; rw [List.mem_toFinset]; exact (henum U).2 x
  conv_rhs => rw [← this]
  rw [List.sum_toFinset _ (henum U).1]

/-- C75. The cost of the data without patterns: every occurrence is counted, duplicates included. -/
theorem residuals_only {ε : Type} [LinearOrder ε] (seq : List (ℤ × ε)) (d : DataSeq.Built ε) (hd : DataSeq.ofList seq = .ok d) :
    residualsOnly d = some ((d.seql.map (fun x => oneBits d.seql (detailsOf d) x.2)).sum) := by
  obtain ⟨d', hd', hD, hn, hp, hne⟩ := details_ok seq
  obtain rfl : d = d' := by rw [hd] at hd'; exact Except.ok.inj hd'
  have hcost : ∀ e ∈ d.seqd, (costOne (detailsOf d) e.1).map (fun c => (e.2.length : ℝ) * c) = some ((e.2.length : ℝ) * oneBits d.seql (detailsOf d) e.1) := by
    intro e he
    rw [costOne_ok hD (a := e.1)]
    · rfl
    · rw [countEv_perm hp, (count_flat d.seqd hn).1 e he]
      exact List.length_pos_iff.2 (hne e he)
  rw [residualsOnly, PTree.mapM_some_map _ _ _ hcost, Option.map_some]
  congr 1
  rw [(hp.map (fun x => oneBits d.seql (detailsOf d) x.2)).sum_eq]
  generalize oneBits d.seql (detailsOf d) = f
  generalize d.seqd = sd
  induction sd with
  | nil => rfl
  | cons a sd ih =>
    rw [List.map_cons, List.sum_cons, ih, List.flatMap_cons, List.map_append, List.sum_append]
    congr 1
    rw [List.map_map]
    induction a.2 with
    | nil => simp
    | cons t ts ih' => simp only [List.length_cons, List.map_cons, List.sum_cons, ← ih', Function.comp_apply]; push_cast; ring

/-- C75. With no pattern and no duplicate, the code length of the collection is that of the data without patterns. -/
theorem empty_collection {ε : Type} [LinearOrder ε] (seq : List (ℤ × ε)) (enum : Finset (ℤ × ℕ) → List (ℤ × ℕ)) (henum : ∀ u, (enum u).Nodup ∧ ∀ x, x ∈ enum u ↔ x ∈ u)
    (d : DataSeq.Built ε) (hd : DataSeq.ofList seq = .ok d) (hn : d.seql.Nodup) : collectionCost enum d [] = residualsOnly d := by
  obtain ⟨c, U, -, hU, h⟩ := collection_cost seq enum henum d hd [] (by simp)
  rw [h, residuals_only seq d hd, List.map_nil, List.sum_nil, zero_add]
  have : U = d.seql.toFinset := by ext x; rw [hU, List.mem_toFinset]; simp
  rw [this, List.sum_toFinset _ hn]

/-- C75. What adding a pattern changes: its code length is paid, the occurrences that it is the first to cover are no longer paid. -/
theorem collection_add {ε : Type} [LinearOrder ε] (seq : List (ℤ × ε)) (enum : Finset (ℤ × ℕ) → List (ℤ × ℕ)) (henum : ∀ u, (enum u).Nodup ∧ ∀ x, x ∈ enum u ↔ x ∈ u)
    (d : DataSeq.Built ε) (hd : DataSeq.ofList seq = .ok d) (ps : List Miner.Patt) (hps : ∀ z ∈ ps, Fitted d.seql z) (z : Miner.Patt) (hz : Fitted d.seql z) :
    ∃ (a b cz : ℝ) (N : Finset (ℤ × ℕ)) (cov : List (ℤ × ℕ)), collectionCost enum d ps = some a ∧ collectionCost enum d (ps ++ [z]) = some b ∧
      codeLength z.1 z.2.1 (some z.2.2) (detailsOf d) = some cz ∧ getCovSeq z.1 z.2.1 z.2.2 = some cov ∧
      (∀ x, x ∈ N ↔ x ∈ cov ∧ ∀ w ∈ ps, ∀ cw, getCovSeq w.1 w.2.1 w.2.2 = some cw → x ∉ cw) ∧
      b = a + cz - ∑ x ∈ N, oneBits d.seql (detailsOf d) x.2 := by
  classical
  obtain ⟨c, U, h1, h2, h3⟩ := collection_cost seq enum henum d hd ps hps
  obtain ⟨c', U', h1', h2', h3'⟩ := collection_cost seq enum henum d hd (ps ++ [z]) (by
    intro w hw
    rcases List.mem_append.1 hw with hw | hw
    · exact hps w hw
    · rw [List.mem_singleton.1 hw]; exact hz)
  obtain ⟨cov, hcov, -, hsub⟩ := hz.occs
  refine ⟨_, _, c' z, U.filter (· ∈ cov), cov, h3, h3', h1' z (by simp), hcov, ?_, ?_⟩
  · intro x
    rw [Finset.mem_filter, h2]
    constructor
    · rintro ⟨⟨_, h⟩, hx⟩; exact ⟨hx, h⟩
    · rintro ⟨hx, h⟩; exact ⟨⟨hsub x hx, h⟩, hx⟩
  · have hU' : U' = U.filter (fun x => ¬ x ∈ cov) := by
      ext x
      rw [h2', Finset.mem_filter, h2]
      constructor
      · rintro ⟨hx, h⟩
        exact ⟨⟨hx, fun w hw => h w (by simp [hw])⟩, h z (by simp) cov hcov⟩
      · rintro ⟨⟨hx, h⟩, hn⟩
        refine ⟨hx, fun w hw cw hcw => ?_⟩
        rcases List.mem_append.1 hw with hw | hw
        · exact h w hw cw hcw
        · rw [List.mem_singleton.1 hw, hcov] at hcw
          rw [← Option.some.inj hcw]; exact hn
    have hcc : (ps.map c').sum = (ps.map c).sum := by
      congr 1
      apply List.map_congr_left
      intro w hw
      have e1 := h1 w hw
      rw [h1' w (by simp [hw])] at e1
      exact Option.some.inj e1
    rw [hU', List.map_append, List.sum_append, hcc, List.map_singleton, List.sum_singleton,
      ← Finset.sum_filter_add_sum_filter_not U (fun x => x ∈ cov) (fun x => oneBits d.seql (detailsOf d) x.2)]
    ring

/-- C75, negated with duplicates: two equal occurrences among three, no pattern: the collection costs strictly less than the data without patterns. -/
theorem duplicates_underpriced (enum : Finset (ℤ × ℕ) → List (ℤ × ℕ)) (henum : ∀ u, (enum u).Nodup ∧ ∀ x, x ∈ enum u ↔ x ∈ u) :
    ∃ (d : DataSeq.Built ℕ) (a b : ℝ), DataSeq.ofList [(0, 5), (0, 5), (3, 5)] = .ok d ∧ collectionCost enum d [] = some a ∧ residualsOnly d = some b ∧ 3 * a = 2 * b ∧ a < b := by
  obtain ⟨d, hd, hD, -⟩ := details_ok ([(0, 5), (0, 5), (3, 5)] : List (ℤ × ℕ))
  have hq : (DataSeq.ofList ([(0, 5), (0, 5), (3, 5)] : List (ℤ × ℕ))).toOption.map (fun d => (d.seql, d.tStart, d.tEnd)) = some ([(0, 0), (0, 0), (3, 0)], 0, 3) := by decide
  rw [hd] at hq
  simp only [Except.toOption, Option.map_some, Option.some.injEq, Prod.mk.injEq] at hq
  obtain ⟨hS, ht, ht'⟩ := hq
  obtain ⟨c, U, -, hU, h⟩ := collection_cost _ enum henum d hd [] (by simp)
  have h2 := residuals_only _ d hd
  have hUe : U = {(0, 0), (3, 0)} := by
    ext x
    rw [hU, hS]
    simp
  have hone : oneBits d.seql (detailsOf d) 0 = 2 := by
    rw [oneBits, hS, detailsOf, ht, ht']
    have : countEv [((0 : ℤ), 0), (0, 0), (3, 0)] 0 = 3 := by decide
    rw [this]
    norm_num
    rw [show (4 : ℝ) = 2 ^ (2 : ℕ) by norm_num, Real.logb_pow, Real.logb_self_eq_one (by norm_num)]
    norm_num
  rw [hUe, Finset.sum_insert (by decide), Finset.sum_singleton] at h
  rw [hS] at h2
  simp only [List.map_cons, List.map_nil, List.sum_cons, List.sum_nil] at h2
  rw [← hS] at h2
  simp only [hone] at h h2
  exact ⟨d, _, _, hd, h, h2, by norm_num, by norm_num⟩

/-- A data sequence and a pattern meeting the hypotheses above. -/
example : ∃ d, DataSeq.ofList exS = .ok d ∧ d.seql.Nodup ∧ ∀ z ∈ [((exT, 2, [0, 0, 1, 0, 0]) : Miner.Patt)], Fitted d.seql z := by
  obtain ⟨d, hd, -⟩ := details_ok exS
  have hq : (DataSeq.ofList exS).toOption.map (fun d => d.seql) = some exS := by decide
  rw [hd] at hq
  have hq : d.seql = exS := by simpa [Except.toOption] using hq
  refine ⟨d, hd, by rw [hq]; decide, fun z hz => ?_⟩
  rw [List.mem_singleton.1 hz, hq]
  exact exT_fitted

example : lengthResidual ⟨[(0, 3), (1, 3)], 2, 11⟩ 0 [2, 6, 10] = some (oneBits exS ⟨[(0, 3), (1, 3)], 2, 11⟩ 0 + (oneBits exS ⟨[(0, 3), (1, 3)], 2, 11⟩ 0 + (oneBits exS ⟨[(0, 3), (1, 3)], 2, 11⟩ 0 + 0))) :=
  residual_cost exS_details (by decide) [2, 6, 10]

end Verif.Cost
