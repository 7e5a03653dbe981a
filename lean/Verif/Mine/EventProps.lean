import Verif.Mine.EventLemmas
import Mathlib.Data.List.Perm.Basic

/-!
# The names of the events do not matter to the simple miner (C125)

Source: `/repo/skmine/periodic/cycles.py:97-191`, `/repo/skmine/periodic/run_mine.py:813-1000`, `/repo/skmine/periodic/data_sequence.py:44-82`. The models are those of C71 (fit and mining of simple cycles) and C72 (costs).
-/

set_option autoImplicit false
set_option linter.unusedSectionVars false

namespace Verif.Mine

open Verif.DataSeq Verif.Miner Verif.PTree Verif.TimeScale

/-! ### Specification -/

/-- The rows of a series with other names for the events. -/
def renameRows {β γ : Type} (ρ : β → γ) (rows : List (ℤ × β)) : List (ℤ × γ) := rows.map (fun x => (x.1, ρ x.2))

mutual
/-- A tree with other events. -/
def mapTree {β γ : Type} (σ : β → γ) : PTree.Tree β → PTree.Tree γ
  | .leaf e => .leaf (σ e)
  | .node r p ch => .node r p (mapForest σ ch)
/-- The children with other events. -/
def mapForest {β γ : Type} (σ : β → γ) : PTree.Forest β → PTree.Forest γ
  | .nil => .nil
  | .cons d t rest => .cons d (mapTree σ t) (mapForest σ rest)
end

/-- The same pattern (periods, repetitions, first time, corrections) with other events. -/
def renamePatt (σ : ℕ → ℕ) (q : Patt) : Patt := (mapTree σ q.1, q.2.1, q.2.2)

/-! ### The data -/

section Data

variable {ε ε' : Type} [LinearOrder ε] [LinearOrder ε']

/-- The number of the new name of the event `k`. -/
def numMap (ρ : ε → ε') (d : Built ε) (d' : Built ε') (k : ℕ) : ℕ := (d.listEv[k]?.map (fun e => d'.listEv.idxOf (ρ e))).getD k

/-- The same data with other names. -/
structure Renamed (ρ : ε → ε') (σ : ℕ → ℕ) (d : Built ε) (d' : Built ε') : Prop where
  len : d'.listEv.length = d.listEv.length
  name : ∀ k < d.listEv.length, numToEv d' (σ k) = (numToEv d k).map ρ
  lt : ∀ k < d.listEv.length, σ k < d.listEv.length
  inj : ∀ j < d.listEv.length, ∀ k < d.listEv.length, σ j = σ k → j = k
  keys : ∀ e ∈ d.seqd, e.1 < d.listEv.length
  seqd : d'.seqd = d.seqd.map (fun e => (σ e.1, e.2))
  counts : d'.evNbOccs = d.evNbOccs.map (fun e => (σ e.1, e.2))
  countKeys : ∀ e ∈ d.evNbOccs, e.1 < d.listEv.length
  span : d'.tEnd - d'.tStart = d.tEnd - d.tStart

theorem rename_inj {β γ : Type} (ρ : β → γ) (hρ : Function.Injective ρ) : Function.Injective (fun x : ℤ × β => (x.1, ρ x.2)) := fun a b h => by
  simp only [Prod.mk.injEq] at h
  exact Prod.ext h.1 (hρ h.2)

theorem dedupRows_rename (ρ : ε → ε') (hρ : Function.Injective ρ) (rows : List (ℤ × ε)) : dedupRows (renameRows ρ rows) = renameRows ρ (dedupRows rows) := by
  have e : (renameRows ρ rows).map Prod.fst = rows.map Prod.fst := by
    unfold renameRows; rw [List.map_map]; rfl
  unfold dedupRows
  rw [e]
  by_cases h : (rows.map Prod.fst).Nodup
  · rw [if_pos h, if_pos h]
  · rw [if_neg h, if_neg h]
    change _ = List.map (fun x : ℤ × ε => (x.1, ρ x.2)) _
    rw [List.map_flatMap]
    refine List.flatMap_congr ?_
    intro t _
    have ef : (renameRows ρ rows).filter (fun x => decide (x.1 = t)) = (rows.filter (fun x => decide (x.1 = t))).map (fun x => (x.1, ρ x.2)) := by
      unfold renameRows
      rw [List.filter_map]
      rfl
    refine (congrArg (keepFirst []) ef).trans ?_
    exact keepFirst_map _ (rename_inj ρ hρ) _ []

theorem addTime_rename (ρ : ε → ε') (hρ : Function.Injective ρ) (t : ℤ) (e : ε) : ∀ tmp : List (ε × List ℤ), addTime (tmp.map (fun q => (ρ q.1, q.2))) t (ρ e) = (addTime tmp t e).map (fun q => (ρ q.1, q.2)) := by
  intro tmp
  induction tmp with
  | nil => rfl
  | cons q tmp ih =>
    obtain ⟨e', ts⟩ := q
    rw [List.map_cons, addTime, addTime]
    by_cases h : e' = e
    · rw [if_pos h, if_pos (by rw [h])]; rfl
    · rw [if_neg h, if_neg (fun h' => h (hρ h')), ih]; rfl

theorem group_rename (ρ : ε → ε') (hρ : Function.Injective ρ) (seq : List (ℤ × ε)) : group (renameRows ρ seq) = (group seq).map (fun q => (ρ q.1, q.2)) := by
  unfold group renameRows
  rw [List.foldl_map]
  have : ∀ (l : List (ℤ × ε)) (tmp : List (ε × List ℤ)), l.foldl (fun tmp x => addTime tmp x.1 (ρ x.2)) (tmp.map (fun q => (ρ q.1, q.2))) =
      (l.foldl (fun tmp x => addTime tmp x.1 x.2) tmp).map (fun q => (ρ q.1, q.2)) := by
    intro l
    induction l with
    | nil => intro tmp; rfl
    | cons x l ih => intro tmp; rw [List.foldl_cons, List.foldl_cons, addTime_rename ρ hρ, ih]
  exact this seq []

theorem numToEv_get (d : Built ε) (k : ℕ) : numToEv d k = d.listEv[k]? := by
  unfold numToEv
  rw [lookup_swap k d.listEv 0 (Nat.zero_le _), Nat.sub_zero]

theorem ofList_rename (ρ : ε → ε') (hρ : Function.Injective ρ) (seq : List (ℤ × ε)) : ∃ d d' σ, ofList seq = .ok d ∧ ofList (renameRows ρ seq) = .ok d' ∧ Renamed ρ σ d d' := by
  have hg := group_rename ρ hρ seq
  obtain ⟨d, a1, a2, -, a4, a5, a6, a7, a8⟩ := ofDict_ok (group seq) (group_nodup seq) (fun q hq => (group_entry seq q.1 q.2 hq).2)
  obtain ⟨d', b1, b2, -, b4, b5, b6, b7, b8⟩ := ofDict_ok (group (renameRows ρ seq)) (group_nodup _) (fun q hq => (group_entry _ q.1 q.2 hq).2)
  have hk : (group (renameRows ρ seq)).map Prod.fst = ((group seq).map Prod.fst).map ρ := by rw [hg, List.map_map, List.map_map]; rfl
  have hmem : ∀ q ∈ group seq, q.1 ∈ d.listEv := by
    intro q hq; rw [a2, List.mem_insertionSort]; exact List.mem_map.2 ⟨q, hq, rfl⟩
  have hmem' : ∀ e ∈ d.listEv, ρ e ∈ d'.listEv := by
    intro e he
    rw [b2, List.mem_insertionSort, hk]
    rw [a2, List.mem_insertionSort] at he
    exact List.mem_map.2 ⟨e, he, rfl⟩
  have hnd : d.listEv.Nodup := by rw [a2]; exact (List.perm_insertionSort _ _).nodup_iff.2 (group_nodup seq)
  have hlen : d'.listEv.length = d.listEv.length := by rw [b2, a2, List.length_insertionSort, List.length_insertionSort, hk, List.length_map]
  have hσ : ∀ k (h : k < d.listEv.length), numMap ρ d d' k = d'.listEv.idxOf (ρ d.listEv[k]) := by
    intro k h
    unfold numMap
    rw [List.getElem?_eq_getElem h]; rfl
  have hσ' : ∀ e ∈ d.listEv, numMap ρ d d' (d.listEv.idxOf e) = d'.listEv.idxOf (ρ e) := by
    intro e he
    have := List.idxOf_lt_length_of_mem he
    rw [hσ _ this, List.getElem_idxOf this]
  have hseqd : d'.seqd = d.seqd.map (fun e => (numMap ρ d d' e.1, e.2)) := by
    rw [b4, a4, hg, List.map_map, List.map_map]
    refine List.map_congr_left (fun q hq => ?_)
    simp only [Function.comp]
    rw [hσ' q.1 (hmem q hq)]
  have hkeys : ∀ e ∈ d.seqd, e.1 < d.listEv.length := by
    intro e he
    rw [a4] at he
    obtain ⟨q, hq, rfl⟩ := List.mem_map.1 he
    exact List.idxOf_lt_length_of_mem (hmem q hq)
  have hspan : d'.tEnd - d'.tStart = d.tEnd - d.tStart := by
    by_cases hne : group seq = []
    · have h0 : seq = [] := by
        cases seq with
        | nil => rfl
        | cons x l =>
          have := (group_keys_mem (x :: l) x.2).2 (by simp)
          rw [hne] at this
          simp at this
      subst h0
      have e1 : d = ⟨[], [], [], [], [], [], [], 0, 0, 0⟩ := by
        have : (Except.ok d : Except String (Built ε)) = .ok ⟨[], [], [], [], [], [], [], 0, 0, 0⟩ := a1.symm.trans rfl
        injection this
      have e2 : d' = ⟨[], [], [], [], [], [], [], 0, 0, 0⟩ := by
        have : (Except.ok d' : Except String (Built ε')) = .ok ⟨[], [], [], [], [], [], [], 0, 0, 0⟩ := b1.symm.trans rfl
        injection this
      rw [e1, e2]
    · obtain ⟨⟨q1, hq1, hs1⟩, ⟨q2, hq2, hs2⟩, hall⟩ := a8 hne
      obtain ⟨⟨r1, hr1, ht1⟩, ⟨r2, hr2, ht2⟩, hall'⟩ := b8 (by rw [hg]; simpa using hne)
      rw [hg] at hr1 hr2
      obtain ⟨p1, hp1, rfl⟩ := List.mem_map.1 hr1
      obtain ⟨p2, hp2, rfl⟩ := List.mem_map.1 hr2
      have k1 := hall p1 hp1 _ ht1
      have k2 := hall p2 hp2 _ ht2
      have k3 := hall' (ρ q1.1, q1.2) (by rw [hg]; exact List.mem_map.2 ⟨q1, hq1, rfl⟩) d.tStart hs1
      have k4 := hall' (ρ q2.1, q2.2) (by rw [hg]; exact List.mem_map.2 ⟨q2, hq2, rfl⟩) d.tEnd hs2
      omega
  refine ⟨d, d', numMap ρ d d', a1, b1, hlen, ?_, ?_, ?_, hkeys, hseqd, ?_, ?_, hspan⟩
  · intro k h
    rw [numToEv_get, numToEv_get, hσ k h, List.getElem?_eq_getElem h]
    have hm := hmem' _ (List.getElem_mem h)
    rw [List.getElem?_eq_getElem (List.idxOf_lt_length_of_mem hm), List.getElem_idxOf]
    rfl
  · intro k h
    rw [hσ k h, ← hlen]
    exact List.idxOf_lt_length_of_mem (hmem' _ (List.getElem_mem h))
  · intro j hj k hk' h
    rw [hσ j hj, hσ k hk'] at h
    have h1 := hmem' _ (List.getElem_mem hj)
    have h2 := hmem' _ (List.getElem_mem hk')
    have := congrArg (fun i => d'.listEv[i]?) h
    rw [List.getElem?_eq_getElem (List.idxOf_lt_length_of_mem h1), List.getElem?_eq_getElem (List.idxOf_lt_length_of_mem h2), List.getElem_idxOf, List.getElem_idxOf, Option.some.injEq] at this
    exact (List.Nodup.getElem_inj_iff hnd).1 (hρ this)
  · rw [b6, a6, hseqd, List.map_map, List.map_map]; rfl
  · intro e he
    rw [a6] at he
    obtain ⟨q, hq, rfl⟩ := List.mem_map.1 he
    exact hkeys q hq

theorem fitData_rename (ρ : ε → ε') (hρ : Function.Injective ρ) (auto : Bool) (rows : List (ℤ × ε)) :
    ∃ m m' σ, fitData auto rows = .ok m ∧ fitData auto (renameRows ρ rows) = .ok m' ∧ Renamed ρ σ m.data m'.data ∧ m'.nZeros = m.nZeros ∧ m'.divNbSec = m.divNbSec := by
  have e1 : (renameRows ρ (dedupRows rows)).map Prod.fst = (dedupRows rows).map Prod.fst := by unfold renameRows; rw [List.map_map]; rfl
  have e2 : (renameRows ρ (dedupRows rows)).map Prod.snd = ((dedupRows rows).map Prod.snd).map ρ := by unfold renameRows; rw [List.map_map, List.map_map]; rfl
  cases auto with
  | false =>
    obtain ⟨d, d', σ, h1, h2, h3⟩ := ofList_rename ρ hρ (dedupRows rows)
    refine ⟨⟨d, 0, 1⟩, ⟨d', 0, 1⟩, σ, ?_, ?_, h3, rfl, rfl⟩
    · simp [fitData, h1, Except.map]
    · simp [fitData, dedupRows_rename ρ hρ, h2, Except.map]
  | true =>
    obtain ⟨a, ha⟩ : ∃ a, a = autoscale ((dedupRows rows).map Prod.fst) := ⟨_, rfl⟩
    obtain ⟨d, d', σ, h1, h2, h3⟩ := ofList_rename ρ hρ (a.1.zip ((dedupRows rows).map Prod.snd))
    have hz : a.1.zip (((dedupRows rows).map Prod.snd).map ρ) = renameRows ρ (a.1.zip ((dedupRows rows).map Prod.snd)) := by
      rw [List.zip_map_right]; rfl
    refine ⟨⟨d, a.2.1, a.2.2.1⟩, ⟨d', a.2.1, a.2.2.1⟩, σ, ?_, ?_, h3, rfl, rfl⟩
    · simp [fitData, ← ha, h1, Except.map]
    · simp only [fitData, dedupRows_rename ρ hρ, e1, e2, ← ha, hz, h2, Except.map, if_true]

theorem lookup_rename {β : Type} (σ : ℕ → ℕ) (n : ℕ) (inj : ∀ j < n, ∀ k < n, σ j = σ k → j = k) (k : ℕ) (hk : k < n) : ∀ l : List (ℕ × β), (∀ e ∈ l, e.1 < n) → (l.map (fun e => (σ e.1, e.2))).lookup (σ k) = l.lookup k := by
  intro l
  induction l with
  | nil => intro _; rfl
  | cons a l ih =>
    intro h
    rw [List.map_cons, List.lookup_cons, List.lookup_cons]
    by_cases e : k = a.1
    · simp [e]
    · rw [beq_eq_false_iff_ne.2 e, beq_eq_false_iff_ne.2 (fun e' => e (inj k hk a.1 (h a (by simp)) e'))]
      exact ih (fun x hx => h x (by simp [hx]))

theorem getSequence_rename {ρ : ε → ε'} {σ : ℕ → ℕ} {d : Built ε} {d' : Built ε'} (h : Renamed ρ σ d d') (k : ℕ) (hk : k < d.listEv.length) : getSequence d' (σ k) = getSequence d k := by
  unfold getSequence
  rw [h.seqd, lookup_rename σ _ h.inj k hk _ h.keys]

end Data

/-! ### Lists part by part -/

theorem perm_of_parts {β γ : Type} (g : γ → β → Bool) (l l' : List β) (h1 : ∀ x ∈ l, ∃ c, g c x = true) (h2 : ∀ x ∈ l', ∃ c, g c x = true) (h : ∀ c, l.filter (g c) = l'.filter (g c)) : l.Perm l' := by
  classical
  rw [List.perm_iff_count]
  intro a
  by_cases ha : ∃ c, g c a = true
  · obtain ⟨c, hc⟩ := ha
    rw [← List.count_filter hc, h c, List.count_filter hc]
  · rw [List.count_eq_zero_of_not_mem (fun hm => ha (h1 a hm)), List.count_eq_zero_of_not_mem (fun hm => ha (h2 a hm))]

/-! ### Theorems -/

section Thms

variable {K : Type} [Field K] [LinearOrder K] [IsStrictOrderedRing K] {ε ε' R κ : Type} [LinearOrder ε] [LinearOrder ε'] [LinearOrder κ]

theorem evPatts_num (σ : ℕ → ℕ) (W : Costs K) (one mx : K) (fuel k : ℕ) (occs : List ℤ) : evPatts W one mx fuel (σ k) occs = (evPatts W one mx fuel k occs).map (renamePatt σ) := by
  unfold evPatts
  rw [mineAlpha_num W fuel (σ k) k]
  simp only
  rw [List.map_filterMap]
  congr 1
  funext i
  cases ((mineAlpha W fuel k occs).getD [])[i]? with
  | none => rfl
  | some c =>
    simp only [Option.bind_some, simplePatt]
    cases c.occs.head? <;> rfl

theorem isOf_unique {q : Patt} {j k : ℕ} (hj : isOf j q = true) (hk : isOf k q = true) : j = k := by
  unfold isOf at hj hk
  rw [decide_eq_true_eq] at hj hk
  rw [hj] at hk
  simpa using hk

theorem names_core (rws : (ℕ × Cyc K) → ℕ → ℕ → Bool → List R) (rk : R → κ) {ρ : ε → ε'} {σ : ℕ → ℕ} {d : Built ε} {d' : Built ε'} (hr : Renamed ρ σ d d') (hd : DataOk d) (hd' : DataOk d') (W W' : ℕ → Costs K)
    (one one' : ℕ → K) (hW : ∀ k < d.listEv.length, W' (σ k) = W k) (h1 : ∀ k < d.listEv.length, one' (σ k) = one k) (fuel : ℕ) (hF : (d.seqd.map (fun e => e.2.length)).sum + 2 ≤ fuel) :
    ∃ ps ps', mineSimple rws rk W one fuel d = some ps ∧ mineSimple rws rk W' one' fuel d' = some ps' ∧
        ps'.Perm (ps.map (renamePatt σ)) ∧ ∀ k < d.listEv.length, ps'.filter (isOf (σ k)) = (ps.filter (isOf k)).map (renamePatt σ) := by
  have hf : ∀ k, (getSequence d k).length + 2 ≤ fuel := by
    intro k
    unfold getSequence
    cases hlk : d.seqd.lookup k with
    | none => simp; omega
    | some ts =>
      have := List.le_sum_of_mem (List.mem_map.2 ⟨(k, ts), lookup_mem' hlk, rfl⟩ : ts.length ∈ d.seqd.map (fun e => e.2.length))
      rw [Option.getD_some]
      omega
  have hf' : ∀ k, (getSequence d' k).length + 2 ≤ fuel := by
    intro k
    unfold getSequence
    cases hlk : d'.seqd.lookup k with
    | none => simp; omega
    | some ts =>
      have hmm := lookup_mem' hlk
      rw [hr.seqd] at hmm
      obtain ⟨e, he, hee⟩ := List.mem_map.1 hmm
      have := List.le_sum_of_mem (List.mem_map.2 ⟨e, he, rfl⟩ : e.2.length ∈ d.seqd.map (fun e => e.2.length))
      have : ts = e.2 := (Prod.ext_iff.1 hee).2.symm
      rw [Option.getD_some, this]
      omega
  -- the costs of the events
  have hdc : (d'.evNbOccs.map (fun e => (e.1, one' e.1))).map Prod.snd = (d.evNbOccs.map (fun e => (e.1, one e.1))).map Prod.snd := by
    rw [hr.counts, List.map_map, List.map_map, List.map_map]
    refine List.map_congr_left (fun e he => ?_)
    exact h1 e.1 (hr.countKeys e he)
  have hmc : Select.minCost (d'.evNbOccs.map (fun e => (e.1, one' e.1))) = Select.minCost (d.evNbOccs.map (fun e => (e.1, one e.1))) := by
    unfold Select.minCost
    rw [hdc]
  cases hmx : Select.minCost (d.evNbOccs.map (fun e => (e.1, one e.1))) with
  | none =>
    have hnil : d.evNbOccs = [] := by
      cases hc : d.evNbOccs with
      | nil => rfl
      | cons a l => rw [hc] at hmx; cases hmx
    have hlen0 : d.listEv.length = 0 := by
      by_contra h0
      have := hd.2.2 0 (Nat.pos_of_ne_zero h0)
      rw [hnil] at this
      simp at this
    refine ⟨[], [], ?_, ?_, by simp, fun k hk => by simp⟩
    · unfold mineSimple; rw [hlen0, hnil]; rfl
    · unfold mineSimple; rw [hr.len, hlen0, hr.counts, hnil]; rfl
  | some mx =>
    obtain ⟨ps, p1, p2, p3⟩ := mineSimple_event rws rk W one fuel d hd hf mx hmx
    obtain ⟨ps', q1, q2, q3⟩ := mineSimple_event rws rk W' one' fuel d' hd' hf' mx (by rw [hmc]; exact hmx)
    have hparts : ∀ k < d.listEv.length, ps'.filter (isOf (σ k)) = (ps.filter (isOf k)).map (renamePatt σ) := by
      intro k hk
      rw [q3 (σ k) (by rw [hr.len]; exact hr.lt k hk), p3 k hk, hW k hk, h1 k hk, getSequence_rename hr k hk, evPatts_num]
    refine ⟨ps, ps', p1, q1, ?_, hparts⟩
    -- every new number is the image of an old one
    have hsurj : ∀ j < d.listEv.length, ∃ k < d.listEv.length, σ k = j := by
      have hs := Finset.surj_on_of_inj_on_of_card_le (s := Finset.range d.listEv.length) (t := Finset.range d.listEv.length) (fun k _ => σ k)
        (fun k hk => Finset.mem_range.2 (hr.lt k (Finset.mem_range.1 hk))) (fun a b ha hb hab => hr.inj a (Finset.mem_range.1 ha) b (Finset.mem_range.1 hb) hab) le_rfl
      intro j hj
      obtain ⟨k, hk, e⟩ := hs j (Finset.mem_range.2 hj)
      exact ⟨k, Finset.mem_range.1 hk, e.symm⟩
    have hren : ∀ q ∈ ps, ∀ k < d.listEv.length, isOf (σ k) (renamePatt σ q) = isOf k q := by
      intro q hq k hk
      obtain ⟨k0, hk0, ho⟩ := p2 q hq
      have hmem : q ∈ ps.filter (isOf k0) := List.mem_filter.2 ⟨hq, ho⟩
      have h3 : renamePatt σ q ∈ ps'.filter (isOf (σ k0)) := by rw [hparts k0 hk0]; exact List.mem_map.2 ⟨q, hmem, rfl⟩
      have h4 := (List.mem_filter.1 h3).2
      by_cases e : k = k0
      · subst e; rw [ho, h4]
      · have n1 : isOf k q = false := by
          by_contra hh
          rw [Bool.not_eq_false] at hh
          exact e (isOf_unique hh ho)
        have n2 : isOf (σ k) (renamePatt σ q) = false := by
          by_contra hh
          rw [Bool.not_eq_false] at hh
          exact e (hr.inj k hk k0 hk0 (isOf_unique hh h4))
        rw [n1, n2]
    refine perm_of_parts (γ := {j : ℕ // j < d.listEv.length}) (fun j => isOf j.1) _ _ ?_ ?_ ?_
    · intro q hq
      obtain ⟨k, hk, ho⟩ := q2 q hq
      exact ⟨⟨k, by rw [← hr.len]; exact hk⟩, ho⟩
    · intro q hq
      obtain ⟨q0, hq0, rfl⟩ := List.mem_map.1 hq
      obtain ⟨k, hk, ho⟩ := p2 q0 hq0
      exact ⟨⟨σ k, hr.lt k hk⟩, by rw [hren q0 hq0 k hk]; exact ho⟩
    · rintro ⟨j, hj⟩
      obtain ⟨k, hk, rfl⟩ := hsurj j hj
      rw [hparts k hk, List.filter_map]
      congr 1
      exact (List.filter_congr (fun q hq => hren q hq k hk)).symm

/-- C125. Give other names to the events, all different (the costs of an event may depend on its name, if the new costs are the old ones). Mining simple cycles finds the same patterns with the new names; for each event the order
is the same too. -/
theorem names_irrelevant (rws : (ℕ × Cyc K) → ℕ → ℕ → Bool → List R) (rk : R → κ) (ρ : ε → ε') (hρ : Function.Injective ρ) (auto : Bool) (W : Option ε → Costs K) (W' : Option ε' → Costs K) (hW : ∀ e, W' (some (ρ e)) = W (some e))
    (one : Option ε → K) (one' : Option ε' → K) (h1 : ∀ e, one' (some (ρ e)) = one (some e)) (rows : List (ℤ × ε)) (h : rows.Pairwise (fun a b => a.1 ≤ b.1)) :
    ∃ m m' σ, fitData auto rows = .ok m ∧ fitData auto (renameRows ρ rows) = .ok m' ∧ m'.nZeros = m.nZeros ∧ m'.divNbSec = m.divNbSec ∧ m'.data.listEv.length = m.data.listEv.length ∧
      (∀ k < m.data.listEv.length, numToEv m'.data (σ k) = (numToEv m.data k).map ρ) ∧
      ∃ F, ∀ fuel, F ≤ fuel → ∃ ps ps', mineSimple rws rk (fun k => W (numToEv m.data k)) (fun k => one (numToEv m.data k)) fuel m.data = some ps ∧
        mineSimple rws rk (fun k => W' (numToEv m'.data k)) (fun k => one' (numToEv m'.data k)) fuel m'.data = some ps' ∧
        ps'.Perm (ps.map (renamePatt σ)) ∧ ∀ k < m.data.listEv.length, ps'.filter (isOf (σ k)) = (ps.filter (isOf k)).map (renamePatt σ) := by
  obtain ⟨m, m', σ, e1, e2, hr, e3, e4⟩ := fitData_rename ρ hρ auto rows
  obtain ⟨m1, hm1, hd⟩ := fitData_dataOk auto rows h
  rw [e1] at hm1
  obtain rfl : m = m1 := by injection hm1
  obtain ⟨m1, hm1, hd'⟩ := fitData_dataOk auto (renameRows ρ rows) (by unfold renameRows; rw [List.pairwise_map]; exact h)
  rw [e2] at hm1
  obtain rfl : m' = m1 := by injection hm1
  refine ⟨m, m', σ, e1, e2, e3, e4, hr.len, hr.name, (m.data.seqd.map (fun e => e.2.length)).sum + 2, ?_⟩
  intro fuel hF
  have hname : ∀ k < m.data.listEv.length, ∃ e, numToEv m.data k = some e ∧ numToEv m'.data (σ k) = some (ρ e) := by
    intro k hk
    refine ⟨m.data.listEv[k], ?_, ?_⟩
    · rw [numToEv_get, List.getElem?_eq_getElem hk]
    · rw [hr.name k hk, numToEv_get, List.getElem?_eq_getElem hk]; rfl
  refine names_core rws rk hr hd hd' _ _ _ _ (fun k hk => ?_) (fun k hk => ?_) fuel hF
  · obtain ⟨x, hx1, hx2⟩ := hname k hk
    simp only [hx1, hx2, hW]
  · obtain ⟨x, hx1, hx2⟩ := hname k hk
    simp only [hx1, hx2, h1]

end Thms

/-! ### The costs of the code -/

section Exact

variable {ε ε' R κ : Type} [LinearOrder ε] [LinearOrder ε'] [LinearOrder κ]

theorem costs_rename {ρ : ε → ε'} {σ : ℕ → ℕ} {d : Built ε} {d' : Built ε'} (hr : Renamed ρ σ d d') (k : ℕ) (hk : k < d.listEv.length) :
    Cost.costOne (details d') (σ k) = Cost.costOne (details d) k ∧ ∀ u maxP, exactCosts u maxP (details d') (σ k) = exactCosts u maxP (details d) k := by
  have hl : (details d').nb.lookup (σ k) = (details d).nb.lookup k := by
    simp only [details, hr.counts]
    exact lookup_rename σ _ hr.inj k hk _ hr.countKeys
  have ht : (details d').total = (details d).total := by
    unfold Cost.Details.total
    simp only [details, hr.counts, List.map_map]
    rfl
  have hdel : (details d').deltaT = (details d).deltaT := hr.span
  have hone : Cost.costOne (details d') (σ k) = Cost.costOne (details d) k := by
    unfold Cost.costOne Cost.orgFreq
    rw [hl, ht, hdel]
  have har : Cost.alphaAndR (details d') (.one (σ k)) = Cost.alphaAndR (details d) (.one k) := by
    unfold Cost.alphaAndR Cost.adjFreq
    simp only [hl, ht]
  have hcyc : Cost.lengthCycleNone (details d') (.one (σ k)) = Cost.lengthCycleNone (details d) (.one k) := by
    funext l
    unfold Cost.lengthCycleNone Cost.lengthCycle
    simp only [har, hdel]
  have htrip : Cost.costTriple (details d') (.one (σ k)) = Cost.costTriple (details d) (.one k) := by
    funext a b
    unfold Cost.costTriple
    simp only [har, hdel]
  refine ⟨hone, fun u maxP => ?_⟩
  unfold exactCosts
  rw [hone, hcyc, htrip, hdel]

/-- C125, with the costs of the code (exact real numbers). -/
theorem names_exact (rws : (ℕ × Cyc ℝ) → ℕ → ℕ → Bool → List R) (rk : R → κ) (ρ : ε → ε') (hρ : Function.Injective ρ) (auto : Bool) (u : ℝ) (maxP : Option ℤ) (rows : List (ℤ × ε)) (h : rows.Pairwise (fun a b => a.1 ≤ b.1)) :
    ∃ m m' σ, fitData auto rows = .ok m ∧ fitData auto (renameRows ρ rows) = .ok m' ∧ m'.nZeros = m.nZeros ∧ m'.divNbSec = m.divNbSec ∧ m'.data.listEv.length = m.data.listEv.length ∧
      (∀ k < m.data.listEv.length, numToEv m'.data (σ k) = (numToEv m.data k).map ρ) ∧
      ∃ F, ∀ fuel, F ≤ fuel → ∃ ps ps', mineSimple rws rk (exactCosts u maxP (details m.data)) (fun a => (Cost.costOne (details m.data) a).getD u) fuel m.data = some ps ∧
        mineSimple rws rk (exactCosts u maxP (details m'.data)) (fun a => (Cost.costOne (details m'.data) a).getD u) fuel m'.data = some ps' ∧
        ps'.Perm (ps.map (renamePatt σ)) ∧ ∀ k < m.data.listEv.length, ps'.filter (isOf (σ k)) = (ps.filter (isOf k)).map (renamePatt σ) := by
  obtain ⟨m, m', σ, e1, e2, hr, e3, e4⟩ := fitData_rename ρ hρ auto rows
  obtain ⟨m1, hm1, hd⟩ := fitData_dataOk auto rows h
  rw [e1] at hm1
  obtain rfl : m = m1 := by injection hm1
  obtain ⟨m1, hm1, hd'⟩ := fitData_dataOk auto (renameRows ρ rows) (by unfold renameRows; rw [List.pairwise_map]; exact h)
  rw [e2] at hm1
  obtain rfl : m' = m1 := by injection hm1
  refine ⟨m, m', σ, e1, e2, e3, e4, hr.len, hr.name, (m.data.seqd.map (fun e => e.2.length)).sum + 2, ?_⟩
  intro fuel hF
  exact names_core rws rk hr hd hd' _ _ _ _ (fun k hk => (costs_rename hr k hk).2 u maxP) (fun k hk => by simp only [(costs_rename hr k hk).1]) fuel hF

end Exact

/-! ### Example -/

/-- Two events with the same regularity; one is renamed from the first to the last. -/
def exNames : List (ℤ × ℕ) := [(2, 7), (3, 9), (4, 7), (5, 9), (6, 7), (7, 9), (8, 7), (9, 9), (30, 7)]

def exRho (e : ℕ) : ℕ := if e = 7 then 12 else if e = 12 then 7 else e

example : Function.Injective exRho ∧ exNames.Pairwise (fun a b => a.1 ≤ b.1) := by
  constructor
  · intro a b h
    unfold exRho at h
    split_ifs at h <;> omega
  · decide

/-- The same patterns are found, in another order. -/
example : exRun exNames = some ([2, 3], some [[(2, 0), (4, 0), (6, 0), (8, 0)], [(3, 1), (5, 1), (7, 1), (9, 1)]]) := by decide +kernel

example : exRun (renameRows exRho exNames) = some ([3, 2], some [[(3, 0), (5, 0), (7, 0), (9, 0)], [(2, 1), (4, 1), (6, 1), (8, 1)]]) := by decide +kernel

end Verif.Mine
