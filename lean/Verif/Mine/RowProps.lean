import Verif.Miner.GroupModel
import Verif.Mine.UnitProps
import Verif.Complex.Model

/-!
# The order of the rows of a series (C144)

Source: `/repo/skmine/periodic/cycles.py:97-163`.
-/

set_option autoImplicit false
set_option linter.unusedSectionVars false

namespace Verif.Mine

open Verif.DataSeq Verif.TimeScale Verif.Miner

variable {ε : Type} [LinearOrder ε]

/-! ### Specification -/

/-- The rows are in the order of time, or some row is repeated (then `fit` sorts the rows). Rows at the same time are in any order. -/
def InOrder (rows : List (ℤ × ε)) : Prop := rows.Pairwise (fun a b => a.1 ≤ b.1) ∨ ¬ rows.Nodup

/-! ### Lemmas -/

theorem dedup_inOrder (rows : List (ℤ × ε)) (h : InOrder rows) : (dedupRows rows).Pairwise (fun a b => a.1 ≤ b.1) := by
  unfold dedupRows
  split
  · rename_i hn
    rcases h with h | h
    · exact h
    · exact absurd (List.Nodup.of_map _ hn) h
  · rw [List.pairwise_flatMap]
    constructor
    · intro t _
      refine List.pairwise_of_forall_mem_list ?_
      intro a ha b hb
      rw [mem_keepFirst, List.mem_filter, decide_eq_true_eq] at ha hb
      rw [ha.1.2, hb.1.2]
    · refine (List.pairwise_insertionSort (· ≤ ·) (keepFirst [] (rows.map Prod.fst))).imp ?_
      intro s t hst a ha b hb
      rw [mem_keepFirst, List.mem_filter, decide_eq_true_eq] at ha hb
      rw [ha.1.2, hb.1.2]; exact hst

theorem dedup_perm {rows rows' : List (ℤ × ε)} (h : ∀ x, x ∈ rows ↔ x ∈ rows') : (dedupRows rows).Perm (dedupRows rows') := by
  rw [List.perm_ext_iff_of_nodup (dedupRows_spec rows).1 (dedupRows_spec rows').1]
  intro x
  rw [(dedupRows_spec rows).2, (dedupRows_spec rows').2, h]

theorem sorted_perm_eq {l l' : List ℤ} (hp : l.Perm l') (h : l.Pairwise (· ≤ ·)) (h' : l'.Pairwise (· ≤ ·)) : l = l' :=
  List.Perm.eq_of_pairwise (le := (· ≤ ·)) (fun _ _ _ _ h1 h2 => le_antisymm h1 h2) h h' hp

theorem group_perm {R R' : List (ℤ × ε)} (hp : R.Perm R') (h : R.Pairwise (fun a b => a.1 ≤ b.1)) (h' : R'.Pairwise (fun a b => a.1 ≤ b.1)) : (group R).Perm (group R') := by
  have times : ∀ e : ε, (R.filter (fun x => x.2 = e)).map Prod.fst = (R'.filter (fun x => x.2 = e)).map Prod.fst := by
    intro e
    refine sorted_perm_eq ((hp.filter _).map _) ?_ ?_
    · rw [List.pairwise_map]; exact h.sublist List.filter_sublist
    · rw [List.pairwise_map]; exact h'.sublist List.filter_sublist
  have key : ∀ {R R' : List (ℤ × ε)}, R.Perm R' → (∀ e : ε, (R.filter (fun x => x.2 = e)).map Prod.fst = (R'.filter (fun x => x.2 = e)).map Prod.fst) → ∀ q ∈ group R, q ∈ group R' := by
    intro R R' hp ht q hq
    have hk : q.1 ∈ (group R').map Prod.fst := by
      rw [group_keys_mem]
      exact (hp.map Prod.snd).mem_iff.1 ((group_keys_mem R q.1).1 (List.mem_map_of_mem hq))
    obtain ⟨q', hq', e⟩ := List.mem_map.1 hk
    have e1 := (group_entry R q.1 q.2 hq).1
    have e2 := (group_entry R' q'.1 q'.2 hq').1
    have : q = q' := Prod.ext e.symm (by rw [e1, e2, ht, e])
    rw [this]; exact hq'
  rw [List.perm_ext_iff_of_nodup (List.Nodup.of_map _ (group_nodup R)) (List.Nodup.of_map _ (group_nodup R'))]
  exact fun q => ⟨key hp times q, key hp.symm (fun e => (times e).symm) q⟩

theorem sortedGroups_perm (R : List (ℤ × ε)) : (sortedGroups R).Perm (group R) := List.perm_insertionSort _ _

theorem sortedGroups_same {R R' : List (ℤ × ε)} (hp : R.Perm R') (h : R.Pairwise (fun a b => a.1 ≤ b.1)) (h' : R'.Pairwise (fun a b => a.1 ≤ b.1)) : sortedGroups R = sortedGroups R' := by
  have : Std.Total (fun a b : ε × List ℤ => a.1 ≤ b.1) := ⟨fun a b => le_total _ _⟩
  have : IsTrans (ε × List ℤ) (fun a b => a.1 ≤ b.1) := ⟨fun a b c h1 h2 => le_trans h1 h2⟩
  have hpp : (sortedGroups R).Perm (sortedGroups R') := ((sortedGroups_perm R).trans (group_perm hp h h')).trans (sortedGroups_perm R').symm
  refine List.Perm.eq_of_pairwise (le := fun a b : ε × List ℤ => a.1 ≤ b.1) ?_ (List.pairwise_insertionSort _ _) (List.pairwise_insertionSort _ _) hpp
  intro a b ha hb h1 h2
  have ha := (sortedGroups_perm R).mem_iff.1 ha
  have hb := (group_perm hp h h').mem_iff.2 ((sortedGroups_perm R').mem_iff.1 hb)
  exact List.inj_on_of_nodup_map (group_nodup R) ha hb (le_antisymm h1 h2)

theorem zip_scaled (s : List (ℤ × ε)) (f : ℤ → ℤ) : ((s.map Prod.fst).map f).zip (s.map Prod.snd) = s.map (fun x => (f x.1, x.2)) := by
  rw [List.map_map, List.zip_map']
  rfl

theorem fitGroups_auto (rows : List (ℤ × ε)) : ∃ (n d : ℕ) (u : TimeScale.Unit), autoscale ((dedupRows rows).map Prod.fst) = (((dedupRows rows).map Prod.fst).map (fun t : ℤ => t / (10 ^ n * (d : ℤ))), n, d, u) ∧
    HasScale ((dedupRows rows).map Prod.fst) n d ∧
    fitGroups true rows = (ofDict (sortedGroups ((dedupRows rows).map (fun x => (x.1 / (10 ^ n * (d : ℤ)), x.2))))).map (fun b => ⟨b, n, d⟩) := by
  obtain ⟨n, d, u, h1, h2⟩ := autoscale_hasScale ((dedupRows rows).map Prod.fst)
  refine ⟨n, d, u, h1, h2, ?_⟩
  unfold fitGroups
  simp only [h1, if_true, zip_scaled]

theorem scaled_sorted (s : List (ℤ × ε)) (k : ℤ) (hk : 0 < k) (h : s.Pairwise (fun a b => a.1 ≤ b.1)) : (s.map (fun x => (x.1 / k, x.2))).Pairwise (fun a b => a.1 ≤ b.1) := by
  rw [List.pairwise_map]
  exact h.imp (fun hab => Int.ediv_le_ediv hk hab)

/-! ### Theorems -/

/-- C144. Two series with the same rows, each in the order of time (or with some repeated row): the order of rows at the same time and the repetition of rows do not matter. `fit` passes the same data and the same scale to the miner, so
that everything the fitted miner answers is the same. The full statement has no condition on the order of the rows; see `row_order_matters`. -/
theorem rows_same_partial (auto : Bool) (rows rows' : List (ℤ × ε)) (h : InOrder rows) (h' : InOrder rows') (hs : ∀ x, x ∈ rows ↔ x ∈ rows') : fitGroups auto rows = fitGroups auto rows' := by
  have hp := dedup_perm hs
  have h1 := dedup_inOrder rows h
  have h2 := dedup_inOrder rows' h'
  cases auto with
  | false =>
    unfold fitGroups
    simp only [Bool.false_eq_true, if_false]
    rw [sortedGroups_same hp h1 h2]
  | true =>
    have ht : (dedupRows rows).map Prod.fst = (dedupRows rows').map Prod.fst :=
      sorted_perm_eq (hp.map _) (by rw [List.pairwise_map]; exact h1) (by rw [List.pairwise_map]; exact h2)
    obtain ⟨n, d, u, e1, hsc, e2⟩ := fitGroups_auto rows
    obtain ⟨n', d', u', e1', hsc', e2'⟩ := fitGroups_auto rows'
    rw [← ht] at hsc'
    obtain ⟨rfl, rfl⟩ := hsc.unique hsc'
    rw [e2, e2', sortedGroups_same (hp.map _) (scaled_sorted _ _ (scale_pos hsc) h1) (scaled_sorted _ _ (scale_pos hsc) h2)]

section Link

variable {K : Type} [Field K] [LinearOrder K] [IsStrictOrderedRing K]

theorem lookup_perm {β γ : Type} [DecidableEq β] {l l' : List (β × γ)} (hp : l.Perm l') (hn : (l.map Prod.fst).Nodup) (k : β) : l.lookup k = l'.lookup k := by
  have key : ∀ {m m' : List (β × γ)}, m.Perm m' → (m'.map Prod.fst).Nodup → ∀ v, m.lookup k = some v → m'.lookup k = some v := by
    intro m m' hp hn v hv
    have hm := hp.mem_iff.1 (lookup_mem' hv)
    clear hv hp
    induction m' with
    | nil => cases hm
    | cons a m' ih =>
      rw [List.map_cons, List.nodup_cons] at hn
      rw [List.lookup_cons]
      rcases List.mem_cons.1 hm with rfl | hm
      · simp
      · have : k ≠ a.1 := by
          rintro rfl
          exact hn.1 (List.mem_map.2 ⟨_, hm, rfl⟩)
        rw [beq_false_of_ne this]
        exact ih hn.2 hm
  cases h : l.lookup k with
  | some v => exact (key hp ((hp.map _).nodup_iff.1 hn) v h).symm
  | none =>
    cases h' : l'.lookup k with
    | none => rfl
    | some v => rw [key hp.symm hn v h'] at h; cases h

theorem foldl_min_mem (l : List K) : ∀ d : K, l.foldl min d ∈ d :: l := by
  induction l with
  | nil => intro d; simp
  | cons a l ih =>
    intro d
    rw [List.foldl_cons]
    rcases List.mem_cons.1 (ih (min d a)) with h | h
    · rcases min_choice d a with e | e
      · rw [h, e]; simp
      · rw [h, e]; simp
    · exact List.mem_cons_of_mem _ (List.mem_cons_of_mem _ h)

theorem foldl_min_perm {d e : K} {l l' : List K} (hp : (d :: l).Perm (e :: l')) : l.foldl min d = l'.foldl min e := by
  have key : ∀ (d e : K) (l l' : List K), (d :: l).Perm (e :: l') → l'.foldl min e ≤ l.foldl min d := by
    intro d e l l' hp
    rcases List.mem_cons.1 (hp.mem_iff.1 (foldl_min_mem l d)) with h | h
    · rw [h]; exact (Select.foldl_min_le l' e).1
    · exact (Select.foldl_min_le l' e).2 _ h
  exact le_antisymm (key e d l' l hp.symm) (key d e l l' hp)

theorem filterCover_dcosts {ω β : Type} [DecidableEq ω] [DecidableEq β] (C : Select.Cands K ω) {dc dc' : List (β × K)} (hp : dc.Perm dc') (hn : (dc.map Prod.fst).Nodup) (ev : ω → β) (minCov : ℕ) (cis : List ℕ) :
    Select.filterCover C dc ev minCov cis = Select.filterCover C dc' ev minCov cis := by
  have he : Select.isEfficient (ω := ω) dc ev = Select.isEfficient dc' ev := by
    funext c u
    unfold Select.isEfficient Select.sumCosts
    simp only [lookup_perm hp hn]
  have hl : ∀ (maxEff : K) (n : ℕ) (cis : List ℕ) (uncov : ℕ → Finset ω) (sel : List ℕ), Select.loop C dc ev minCov maxEff n cis uncov sel = Select.loop C dc' ev minCov maxEff n cis uncov sel := by
    intro maxEff n
    induction n with
    | zero => intro cis uncov sel; cases cis <;> rfl
    | succ n ih =>
      intro cis uncov sel
      cases cis with
      | nil => rfl
      | cons c cis =>
        rw [Select.loop, Select.loop, he]
        simp only [ih]
  have hm := hp.map Prod.snd
  unfold Select.filterCover
  cases h1 : dc.map Prod.snd with
  | nil =>
    rw [h1] at hm
    rw [hm.nil_eq.symm]
  | cons d l =>
    cases h2 : dc'.map Prod.snd with
    | nil => rw [h1, h2] at hm; exact absurd hm.length_eq (by simp)
    | cons e l' =>
      rw [h1, h2] at hm
      simp only [foldl_min_perm hm, hl]

/-- The order of the dictionary of groups does not matter: with the groups by first appearance (`fitData`, C36, C71, C78) the data are the same but for the order of dictionaries, and mining gives the same result. -/
theorem groups_order (auto : Bool) (rows : List (ℤ × ε)) : ∃ m m0, fitGroups auto rows = .ok m ∧ fitData auto rows = .ok m0 ∧ m.nZeros = m0.nZeros ∧ m.divNbSec = m0.divNbSec ∧ m.data.listEv = m0.data.listEv ∧
    m.data.seql = m0.data.seql ∧ (∀ k, getSequence m.data k = getSequence m0.data k) ∧ m.data.evNbOccs.Perm m0.data.evNbOccs ∧ m.data.tStart = m0.data.tStart ∧ m.data.tEnd = m0.data.tEnd ∧
    (∀ {R κ : Type} [LinearOrder κ] (rws : (ℕ × Cyc K) → ℕ → ℕ → Bool → List R) (rk : R → κ) (W : ℕ → Costs K) (one : ℕ → K) (fuel : ℕ), mineSimple rws rk W one fuel m.data = mineSimple rws rk W one fuel m0.data) ∧
    ∀ (W : Complex.World K) (A : ℕ → Costs K) (Q : ℕ → Complex.Orders) (fuel n : ℕ), Complex.mineComplex W A Q fuel n m.data = Complex.mineComplex W A Q fuel n m0.data := by
  have main : ∀ R : List (ℤ × ε), ∃ d d0, ofDict (sortedGroups R) = .ok d ∧ ofList R = .ok d0 ∧ d.listEv = d0.listEv ∧
      d.seql = d0.seql ∧ (∀ k, getSequence d k = getSequence d0 k) ∧ d.evNbOccs.Perm d0.evNbOccs ∧ d.tStart = d0.tStart ∧ d.tEnd = d0.tEnd ∧ (d.evNbOccs.map Prod.fst).Nodup := by
    intro R
    have hp := sortedGroups_perm R
    have hn0 := group_nodup R
    have hn : ((sortedGroups R).map Prod.fst).Nodup := (hp.map Prod.fst).nodup_iff.2 hn0
    have hne0 : ∀ q ∈ group R, q.2 ≠ [] := fun q hq => (group_entry R q.1 q.2 hq).2
    have hne : ∀ q ∈ sortedGroups R, q.2 ≠ [] := fun q hq => hne0 q (hp.mem_iff.1 hq)
    obtain ⟨d, a1, a2, -, a4, a5, a6, -, a8⟩ := ofDict_ok (sortedGroups R) hn hne
    obtain ⟨d0, b1, b2, -, b4, b5, b6, -, b8⟩ := ofDict_ok (group R) hn0 hne0
    have hev : d.listEv = d0.listEv := by
      rw [a2, b2]
      exact List.Perm.eq_of_pairwise (le := (· ≤ ·)) (fun _ _ _ _ h1 h2 => le_antisymm h1 h2) (List.pairwise_insertionSort _ _) (List.pairwise_insertionSort _ _)
        ((List.perm_insertionSort _ _).trans ((hp.map _).trans (List.perm_insertionSort _ _).symm))
    have hsd : d.seqd.Perm d0.seqd := by
      rw [a4, b4, hev]
      exact hp.map _
    have hkeys : (d.seqd.map Prod.fst).Nodup := by
      rw [a4, List.map_map]
      refine List.Nodup.map_on ?_ (List.Nodup.of_map _ hn)
      intro x hx y hy hxy
      have hx1 : x.1 ∈ d.listEv := by rw [a2, List.mem_insertionSort]; exact List.mem_map_of_mem hx
      have hxy : d.listEv.idxOf x.1 = d.listEv.idxOf y.1 := hxy
      exact List.inj_on_of_nodup_map hn hx hy ((List.idxOf_inj hx1).1 hxy)
    have hsl : d.seql = d0.seql := by
      rw [a5, b5]
      have : Std.Total pairLe := ⟨fun a b => by unfold pairLe; omega⟩
      have : IsTrans (ℤ × ℕ) pairLe := ⟨fun a b c h1 h2 => by unfold pairLe at *; omega⟩
      refine List.Perm.eq_of_pairwise (le := pairLe) ?_ (List.pairwise_insertionSort _ _) (List.pairwise_insertionSort _ _)
        ((List.perm_insertionSort _ _).trans ((hsd.flatMap_right _).trans (List.perm_insertionSort _ _).symm))
      intro a b _ _ h1 h2
      unfold pairLe at h1 h2
      exact Prod.ext (by omega) (by omega)
    have hst : d.tStart = d0.tStart ∧ d.tEnd = d0.tEnd := by
      by_cases h0 : group R = []
      · have h0' : sortedGroups R = [] := by unfold sortedGroups; rw [h0]; rfl
        rw [h0'] at a1
        rw [h0] at b1
        rw [a1] at b1
        injection b1 with b1
        rw [b1]
        exact ⟨rfl, rfl⟩
      · obtain ⟨⟨q1, x1, x2⟩, ⟨q2, x3, x4⟩, x5⟩ := a8 (fun h => h0 (by rw [h] at hp; exact hp.nil_eq.symm))
        obtain ⟨⟨r1, y1, y2⟩, ⟨r2, y3, y4⟩, y5⟩ := b8 h0
        have z1 := y5 q1 (hp.mem_iff.1 x1) _ x2
        have z2 := y5 q2 (hp.mem_iff.1 x3) _ x4
        have z3 := x5 r1 (hp.mem_iff.2 y1) _ y2
        have z4 := x5 r2 (hp.mem_iff.2 y3) _ y4
        omega
    refine ⟨d, d0, a1, b1, hev, hsl, ?_, ?_, hst.1, hst.2, ?_⟩
    · intro k
      unfold getSequence
      rw [lookup_perm hsd hkeys]
    · rw [a6, b6]
      exact hsd.map _
    · rw [a6, List.map_map]
      exact hkeys
  suffices hs : ∃ (R : List (ℤ × ε)) (n d : ℕ), fitGroups auto rows = (ofDict (sortedGroups R)).map (fun b => ⟨b, n, d⟩) ∧ fitData auto rows = (ofList R).map (fun b => ⟨b, n, d⟩) by
    obtain ⟨R, n, d, e1, e2⟩ := hs
    obtain ⟨b, b0, h1, h2, h3, h4, h5, h6, h7, h8, h9⟩ := main R
    rw [h1] at e1
    rw [h2] at e2
    refine ⟨⟨b, n, d⟩, ⟨b0, n, d⟩, e1, e2, rfl, rfl, h3, h4, h5, h6, h7, h8, ?_, ?_⟩
    · intro R κ _ rws rk W one fuel
      have hloop : poolLoop rws rk W fuel b = poolLoop rws rk W fuel b0 := by
        funext s a
        unfold poolLoop
        rw [h5]
      unfold mineSimple
      simp only [h3, hloop]
      congr 1
      funext s
      rw [filterCover_dcosts _ (h6.map (fun e => (e.1, one e.1))) (by rw [List.map_map]; exact h9)]
    · intro W A Q fuel k
      have hloop : Complex.initLoop W A fuel b = Complex.initLoop W A fuel b0 := by
        funext s a
        unfold Complex.initLoop
        rw [h5]
      unfold Complex.mineComplex Complex.initPool
      simp only [h3, hloop]
  cases auto with
  | false => exact ⟨dedupRows rows, 0, 1, by simp [fitGroups], by simp [fitData]⟩
  | true =>
    obtain ⟨n, d, u, h1, h2, h3⟩ := fitGroups_auto rows
    exact ⟨_, n, d, h3, fitData_auto rows n d h2⟩

end Link

/-! ### The order of time is needed -/

section Witness

variable {K : Type} [Field K] [LinearOrder K] [IsStrictOrderedRing K] {R κ : Type} [LinearOrder κ]

/-- C144, negative: nine equidistant occurrences of one event. In the order of time mining ends; the same rows from the last to the first make it run forever, whatever the costs. -/
theorem row_order_matters (rws : (ℕ × Cyc K) → ℕ → ℕ → Bool → List R) (rk : R → κ) (W : ℕ → Costs K) (one : ℕ → K) (h0 : ∀ a, (W a).par.small 0 = true) (hm : ∀ a, (W a).par.maxP = none) (auto : Bool) :
    ∃ rows rows' : List (ℤ × ℕ), rows.Perm rows' ∧ rows.Nodup ∧ InOrder rows ∧ (∃ m, fitGroups auto rows = .ok m ∧ ∃ fuel ps, mineSimple rws rk W one fuel m.data = some ps) ∧
      ∃ m, fitGroups auto rows' = .ok m ∧ ∀ fuel, mineSimple rws rk W one fuel m.data = none := by
  refine ⟨[0, 1, 2, 3, 4, 5, 6, 7, 8].map (fun t : ℤ => (t, 7)), [8, 7, 6, 5, 4, 3, 2, 1, 0].map (fun t : ℤ => (t, 7)), by decide, by decide, .inl (by decide), ?_, ?_⟩
  · obtain ⟨m, m0, h1, h2, -, -, -, -, -, -, -, -, h3, -⟩ := groups_order (K := K) auto ([0, 1, 2, 3, 4, 5, 6, 7, 8].map (fun t : ℤ => (t, 7)))
    obtain ⟨m1, k1, F, k2⟩ := fit_lossless_partial rws rk W one auto ([0, 1, 2, 3, 4, 5, 6, 7, 8].map (fun t : ℤ => (t, 7))) (by decide)
    rw [h2] at k1
    obtain rfl : m0 = m1 := by injection k1
    obtain ⟨ps, k3, -⟩ := k2 F (le_refl _)
    exact ⟨m, h1, F, ps, by rw [h3, k3]⟩
  · obtain ⟨m, m0, h1, h2, -, -, -, -, -, -, -, -, h3, -⟩ := groups_order (K := K) auto ([8, 7, 6, 5, 4, 3, 2, 1, 0].map (fun t : ℤ => (t, 7)))
    obtain ⟨m1, k1, k2⟩ := descending_diverges rws rk W one h0 hm auto
    rw [h2] at k1
    obtain rfl : m0 = m1 := by injection k1
    exact ⟨m, h1, fun fuel => by rw [h3, k2]⟩

end Witness

/-! ### Examples -/

/-- Rows at the same time exchanged, and a row repeated. -/
example : let rows : List (ℤ × ℕ) := [(0, 1), (1, 2), (5, 1), (5, 2), (10, 1), (30, 2)]
    let rows' : List (ℤ × ℕ) := [(0, 1), (1, 2), (5, 2), (5, 1), (5, 2), (10, 1), (30, 2)]
    InOrder rows ∧ InOrder rows' ∧ (∀ x, x ∈ rows ↔ x ∈ rows') ∧ (fitGroups true rows).toOption.map (fun m => (m.data.seqd, m.data.listEv)) = some ([(0, [0, 5, 10]), (1, [1, 5, 30])], [1, 2]) := by
  refine ⟨.inl (by decide), .inl (by decide), ?_, by decide +kernel⟩
  intro x
  simp only [List.mem_cons, List.not_mem_nil, or_false]
  tauto

/-- Out of order, with a repeated row. -/
example : InOrder ([(30, 2), (0, 1), (10, 1), (0, 1)] : List (ℤ × ℕ)) := .inr (by decide)

end Verif.Mine
