import Verif.Complex.Term
import Verif.Mine.Period
import Verif.Nest.FoldProps
import Mathlib.Data.Int.Interval
import Mathlib.Order.Interval.Finset.Nat
import Mathlib.Order.Interval.Set.Infinite

/-!
# Bounded pools
-/

set_option autoImplicit false
set_option linter.unusedSectionVars false

namespace Verif.Complex

open Verif.PTree Verif.Concat Verif.PattKey Verif.CandPool Verif.DataSeq

variable {K : Type} [Field K] [LinearOrder K]

/-! ### The size of the pool -/

/-- What the keys of a candidate are computed from: simple cycle or pattern, repetitions, period and children of the root, start. -/
abbrev Sig := Bool × ℕ × ℤ × Forest ℤ × ℤ

/-- For a candidate. -/
def sig : AnyCand → Sig
  | .cycle a p O _ => (true, O.length, p, .cons 0 (.leaf a) .nil, O.head?.getD 0)
  | .pattern c => (false, c.r, c.p, c.ch, c.O.head?.getD 0)

/-- The keys. -/
def sigKey (x : Sig) : (ℤ ⊕ List Char) × Option (ℤ × List Char) :=
  (if x.1 then .inl (match x.2.2.2.1 with | .cons _ (.leaf a) _ => a | _ => 0) else .inr (minorF true x.2.2.2.1), some (x.2.2.2.2, rpKey x.2.1 x.2.2.1))

theorem sigKey_sig (c : AnyCand) (h : c.toCand.O ≠ []) : sigKey (sig c) = (c.minorKey, c.majorKey) := by
  cases c with
  | cycle a p O E =>
    cases O with
    | nil => exact absurd rfl h
    | cons t O => rfl
  | pattern c =>
    obtain ⟨r, p, ch, O, E⟩ := c
    cases O with
    | nil => exact absurd rfl h
    | cons t O => rfl

/-- All that is possible within the bounds. -/
def sigs (B : Bounds) : Set Sig :=
  {x | x.2.1 ≤ B.D.card ∧ |x.2.2.1| ≤ B.R ∧ (leavesF x.2.2.2.1 + innerF x.2.2.2.1 ≤ B.D.card + (2 * (B.D.card * B.D.card) * B.D.card + B.D.card * B.D.card) ∧ AllF B.pr B.pd B.pa x.2.2.2.1) ∧ x.2.2.2.2 ∈ B.times}

theorem abs_finite (R : ℤ) : {p : ℤ | |p| ≤ R}.Finite := (Set.finite_Icc (-R) R).subset (fun _ hp => abs_le.1 hp)

theorem sigs_finite (B : Bounds) : (sigs B).Finite := by
  have hF : {F : Forest ℤ | leavesF F + innerF F ≤ B.D.card + (2 * (B.D.card * B.D.card) * B.D.card + B.D.card * B.D.card) ∧ AllF B.pr B.pd B.pa F}.Finite := by
    refine (trees_finite ?_ ?_ ?_ _).2
    · exact ((Set.finite_Iic B.D.card).prod (abs_finite B.R)).subset (fun x hx => ⟨hx.1, hx.2⟩)
    · exact abs_finite B.R
    · refine (B.D.image Prod.snd).finite_toSet.subset ?_
      rintro a ⟨x, hx, rfl⟩
      exact Finset.mem_coe.2 (Finset.mem_image.2 ⟨x, hx, rfl⟩)
  exact (Set.finite_univ.prod ((Set.finite_Iic B.D.card).prod ((abs_finite B.R).prod (hF.prod B.times.finite_toSet)))).subset (fun x hx => ⟨trivial, hx.1, hx.2.1, hx.2.2.1, hx.2.2.2⟩)

theorem sig_mem (B : Bounds) (c : AnyCand) (h : BP B c.toCand) : sig c ∈ sigs B := by
  obtain ⟨t0, ht⟩ := h.1.data.1.head
  have hs : sig c = ((sig c).1, c.toCand.r, c.toCand.p, c.toCand.ch, t0) := by
    cases c with
    | cycle a p O E => simp only [sig, AnyCand.toCand] at ht ⊢; rw [ht]; rfl
    | pattern c => simp only [sig, AnyCand.toCand] at ht ⊢; rw [ht]; rfl
  rw [hs]
  have hl : leavesF c.toCand.ch ≤ B.D.card := by
    have h0 : 0 < c.toCand.r := h.1.data.1.parts.1
    refine le_trans (h.1.leaves 0 h0) (Finset.card_le_card ?_)
    intro x hx
    exact h.1.data.2.2 x (repPairs_sub h.1.data.1 0 h0 x (List.mem_toFinset.1 hx))
  refine ⟨h.1.r, h.1.p, ⟨?_, h.1.labels⟩, h.1.time B (List.mem_of_mem_head? ht)⟩
  have h1 := h.2 t0 ht
  have h2 := Nat.mul_le_mul_left (2 * (B.D.card * B.D.card)) hl
  have h3 := Nat.mul_le_mul_left B.D.card (B.later_le t0)
  simp only
  omega

theorem pool_size {W : World K} (B : Bounds) (s : CPool K) (h : PoolInv W (BP B) s) : s.candidates.length ≤ (sigs B).ncard := by
  have hnd : (s.candidates.map (fun e => sig e.2.cand)).Nodup := by
    have := h.inv.nodup
    have h2 : s.candidates.map (fun e => ((ops W).minor e.2, (ops W).major e.2)) = (s.candidates.map (fun e => sig e.2.cand)).map sigKey := by
      rw [List.map_map]
      apply List.map_congr_left
      intro e he
      rw [Function.comp_apply, sigKey_sig]
      · rfl
      · obtain ⟨t0, ht⟩ := (h.cands e he).1.data.1.head
        rintro e
        rw [e] at ht
        cases ht
    rw [h2] at this
    exact List.Nodup.of_map _ this
  classical
  have hsub : ((s.candidates.map (fun e => sig e.2.cand)).toFinset : Set Sig) ⊆ sigs B := by
    intro x hx
    rw [Finset.mem_coe, List.mem_toFinset] at hx
    obtain ⟨e, he, rfl⟩ := List.mem_map.1 hx
    exact sig_mem B _ (h.cands e he)
  have := Set.ncard_le_ncard hsub (sigs_finite B)
  rw [Set.ncard_coe_finset, List.toFinset_card_of_nodup hnd, List.length_map] at this
  exact this

/-! ### Periods -/

theorem mem_gaps : ∀ (l : List ℤ), l.Pairwise (· < ·) → ∀ d ∈ Mine.gaps l, 0 < d ∧ ∃ x ∈ l, ∃ y ∈ l, d = y - x
  | [], _, d, h => by cases h
  | [_], _, d, h => by cases h
  | a :: b :: l, hp, d, h => by
    have hg : Mine.gaps (a :: b :: l) = (b - a) :: Mine.gaps (b :: l) := rfl
    rw [hg, List.mem_cons] at h
    rw [List.pairwise_cons] at hp
    rcases h with rfl | h
    · have := hp.1 b List.mem_cons_self
      exact ⟨by omega, a, by simp, b, by simp, rfl⟩
    · obtain ⟨h0, x, hx, y, hy, e⟩ := mem_gaps (b :: l) hp.2 d h
      exact ⟨h0, x, List.mem_cons_of_mem _ hx, y, List.mem_cons_of_mem _ hy, e⟩

theorem period_bound (l : List ℤ) (hl : l.Pairwise (· < ·)) (h2 : 2 ≤ l.length) (p : ℤ) (hp : Mine.computePeriod l = some p) : ∃ x ∈ l, ∃ y ∈ l, |p| ≤ y - x := by
  obtain ⟨p', e, ⟨lo, hi, h3, h4, h5⟩, -⟩ := Mine.computePeriod_optimal l h2
  rw [hp] at e
  cases e
  obtain ⟨a0, x, hx, y, hy, e1⟩ := mem_gaps l hl lo h3.1
  obtain ⟨b0, x', hx', y', hy', e2⟩ := mem_gaps l hl hi h4.1
  have hp0 : 0 ≤ p := by omega
  rw [abs_of_nonneg hp0]
  by_cases hle : lo ≤ hi
  · exact ⟨x', hx', y', hy', by omega⟩
  · exact ⟨x, hx, y, hy, by omega⟩

/-- The search of the code, with its periods. -/
theorem foldEnv_bounded (cheaper : List ℕ → List ℕ → Bool) (par : ℕ → List Char → Fold.Par) (order : List (ℤ × List Char × ℤ × List ℕ) → List (ℤ × List Char × ℤ × List ℕ)) :
    EnvBounded (Nest.foldEnv cheaper par (fun l => (Mine.computePeriod l).getD 0) order) where
  triples := by
    intro lvl key ts hs t ht
    have fin : ∀ (t : ℤ × ℤ × List ℕ), (∃ a b c x y z, t.2.2 = [a, b, c] ∧ Fold.Near (par lvl key).small (par lvl key).maxP ts a b c ∧ ts[a]? = some x ∧ ts[b]? = some y ∧ ts[c]? = some z ∧ t.2.1 = min (z - y) (y - x)) →
        ∃ x ∈ ts, ∃ y ∈ ts, |t.2.1| ≤ y - x := by
      rintro t ⟨a, b, c, x, y, z, -, hn, hx, hy, hz, e⟩
      have h1 := hn.1
      have h2 := hn.2.1
      obtain ⟨ha, rfl⟩ := List.getElem?_eq_some_iff.1 hx
      obtain ⟨hb, rfl⟩ := List.getElem?_eq_some_iff.1 hy
      obtain ⟨hc, rfl⟩ := List.getElem?_eq_some_iff.1 hz
      have g1 := List.pairwise_iff_getElem.1 hs a b ha hb h1
      have g2 := List.pairwise_iff_getElem.1 hs b c hb hc h2
      refine ⟨_, List.getElem_mem ha, _, List.getElem_mem hb, ?_⟩
      rw [e, abs_of_nonneg (by omega)]
      omega
    by_cases h : ts.length < 2000
    · obtain ⟨cs, tr, e, -, h2⟩ := Fold.fold_sound (par lvl key) (ts.length + 1502) ts hs h (by omega)
      simp only [Nest.foldEnv, e, Option.getD_some, List.mem_map] at ht
      obtain ⟨t', ht', rfl⟩ := ht
      obtain ⟨a, b, c, x, y, z, e1, hn, hx, hy, hz, -, e2, -⟩ := h2 t' ht'
      exact fin t' ⟨a, b, c, x, y, z, e1, hn, hx, hy, hz, e2⟩
    · obtain ⟨parts, e, -, h2⟩ := Fold.fold_blocks_partial (par lvl key) (ts.length + 1502) ts hs (by omega) (by omega)
      simp only [Nest.foldEnv, e, Option.getD_some, List.mem_map] at ht
      obtain ⟨t', ht', rfl⟩ := ht
      obtain ⟨part, hp, ht'⟩ := List.mem_flatMap.1 ht'
      obtain ⟨j, hj⟩ := List.mem_iff_getElem?.1 hp
      obtain ⟨a, b, c, x, y, z, e1, hn, -, hx, hy, hz, -, e2, -⟩ := (h2 j part hj).2 t' ht'
      exact fin t' ⟨a, b, c, x, y, z, e1, hn, hx, hy, hz, e2⟩
  period := by
    intro l hl h3
    obtain ⟨p, hp, -⟩ := Mine.computePeriod_optimal l (by omega)
    simp only [Nest.foldEnv, hp, Option.getD_some]
    exact period_bound l hl (by omega) p hp

/-! ### The data -/

variable {ε : Type} [LinearOrder ε]

/-- The occurrences of the data. -/
def dataSet (ds : Built ε) : Finset (ℤ × ℤ) := (List.range ds.listEv.length).toFinset.biUnion (fun a => ((getSequence ds a).map (fun t => (t, (a : ℤ)))).toFinset)

theorem mem_dataSet (ds : Built ε) (x : ℤ × ℤ) : x ∈ dataSet ds ↔ InSeqs ds x := by
  obtain ⟨t, b⟩ := x
  simp only [dataSet, Finset.mem_biUnion, List.mem_toFinset, List.mem_range, List.mem_map, Prod.mk.injEq, InSeqs]
  constructor
  · rintro ⟨a, ha, u, hu, rfl, rfl⟩
    exact ⟨a, ha, rfl, hu⟩
  · rintro ⟨a, ha, rfl, hu⟩
    exact ⟨a, ha, t, hu, rfl, rfl⟩

/-- Bounds from the data. -/
theorem exists_bounds (D : Finset (ℤ × ℤ)) : ∃ B : Bounds, B.D = D := by
  obtain ⟨M, hM⟩ := ((D ×ˢ D).image (fun x => |x.1.1 - x.2.1|)).bddAbove
  replace hM : ∀ z ∈ (D ×ˢ D).image (fun x => |x.1.1 - x.2.1|), z ≤ M := fun z hz => hM hz
  refine ⟨⟨D, max M 0, ?_, le_max_right _ _⟩, rfl⟩
  intro x hx y hy
  exact le_trans (hM _ (Finset.mem_image.2 ⟨(x, y), Finset.mem_product.2 ⟨hx, hy⟩, rfl⟩)) (le_max_left _ _)

theorem ofCyc_bounded (ds : Built ε) (hd : ∀ k, (getSequence ds k).Pairwise (· < ·)) (B : Bounds) (hB : B.D = dataSet ds) (a : ℕ) (ha : a < ds.listEv.length) (c : Mine.Cyc K) (h : Mine.Good (getSequence ds a) c) :
    BP B (ofCyc a c).cand.toCand := by
  have hs := ofCyc_simple ds a ha c h
  have hin : ∀ t ∈ c.occs, (t, (a : ℤ)) ∈ B.D := by
    intro t ht
    rw [hB, mem_dataSet]
    exact ⟨a, ha, rfl, h.1.subset ht⟩
  have hinc : c.occs.Pairwise (· < ·) := (hd a).sublist h.1
  have hne : c.occs ≠ [] := by
    intro e
    have := h.2.1
    rw [e] at this
    simp at this
  obtain ⟨x, hx, y, hy, hxy⟩ := period_bound c.occs hinc (by have := h.2.1; omega) c.p h.2.2
  refine ⟨⟨⟨hs.1.1, hs.1.2.1, ?_⟩, ?_, ?_, ?_, ?_⟩, ?_⟩
  · intro z hz
    rw [pairs_ofCyc] at hz
    obtain ⟨t, ht, rfl⟩ := List.mem_map.1 hz
    exact hin t ht
  · have hnd : (c.occs.map (fun t => (t, (a : ℤ)))).Nodup := by
      refine List.Nodup.map ?_ (hinc.imp (fun h => ne_of_lt h))
      intro t u htu
      exact (Prod.mk.inj htu).1
    have hsub : (c.occs.map (fun t => (t, (a : ℤ)))).toFinset ⊆ B.D := by
      intro z hz
      obtain ⟨t, ht, rfl⟩ := List.mem_map.1 (List.mem_toFinset.1 hz)
      exact hin t ht
    have := Finset.card_le_card hsub
    rw [List.toFinset_card_of_nodup hnd, List.length_map] at this
    exact this
  · exact le_trans hxy (le_trans (le_abs_self _) (B.dist _ (hin y hy) _ (hin x hx)))
  · obtain ⟨t, ts, e⟩ := List.exists_cons_of_ne_nil hne
    exact ⟨by simp [Bounds.pd, B.pos], ⟨(t, (a : ℤ)), hin t (by rw [e]; simp), rfl⟩, trivial⟩
  · intro i hi
    have hlen := length_repPairs hs.1.1 i hi
    have : 0 < (repPairs (ofCyc a c).cand.toCand i).toFinset.card := by
      rw [Finset.card_pos]
      have hl : 0 < (repPairs (ofCyc a c).cand.toCand i).length := by rw [hlen]; exact hs.1.1.pos
      obtain ⟨z, hz⟩ := List.exists_mem_of_length_pos hl
      exact ⟨z, List.mem_toFinset.2 hz⟩
    exact this
  · intro t0 _
    simp [ofCyc, AnyCand.toCand, innerF, leavesF, inner, leaves]

end Verif.Complex
