import Verif.Complex.ExactProps
import Verif.Complex.PriceLemmas
import Verif.Complex.JoinProps

/-!
# What the patterns of the complex miner save (C148)

Source: `/repo/skmine/periodic/run_mine.py:813-987`, `/repo/skmine/periodic/pattern_collection.py:146-154`.
-/

set_option autoImplicit false
set_option linter.unusedSectionVars false

namespace Verif.Complex

open Verif.PTree Verif.Concat Verif.PattKey Verif.CandPool Verif.DataSeq Verif.Miner Verif.Mine

variable {ε : Type} [LinearOrder ε]

/-- The cost of a collection, when every pattern has a cost and its occurrences are known. -/
theorem collection_sum (seq : List (ℤ × ε)) (enum : Finset (ℤ × ℕ) → List (ℤ × ℕ)) (henum : ∀ u, (enum u).Nodup ∧ ∀ x, x ∈ enum u ↔ x ∈ u) (d : Built ε) (hd : ofList seq = .ok d) (ps : List Patt) (cs : List ℝ) (ls : List (List (ℤ × ℕ)))
    (hc : ps.mapM (fun z => Cost.codeLength z.1 z.2.1 (some z.2.2) (Cost.detailsOf d)) = some cs) (hl : occLists ps = some ls) :
    Cost.collectionCost enum d ps = some (cs.sum + ∑ x ∈ d.seql.toFinset \ ls.flatten.toFinset, Cost.oneBits d.seql (Cost.detailsOf d) x.2) := by
  obtain ⟨d', hd', hD, -⟩ := Cost.details_ok seq
  obtain rfl : d = d' := by rw [hd] at hd'; exact Except.ok.inj hd'
  obtain ⟨U, hU⟩ : ∃ U, U = ls.foldl (fun s l => s \ l.toFinset) d.seql.toFinset := ⟨_, rfl⟩
  have hUe : U = d.seql.toFinset \ ls.flatten.toFinset := by
    ext x
    rw [hU, Cost.sdiff_fold, Finset.mem_sdiff, List.mem_toFinset, List.mem_toFinset, List.mem_flatten]
    refine and_congr_right (fun _ => ?_)
    constructor
    · rintro h ⟨l, h1, h2⟩
      exact h l h1 h2
    · intro h l h1 h2
      exact h ⟨l, h1, h2⟩
  have hcost : ∀ e ∈ Cost.nbByEv (enum U), (Cost.costOne (Cost.detailsOf d) e.1).map (fun c => (e.2 : ℝ) * c) = some ((e.2 : ℝ) * Cost.oneBits d.seql (Cost.detailsOf d) e.1) := by
    intro e he
    obtain ⟨y, hy, h⟩ := Cost.nbByEv_keys _ e he
    have hyS : y ∈ d.seql := by
      have := ((henum U).2 y).1 hy
      rw [hUe, Finset.mem_sdiff, List.mem_toFinset] at this
      exact this.1
    rw [Cost.costOne_ok hD (a := e.1) (List.count_pos_iff.2 (List.mem_map.2 ⟨y, hyS, h⟩))]
    rfl
  rw [← hUe]
  unfold Cost.collectionCost Miner.uncovered
  rw [hc, hl]
  simp only [Option.bind_eq_bind, Option.bind_some, Option.map_some, ← hU]
  rw [PTree.mapM_some_map _ _ _ hcost]
  simp only [Option.bind_some, Option.pure_def]
  rw [Cost.nbByEv_sum (Cost.oneBits d.seql (Cost.detailsOf d))]
  congr 2
  have : (enum U).toFinset = U := by ext x; rw [List.mem_toFinset]; exact (henum U).2 x
  conv_rhs => rw [← this]
  rw [List.sum_toFinset _ (henum U).1]

/-- After at most one round the candidates describe their occurrences. -/
theorem first_pool {K : Type} [Field K] [LinearOrder K] [IsStrictOrderedRing K] (ds : Built ε) (hd : Mine.DataOk ds) (W : World K) (A : ℕ → Mine.Costs K) (fuel : ℕ) (hF : turns ds ≤ fuel) (Q : ℕ → Orders) (hW : WorldOk W A fuel ds)
    (hQ : ∀ i, OrdersOk (Q i)) (n : ℕ) (hn : n ≤ 1) : ∃ s ps, mineComplex W A Q fuel n ds = some (s, ps) ∧ PoolInv W (fun c => InData (InSeqs ds) c ∧ Describes c) s.pool := by
  have hcl := first_closed W hW.envOk (InSeqs ds) hW.cost
  obtain ⟨s, i1, i2, i3, -⟩ := initPool_spec (W := W) hcl.shape A fuel ds hd.1 (fun k => le_trans (turns_ok ds k) hF) (fun a ha c hc => ofCyc_simple ds a ha c hc) hW.floor
  obtain ⟨s', r1, r2⟩ : ∃ s', rounds W Q n ⟨s, 0, none, none⟩ = some s' ∧ PoolInv W (fun c => InData (InSeqs ds) c ∧ Describes c) s'.pool := by
    have h0 : PoolInv W (fun c => InData (InSeqs ds) c ∧ Describes c) s := i2.imp (fun c hc => ⟨hc.1, hc.2.1⟩)
    rcases Nat.le_one_iff_eq_zero_or_eq_one.1 hn with rfl | rfl
    · exact ⟨_, rfl, h0⟩
    · by_cases hnew : s.newCids = []
      · exact ⟨⟨s, 0, none, none⟩, by rw [rounds, if_pos hnew], h0⟩
      · obtain ⟨s', -, r1, r2, -⟩ := round_spec hcl (P' := fun c => InData (InSeqs ds) c ∧ Describes c) (fun c hc => ⟨hc.1, hc.2.1⟩) (fun c hc => hc) (fun c hc => hc) (fun c hc => hc.1.1) hW.envOk (Q 0) (hQ 0)
          ⟨s, 0, none, none⟩ i2 (i3 hnew)
        exact ⟨s', by rw [rounds, if_neg hnew, r1]; rfl, r2⟩
  obtain ⟨sel, ps, c1, -⟩ := choose_spec hW.cost s'.pool (r2.imp (fun c hc => hc.1))
  refine ⟨s', ps, ?_, r2⟩
  unfold mineComplex
  rw [i1, Option.bind_some, r1, Option.bind_some, c1]
  rfl

theorem toPatt_ofCyc (a : ℕ) (c : Cyc ℝ) : toPatt (ofCyc a c).cand = simplePatt a c.occs c.p := by
  simp only [toPatt, ofCyc, AnyCand.toCand, simplePatt, Cand.tree, mapT, mapF, Int.toNat_natCast]

/-- A candidate of the complex miner with the costs of the code: its pattern costs as much as recorded, or at most one bit more for three uneven occurrences. -/
theorem cand_cost (ds : Built ε) (hd : Mine.DataOk ds) (hD : Cost.IsDetails ds.seql (details ds)) (u : ℝ) (maxP : Option ℤ) (tup : AnyCand → Cost.Alpha ℕ) (first : List (PC ℝ) → ℕ → List Char → ℕ) (fuel : ℕ) (hF : turns ds ≤ fuel) (c : PC ℝ)
    (hc : (∃ a < ds.listEv.length, ∃ out, mineAlpha (exactCosts u maxP (details ds) a) fuel a (getSequence ds a) = some out ∧ ∃ x ∈ out, c = ofCyc a x) ∨ ∃ d, c = (exactWorld u (details ds) tup first).mk' d) (q : Patt)
    (hq : toPatt c.cand = some q) (cov : List (ℤ × ℕ)) (hcov : getCovSeq q.1 q.2.1 q.2.2 = some cov) (v : ℝ) (hv : Cost.codeLength q.1 q.2.1 (some q.2.2) (details ds) = some v) :
    v ≤ c.cost + if uneven cov then 1 else 0 := by
  rcases hc with ⟨a, ha, out, hout, x, hx, rfl⟩ | ⟨d, rfl⟩
  · have hlen := (turns_ok ds a).trans hF
    obtain ⟨cycles, out', k1, k2, k3, k4, -⟩ := mineAlpha_sound (exactCosts u maxP (details ds) a) fuel a (getSequence ds a) (hd.1 a) hlen
    rw [hout] at k2
    obtain rfl := Option.some.inj k2
    obtain ⟨cycles', p1, p2⟩ := merged_priced (exactCosts u maxP (details ds) a) fuel (getSequence ds a) (hd.1 a) hlen
    rw [k1] at p1
    obtain rfl := Option.some.inj p1
    rw [toPatt_ofCyc] at hq
    have hg := k4 x (k3 x hx)
    obtain ⟨-, w, hw, hle⟩ := cyc_cost ds.seql (details ds) hD u maxP a (getSequence ds a) (hd.1 a) (hd.2.1 a) x hg (p2 x (k3 x hx)) q hq
    rw [hv] at hw
    obtain rfl := Option.some.inj hw
    obtain ⟨q', hq', hcov'⟩ := simple_covers a x.occs (by intro e; have := hg.2.1; rw [e] at this; simp at this) x.p
    rw [hq] at hq'
    obtain rfl := Option.some.inj hq'
    rw [hcov] at hcov'
    obtain rfl := Option.some.inj hcov'
    exact hle
  · have : v = ((exactWorld u (details ds) tup first).mk' d).cost := by
      simp only [toPatt, World.mk', AnyCand.toCand, Option.map_eq_some_iff] at hq
      obtain ⟨t0, h0, rfl⟩ := hq
      simp only [World.mk', exactWorld, exactPatt, h0, Option.bind_some]
      simp only at hv
      rw [hv, Option.getD_some]
    rw [this]
    split <;> simp

theorem dcosts_lookup (D : Cost.Details ℕ) (u : ℝ) (a : ℕ) : ∀ nb : List (ℕ × ℕ), a ∈ nb.map Prod.fst → (nb.map (fun e => ((e.1 : ℤ), (Cost.costOne D e.1).getD u))).lookup (a : ℤ) = some ((Cost.costOne D a).getD u)
  | [], h => by simp at h
  | e :: nb, h => by
    rw [List.map_cons, List.lookup_cons]
    by_cases he : a = e.1
    · simp [he]
    · have : ((a : ℤ) == (e.1 : ℤ)) = false := by simpa using he
      rw [this]
      exact dcosts_lookup D u a nb (by simpa [he] using h)

theorem covered_mem {K ω : Type} [DecidableEq ω] (C : Select.Cands K ω) (x : ω) : ∀ sel : List ℕ, x ∈ Select.covered C sel ↔ ∃ i ∈ sel, x ∈ C.occs i
  | [] => by simp [Select.covered]
  | c :: cs => by simp [Select.covered, covered_mem C x cs]

/-- C148. With the costs of the code (exact real numbers), for at most one round of combinations: if the cost of the patterns returned is defined, then they and what they leave over cost at most as much as the data without patterns, up to one bit for each pattern of three occurrences at distances that differ by more than one; less, if there is a pattern. -/
theorem complex_compress_bits (auto : Bool) (rows : List (ℤ × ε)) (h : rows.Pairwise (fun a b => a.1 ≤ b.1)) :
    ∃ m, fitData auto rows = .ok m ∧ ∃ F, ∀ fuel, F ≤ fuel → ∀ (u : ℝ) (maxP : Option ℤ) (tup : AnyCand → Cost.Alpha ℕ) (first : List (PC ℝ) → ℕ → List Char → ℕ) (Q : ℕ → Orders), (∀ i, OrdersOk (Q i)) →
      ∀ n ≤ 1, ∃ s ps ls only, mineComplex (exactWorld u (details m.data) tup first) (exactCosts u maxP (details m.data)) Q fuel n m.data = some (s, ps) ∧ occLists ps = some ls ∧ Cost.residualsOnly m.data = some only ∧
      ∀ enum, Enumerates enum → ∀ total, Cost.collectionCost enum m.data ps = some total →
        total ≤ only + (ls.countP uneven : ℕ) ∧ (ps ≠ [] → total < only + (ls.countP uneven : ℕ)) := by
  obtain ⟨m, hm, hd⟩ := fitData_dataOk auto rows h
  obtain ⟨m', hm', hnd, -⟩ := fitData_ok auto rows
  rw [hm] at hm'
  obtain rfl : m = m' := by injection hm'
  obtain ⟨seq, hseq⟩ := fitData_ofList auto rows m hm
  obtain ⟨d', hd', hD, -⟩ := Cost.details_ok seq
  rw [hseq] at hd'
  obtain rfl : m.data = d' := Except.ok.inj hd'
  refine ⟨m, hm, turns m.data, ?_⟩
  intro fuel hF u maxP tup first Q hQ n hn
  have hW := exact_worldOk u maxP auto rows h m hm tup first fuel hF
  obtain ⟨s, ps, hmine, hinv⟩ := first_pool m.data hd _ _ fuel hF Q hW hQ n hn
  obtain ⟨-, hch, hrated⟩ := mineComplex_rated hmine
  obtain ⟨W, hWdef⟩ : ∃ W, W = exactWorld u (details m.data) tup first := ⟨_, rfl⟩
  rw [← hWdef] at hW hmine hinv hch hrated
  unfold choose at hch
  rw [Option.bind_eq_some_iff] at hch
  obtain ⟨sel, hsel, hps⟩ := hch
  have hlook : ∀ i ∈ s.pool.candidates.map Prod.fst, ∃ c, s.pool.candidates.lookup i = some c ∧ (i, c) ∈ s.pool.candidates := by
    intro i hi
    obtain ⟨⟨i, c⟩, hc, rfl⟩ := List.mem_map.1 hi
    exact ⟨c, hinv.lookup hc, hc⟩
  have hids : (s.pool.candidates.map Prod.fst).Nodup := by rw [hinv.inv.ids]; exact List.nodup_range
  have hcost : ∀ c ∈ s.pool.candidates.map Prod.fst, ∀ o ∈ (candsOf s.pool.candidates).occs c, (W.dcosts.lookup (Prod.snd o)).isSome := by
    intro i hi o ho
    obtain ⟨c, hc, hmem⟩ := hlook i hi
    simp only [candsOf, hc, Option.map_some, Option.getD_some, List.mem_toFinset, evOccs_pairs] at ho
    exact hW.cost _ ((hinv.cands _ hmem).1.2.2 o ho)
  obtain ⟨v1, v2⟩ := Select.selection_saves (candsOf s.pool.candidates) W.dcosts Prod.snd 3 _ hids hcost sel hsel
  obtain ⟨sel', f1, -, f3, -⟩ := Select.selection_efficient (candsOf s.pool.candidates) W.dcosts Prod.snd 3 _ hids hcost
  rw [hsel] at f1
  obtain rfl := Option.some.inj f1
  have hone : ∀ a < m.data.listEv.length, ∀ t, (t, a) ∈ m.data.seql → Select.single W.dcosts Prod.snd ((t, (a : ℤ)) : ℤ × ℤ) = Cost.oneBits m.data.seql (details m.data) a := by
    intro a ha t ht
    unfold Select.single
    have : W.dcosts.lookup (a : ℤ) = some ((Cost.costOne (details m.data) a).getD u) := by rw [hWdef]; exact dcosts_lookup (details m.data) u a m.data.evNbOccs (hd.2.2 a ha)
    simp only
    have h1 : Cost.costOne (details m.data) a = some (Cost.oneBits m.data.seql (details m.data) a) := Cost.costOne_ok hD (List.count_pos_iff.2 (List.mem_map.2 ⟨_, ht, rfl⟩))
    rw [this, Option.getD_some, h1, Option.getD_some]
  obtain ⟨cov, hcovdef⟩ : ∃ cov : ℕ → List (ℤ × ℕ), ∀ i, cov i = ((s.pool.candidates.lookup i).map (fun c => (pairs c.cand.toCand).map (fun x => (x.1, x.2.toNat)))).getD [] := ⟨_, fun _ => rfl⟩
  -- the patterns one by one
  have hsum : ∀ (is : List ℕ) (zs : List Patt), is.map (fun i => (s.pool.candidates.lookup i).bind (fun c => toPatt c.cand)) = zs.map some → (∀ i ∈ is, i ∈ sel) →
      occLists zs = some (is.map cov) ∧ ∀ cl, zs.mapM (fun z => Cost.codeLength z.1 z.2.1 (some z.2.2) (Cost.detailsOf m.data)) = some cl →
        cl.sum ≤ (is.map (candsOf s.pool.candidates).cost).sum + ((is.map cov).countP uneven : ℕ) := by
    intro is
    induction is with
    | nil =>
      intro zs hz _
      have : zs = [] := by simpa using hz.symm
      subst this
      refine ⟨rfl, fun cl hcl => ?_⟩
      cases hcl
      simp
    | cons i is ih =>
      intro zs hz hi
      cases zs with
      | nil => simp at hz
      | cons z zs =>
        simp only [List.map_cons, List.cons.injEq] at hz
        obtain ⟨o1, o2⟩ := ih zs hz.2 (fun x hx => hi x (List.mem_cons_of_mem _ hx))
        obtain ⟨c, hc, hmem⟩ := hlook i (f3 i (hi i List.mem_cons_self))
        have hq := hz.1
        rw [hc, Option.bind_some] at hq
        have hdesc := (hinv.cands _ hmem).2
        have hcz := toPatt_cov hdesc hq
        have hci : cov i = (pairs c.cand.toCand).map (fun x => (x.1, x.2.toNat)) := by rw [hcovdef, hc]; rfl
        rw [← hci] at hcz
        refine ⟨?_, ?_⟩
        · have o1' : zs.mapM (fun q : Patt => getCovSeq q.1 q.2.1 q.2.2) = some (is.map cov) := o1
          change (z :: zs).mapM (fun q : Patt => getCovSeq q.1 q.2.1 q.2.2) = _
          rw [List.mapM_cons, hcz, o1']
          rfl
        · intro cl hcl
          rw [List.mapM_cons] at hcl
          simp only [Option.bind_eq_bind, Option.bind_eq_some_iff, Option.pure_def, Option.some.injEq] at hcl
          obtain ⟨v, hv, cl', hcl', rfl⟩ := hcl
          have h1 := o2 cl' hcl'
          have h2 := cand_cost m.data hd hD u maxP tup first fuel hF c (by have := hrated _ hmem; rw [hWdef] at this; exact this) z hq (cov i) hcz v hv
          have hcost' : (candsOf s.pool.candidates).cost i = c.cost := by simp only [candsOf, hc, Option.map_some, Option.getD_some]
          simp only [List.map_cons, List.sum_cons, List.countP_cons, hcost']
          push_cast
          split at h2
          · rename_i hb; rw [if_pos hb]; push_cast; linarith
          · rename_i hb; rw [if_neg hb]; push_cast; linarith
  obtain ⟨hocc, hcl⟩ := hsum sel ps ((mapM_iff _ sel ps).1 hps) (fun _ h => h)
  have hO := Cost.residuals_only seq m.data hseq
  refine ⟨s, ps, sel.map cov, _, by rw [← hWdef]; exact hmine, hocc, hO, ?_⟩
  intro enum he total htot
  obtain ⟨cl, hcl'⟩ : ∃ cl, ps.mapM (fun z => Cost.codeLength z.1 z.2.1 (some z.2.2) (Cost.detailsOf m.data)) = some cl := by
    unfold Cost.collectionCost at htot
    simp only [Option.bind_eq_bind] at htot
    rw [Option.bind_eq_some_iff] at htot
    obtain ⟨cl, h1, -⟩ := htot
    exact ⟨cl, h1⟩
  have hS := hcl cl hcl'
  rw [collection_sum seq enum he m.data hseq ps cl _ hcl' hocc, Option.some.injEq] at htot
  -- the occurrences
  obtain ⟨V, hV⟩ : ∃ V, V = (sel.map cov).flatten.toFinset := ⟨_, rfl⟩
  rw [← hV] at htot
  have hcovd : ∀ x ∈ Select.covered (candsOf s.pool.candidates) sel, InSeqs m.data x := by
    intro x hx
    obtain ⟨i, hi, hx⟩ := (covered_mem _ x sel).1 hx
    obtain ⟨c, hc, hmem⟩ := hlook i (f3 i hi)
    simp only [candsOf, hc, Option.map_some, Option.getD_some, List.mem_toFinset, evOccs_pairs] at hx
    exact (hinv.cands _ hmem).1.2.2 x hx
  have himg : V = (Select.covered (candsOf s.pool.candidates) sel).image (fun x => (x.1, x.2.toNat)) := by
    ext y
    rw [hV, List.mem_toFinset, List.mem_flatten, Finset.mem_image]
    constructor
    · rintro ⟨l, hl, hy⟩
      obtain ⟨i, hi, rfl⟩ := List.mem_map.1 hl
      obtain ⟨c, hc, hmem⟩ := hlook i (f3 i hi)
      rw [hcovdef, hc, Option.map_some, Option.getD_some] at hy
      obtain ⟨x, hx, rfl⟩ := List.mem_map.1 hy
      refine ⟨x, (covered_mem _ x sel).2 ⟨i, hi, ?_⟩, rfl⟩
      simp only [candsOf, hc, Option.map_some, Option.getD_some, List.mem_toFinset, evOccs_pairs]
      exact hx
    · rintro ⟨x, hx, rfl⟩
      obtain ⟨i, hi, hx⟩ := (covered_mem _ x sel).1 hx
      obtain ⟨c, hc, hmem⟩ := hlook i (f3 i hi)
      simp only [candsOf, hc, Option.map_some, Option.getD_some, List.mem_toFinset, evOccs_pairs] at hx
      refine ⟨cov i, List.mem_map.2 ⟨i, hi, rfl⟩, ?_⟩
      rw [hcovdef, hc, Option.map_some, Option.getD_some]
      exact List.mem_map.2 ⟨x, hx, rfl⟩
  have hVsum : ∑ o ∈ Select.covered (candsOf s.pool.candidates) sel, Select.single W.dcosts Prod.snd o = ∑ x ∈ V, Cost.oneBits m.data.seql (details m.data) x.2 := by
    rw [himg, Finset.sum_image]
    · refine Finset.sum_congr rfl ?_
      intro x hx
      obtain ⟨a, ha, e, ht⟩ := hcovd x hx
      obtain ⟨t, b⟩ := x
      simp only at e ht
      subst e
      rw [hone a ha t (hd.2.1 a t ht)]
      simp
    · intro x hx y hy hxy
      obtain ⟨a, -, e, -⟩ := hcovd x hx
      obtain ⟨b, -, e', -⟩ := hcovd y hy
      obtain ⟨t, x2⟩ := x
      obtain ⟨t', y2⟩ := y
      simp only [Prod.mk.injEq] at e e' hxy ⊢
      omega
  have hVsub : V ⊆ m.data.seql.toFinset := by
    intro y hy
    rw [himg, Finset.mem_image] at hy
    obtain ⟨x, hx, rfl⟩ := hy
    obtain ⟨a, ha, e, ht⟩ := hcovd x hx
    rw [List.mem_toFinset, e, Int.toNat_natCast]
    exact hd.2.1 a _ ht
  have hall : (m.data.seql.map (fun x => Cost.oneBits m.data.seql (Cost.detailsOf m.data) x.2)).sum =
      ∑ x ∈ m.data.seql.toFinset \ V, Cost.oneBits m.data.seql (Cost.detailsOf m.data) x.2 + ∑ x ∈ V, Cost.oneBits m.data.seql (Cost.detailsOf m.data) x.2 := by
    rw [← List.sum_toFinset _ hnd]
    exact (Finset.sum_sdiff hVsub).symm
  have hVsum' : ∑ o ∈ Select.covered (candsOf s.pool.candidates) sel, Select.single W.dcosts Prod.snd o = ∑ x ∈ V, Cost.oneBits m.data.seql (Cost.detailsOf m.data) x.2 := hVsum
  rw [hVsum'] at v1 v2
  rw [hall, ← htot]
  constructor
  · linarith
  · intro hne
    have : sel ≠ [] := by
      rintro rfl
      exact hne (by simpa using hps.symm)
    have := v2 this
    linarith

/-- C148 without uneven patterns: the patterns and what they leave over never cost more than the data without patterns, and cost less if there is a pattern. The cost is defined if every pattern is proper and has its occurrences in the data, none twice.
The full statement has neither the condition on the distances (see `complex_compression_fails`), nor the bound on the number of rounds, after which patterns need no longer generate their occurrences (`fit_complex_wrong`). -/
theorem complex_compress_partial (auto : Bool) (rows : List (ℤ × ε)) (h : rows.Pairwise (fun a b => a.1 ≤ b.1)) :
    ∃ m, fitData auto rows = .ok m ∧ ∃ F, ∀ fuel, F ≤ fuel → ∀ (u : ℝ) (maxP : Option ℤ) (tup : AnyCand → Cost.Alpha ℕ) (first : List (PC ℝ) → ℕ → List Char → ℕ) (Q : ℕ → Orders), (∀ i, OrdersOk (Q i)) →
      ∀ n ≤ 1, ∃ s ps ls only, mineComplex (exactWorld u (details m.data) tup first) (exactCosts u maxP (details m.data)) Q fuel n m.data = some (s, ps) ∧ occLists ps = some ls ∧ Cost.residualsOnly m.data = some only ∧
      ∀ enum, Enumerates enum → ((∀ q ∈ ps, Cost.Fitted m.data.seql q) → ∃ total, Cost.collectionCost enum m.data ps = some total) ∧
        ((∀ l ∈ ls, ¬ uneven l) → ∀ total, Cost.collectionCost enum m.data ps = some total → total ≤ only ∧ (ps ≠ [] → total < only)) := by
  obtain ⟨m, hm, F, hF⟩ := complex_compress_bits auto rows h
  refine ⟨m, hm, F, ?_⟩
  intro fuel hf u maxP tup first Q hQ n hn
  obtain ⟨s, ps, ls, only, h1, h2, h3, h4⟩ := hF fuel hf u maxP tup first Q hQ n hn
  refine ⟨s, ps, ls, only, h1, h2, h3, fun enum he => ⟨?_, ?_⟩⟩
  · intro hfit
    obtain ⟨seq, hseq⟩ := fitData_ofList auto rows m hm
    obtain ⟨_, _, -, -, hT⟩ := Cost.collection_cost seq enum he m.data hseq ps hfit
    exact ⟨_, hT⟩
  · intro hu total ht
    obtain ⟨t3, t4⟩ := h4 enum he total ht
    have : ls.countP uneven = 0 := by rw [List.countP_eq_zero]; exact hu
    rw [this, Nat.cast_zero, add_zero] at t3 t4
    exact ⟨t3, t4⟩

/-! ### A single cycle -/

section Alone

variable {K : Type} [Field K] [LinearOrder K] [IsStrictOrderedRing K]

theorem vertical_alone {W : World K} {Q : Orders} {s : CPool K} {nkey : NKey} (hI : Inv (ops W) s) (h1 : s.candidates.length ≤ 2) : vertical W Q s nkey = some [] := by
  have hk : ∀ mk, (cidsForMinorK s mk).length ≤ 2 := by
    intro mk
    unfold cidsForMinorK
    rw [List.length_map]
    refine (List.length_filter_le _ _).trans ?_
    rw [hI.keys, List.length_map]
    exact h1
  have hf : (Q.keys ((s.newMinor.filter (fun e => e.1 = nkey)).map Prod.snd)).filter (fun mk => decide (3 ≤ (CandPool.cidsForMinorK s mk).length)) = [] := by
    rw [List.filter_eq_nil_iff]
    intro mk _ h
    have := hk mk
    have := of_decide_eq_true h
    omega
  unfold vertical
  rw [hf]
  have : topK ([] : List (PC K)) = [] := List.eq_nil_iff_forall_not_mem.2 (fun c hc => by simpa using topK_mem [] c hc)
  simp [this]

theorem horizontal_alone {W : World K} {P H V : Cand ℤ → Prop} (hC : Closed W P H V) (Q : Orders) (hQ : OrdersOk Q) (s : CPool K) (h : PoolInv W P s) (hs : s.props.isSome) (nkey : NKey) (i : ℕ) (c : PC K) (h1 : s.candidates = [(i, c)]) (hc : 0 ≤ c.cost) :
    horizontal W Q s nkey = some [] := by
  obtain ⟨out, ho, -⟩ := horizontal_spec hC Q hQ s h hs nkey
  have hj := horizontal_pays hC Q hQ s h (by rw [h1]; simpa using hc) nkey out ho
  rw [ho]
  congr 1
  refine List.eq_nil_iff_forall_not_mem.2 (fun x hx => ?_)
  obtain ⟨parts, hm, h2, -⟩ := hj x hx
  match parts, hm, h2 with
  | a :: b :: l, hm, _ =>
    have ha := hm.mem a (by simp)
    have hb := hm.mem b (by simp)
    rw [h1] at ha hb
    simp only [List.map_cons, List.map_nil, List.mem_singleton] at ha hb
    have hd := (List.pairwise_cons.1 hm.disj).1 b (by simp)
    rw [ha, hb] at hd
    have hp := pairs_ne (hC.shape _ (h.cands (i, c) (by rw [h1]; exact List.mem_singleton_self _)))
    obtain ⟨y, hy⟩ := List.exists_mem_of_length_pos hp
    exact hd y hy hy
  | [], _, h2 => simp at h2
  | [a], _, h2 => simp at h2

theorem rounds_alone {W : World K} {P H V : Cand ℤ → Prop} (hC : Closed W P H V) (Q : ℕ → Orders) (hQ : ∀ i, OrdersOk (Q i)) (s : CPool K) (h : PoolInv W P s) (hs : s.newCids ≠ [] → s.props.isSome) (i : ℕ) (c : PC K) (h1 : s.candidates = [(i, c)]) (hc : 0 ≤ c.cost) :
    ∀ n, ∃ s', rounds W Q n ⟨s, 0, none, none⟩ = some s' ∧ s'.pool.candidates = [(i, c)]
  | 0 => ⟨_, rfl, h1⟩
  | n + 1 => by
    rw [rounds]
    split
    · exact ⟨_, rfl, h1⟩
    · rename_i hne
      obtain ⟨p, ad, a1, a2, a3, a4, -, a6, -⟩ := addCands_inv hC.shape (resetNew s) h.reset [] (some (true, 0 + 1)) false (by simp) (by simp) (by simp)
      obtain ⟨p', ad', b1, b2, b3, b4, -, b6, -⟩ := addCands_inv hC.shape p a2 [] (some (false, 0 + 1)) false (by simp) (by simp) (by simp)
      have had : ad = [] := by simpa using a4
      have had' : ad' = [] := by simpa using b4
      subst had had'
      have hr : round W (Q 0) ⟨s, 0, none, none⟩ = some ⟨p', 1, some (true, 1), some (false, 1)⟩ := by
        unfold round
        rw [vertical_alone h.inv (by rw [h1]; simp), horizontal_alone hC (Q 0) (hQ 0) s h (hs hne) _ i c h1 hc]
        simp only [a1, b1]
      rw [hr, Option.bind_some]
      have hnew : p'.newCids = [] := by rw [b6, a6]; simp [resetNew]
      refine ⟨⟨p', 1, some (true, 1), some (false, 1)⟩, ?_, by simp [b3, a3, resetNew, h1]⟩
      cases n with
      | zero => rfl
      | succ n => rw [rounds, if_pos hnew]

end Alone

theorem complex_off (u : ℝ) (tup : AnyCand → Cost.Alpha ℕ) (first : List (PC ℝ) → ℕ → List Char → ℕ) (Q : ℕ → Orders) (hQ : ∀ i, OrdersOk (Q i)) (n : ℕ) (ds : Built ε) (hd : Mine.DataOk ds) (hev : ds.listEv.length = 1)
    (hseq : ds.seqd = [(0, [0, 48, 100])]) (h3 : Three (details ds) 50) (hW : WorldOk (exactWorld u (details ds) tup first) (exactCosts u none (details ds)) 20 ds) :
    ∃ s, mineComplex (exactWorld u (details ds) tup first) (exactCosts u none (details ds)) Q 20 n ds = some (s, [(.node 3 50 (.cons 0 (.leaf 0) .nil), 0, [-2, 2])]) := by
  have g0 : getSequence ds 0 = [0, 48, 100] := by unfold getSequence; rw [hseq]; rfl
  have ht : turns ds ≤ 20 := by unfold turns; rw [hseq]; decide
  obtain ⟨hone, hsm, x, hx, b1, ha⟩ := alpha_off u ds g0 h3
  have hx0 : 0 ≤ x := by
    have e1 : 0 ≤ Real.logb 2 3 := Real.logb_nonneg (by norm_num) (by norm_num)
    have e2 : 0 ≤ Real.logb 2 48 := Real.logb_nonneg (by norm_num) (by norm_num)
    rw [hx]; linarith
  have hcl := inData_closed _ hW.envOk (InSeqs ds) hW.cost
  obtain ⟨s, i1, i2, i3, -, i5⟩ := initPool_spec (W := exactWorld u (details ds) tup first) hcl.shape (exactCosts u none (details ds)) 20 ds hd.1 (fun k => le_trans (turns_ok ds k) ht) (fun a ha c hc => (ofCyc_simple ds a ha c hc).1) hW.floor
  obtain ⟨-, hfrom⟩ := initPool_from i1
  have hall : ∀ e ∈ s.candidates, e.2 = ofCyc 0 ⟨[0, 48, 100], 50, x⟩ := by
    intro e he
    obtain ⟨a, hal, out, hout, c, hc, hec⟩ := hfrom e he
    have : a = 0 := by omega
    subst this
    rw [ha] at hout
    obtain rfl := Option.some.inj hout
    rw [List.mem_singleton] at hc
    rw [hec, hc]
  have hcands : s.candidates = [(0, ofCyc 0 ⟨[0, 48, 100], 50, x⟩)] := by
    have hmem := i5 0 (by omega) ⟨[0, 48, 100], 50, x⟩ _ ha (by simp)
    have hid := i2.inv.ids
    match hs : s.candidates with
    | [] => rw [hs] at hmem; simp at hmem
    | [e] =>
      rw [hs] at hid hall
      have h1 : e.1 = 0 := by
        have hl := congrArg List.length hid
        simp only [List.length_map, List.length_cons, List.length_nil, List.length_range] at hl
        rw [← hl] at hid
        simpa using hid
      rw [← hall e (by simp), ← h1]
    | e :: e' :: l =>
      exfalso
      have hk := i2.inv.nodup
      rw [hs] at hk
      rw [hs] at hall
      simp only [List.map_cons, hall e (by simp), hall e' (by simp), List.nodup_cons] at hk
      exact hk.1 (by simp)
  obtain ⟨s', r1, r2⟩ := rounds_alone hcl Q hQ s i2 i3 0 _ hcands hx0 n
  refine ⟨s', ?_⟩
  unfold mineComplex
  rw [i1, Option.bind_some, r1, Option.bind_some]
  have hocc : (candsOf s'.pool.candidates).occs 0 = (([0, 48, 100] : List ℤ).map (fun t => (t, (0 : ℤ)))).toFinset := by rw [r2]; rfl
  have hcost : (candsOf s'.pool.candidates).cost 0 = x := by rw [r2]; rfl
  have hids : s'.pool.candidates.map Prod.fst = [0] := by rw [r2]; rfl
  have hdc : (exactWorld u (details ds) tup first).dcosts = [((0 : ℤ), Real.logb 2 101)] := by
    have hnb : (details ds).nb = [(0, 3)] := h3.nb
    simp [exactWorld, hnb, hone]
  have hlook : ∀ c ∈ s'.pool.candidates.map Prod.fst, ∀ o ∈ (candsOf s'.pool.candidates).occs c, (([((0 : ℤ), Real.logb 2 101)] : List (ℤ × ℝ)).lookup (Prod.snd o)).isSome := by
    intro c hc o ho
    rw [hids, List.mem_singleton] at hc
    subst hc
    rw [hocc, List.mem_toFinset] at ho
    obtain ⟨t, -, rfl⟩ := List.mem_map.1 ho
    rfl
  have hnd : (s'.pool.candidates.map Prod.fst).Nodup := by rw [hids]; simp
  obtain ⟨sel, f1, f2, f3, -⟩ := Select.selection_efficient (candsOf s'.pool.candidates) [((0 : ℤ), Real.logb 2 101)] (Prod.snd : ℤ × ℤ → ℤ) 3 (s'.pool.candidates.map Prod.fst) hnd hlook
  have hcard : ((([0, 48, 100] : List ℤ).map (fun t => (t, (0 : ℤ)))).toFinset).card = 3 := by decide
  have h0 : 0 ∈ sel := by
    by_contra hn
    have hsel : sel = [] := by
      refine List.eq_nil_iff_forall_not_mem.2 (fun i hi => ?_)
      have := f3 i hi
      rw [hids, List.mem_singleton] at this
      exact hn (this ▸ hi)
    have hu := Select.selection_complete (candsOf s'.pool.candidates) [((0 : ℤ), Real.logb 2 101)] (Prod.snd : ℤ × ℤ → ℤ) 3 (s'.pool.candidates.map Prod.fst) hnd hlook (by
      intro y hy
      simp only [List.map_cons, List.map_nil, List.mem_singleton] at hy
      rw [hy]; linarith) sel f1 0 (by rw [hids]; simp) hn (Real.logb 2 101) (by simp) (by
      intro y hy
      simp only [List.map_cons, List.map_nil, List.mem_singleton] at hy
      rw [hy])
    unfold Select.Useless at hu
    rw [hsel, hocc, hcost] at hu
    have hcov : Select.covered (candsOf s'.pool.candidates) [] = ∅ := by unfold Select.covered; simp
    rw [hcov, Finset.sdiff_empty, hcard] at hu
    rcases hu with hu | hu | hu
    · omega
    · omega
    · push_cast at hu
      linarith
  have hsel : sel = [0] := by
    cases sel with
    | nil => simp at h0
    | cons i l =>
      have hi := f3 i (by simp)
      rw [hids, List.mem_singleton] at hi
      subst hi
      cases l with
      | nil => rfl
      | cons j l =>
        have hj := f3 j (by simp)
        rw [hids, List.mem_singleton] at hj
        subst hj
        simp at f2
  have hch : choose (exactWorld u (details ds) tup first) s'.pool = some [(.node 3 50 (.cons 0 (.leaf 0) .nil), 0, [-2, 2])] := by
    unfold choose
    rw [hdc, f1, Option.bind_some, hsel, r2]
    simp only [List.mapM_cons, List.mapM_nil, List.lookup, beq_self_eq_true, Option.bind_some, toPatt_ofCyc]
    rfl
  rw [hch]
  rfl

/-- The condition on uneven patterns is needed: for the occurrences 0, 48, 100 of one event, the miner returns the pattern of the three, whatever the number of rounds, which costs more than the occurrences one by one. -/
theorem complex_compression_fails (u : ℝ) (tup : AnyCand → Cost.Alpha ℕ) (first : List (PC ℝ) → ℕ → List Char → ℕ) (Q : ℕ → Orders) (hQ : ∀ i, OrdersOk (Q i)) (n : ℕ) (enum : Finset (ℤ × ℕ) → List (ℤ × ℕ)) (he : Enumerates enum) :
    ∃ (m : Fitted ℕ) (s : RState ℝ) (ps : List Patt) (total only : ℝ), fitData false [(0, 7), (48, 7), (100, 7)] = .ok m ∧
      mineComplex (exactWorld u (details m.data) tup first) (exactCosts u none (details m.data)) Q 20 n m.data = some (s, ps) ∧
      occLists ps = some [[(0, 0), (48, 0), (100, 0)]] ∧ Cost.collectionCost enum m.data ps = some total ∧ Cost.residualsOnly m.data = some only ∧ only < total := by
  obtain ⟨m, hm, hd⟩ := fitData_dataOk false ([(0, 7), (48, 7), (100, 7)] : List (ℤ × ℕ)) (by decide)
  have hdat : m.data.listEv.length = 1 ∧ m.data.seqd = [(0, [0, 48, 100])] ∧ m.data.evNbOccs = [(0, 3)] ∧ m.data.tStart = 0 ∧ m.data.tEnd = 100 ∧ m.data.seql = [(0, 0), (48, 0), (100, 0)] := by
    cases hm
    exact ⟨rfl, rfl, rfl, rfl, rfl, rfl⟩
  obtain ⟨d1, d2, d3, d4, d5, d6⟩ := hdat
  have h3 : Three (details m.data) 50 := ⟨d3, by unfold Cost.Details.deltaT details; rw [d4, d5]; norm_num, by norm_num⟩
  have hW := exact_worldOk u none false _ (by decide) m hm tup first 20 (by unfold turns; rw [d2]; decide)
  obtain ⟨s, hs⟩ := complex_off u tup first Q hQ n m.data hd d1 d2 h3 hW
  have hcov : occLists [((.node 3 50 (.cons 0 (.leaf 0) .nil), 0, [-2, 2]) : Patt)] = some [[(0, 0), (48, 0), (100, 0)]] := by decide
  obtain ⟨total, only, c1, c2, c3⟩ := off_total enum he m.data d2 d6 h3
  exact ⟨m, s, _, total, only, hm, hs, hcov, c1, c2, c3⟩

/-- A series meeting the hypotheses of `complex_compress_bits` and `complex_compress_partial`: in order, with orders of work that are allowed; patterns of the series that meet the further conditions of the latter. -/
example : exRows.Pairwise (fun a b => a.1 ≤ b.1) ∧ OrdersOk exQ ∧ uneven [(0, 0), (48, 0), (97, 0)] = false := ⟨by decide, exQ_ok, by decide⟩

end Verif.Complex
