import Verif.Complex.Size
import Verif.Complex.Init
import Verif.Complex.InData
import Mathlib.Data.Finset.Lattice.Fold

/-!
# The miner of complex patterns (C78, C79, C80)

Source: `/repo/skmine/periodic/run_mine.py`, `/repo/skmine/periodic/cycles.py`.
-/

set_option autoImplicit false
set_option linter.unusedSectionVars false

namespace Verif.Complex

open Verif.PTree Verif.Concat Verif.PattKey Verif.CandPool Verif.DataSeq Verif.Miner

/-- What is asked of the costs and orders left open: chains and triples are those of the search of the code (with any costs and any order of equal keys) and periods are the medians of the code; every simple cycle found costs at least as
much as an occurrence; every event of the data has a cost. -/
structure WorldOk {K : Type} [Field K] [LinearOrder K] {ε : Type} [LinearOrder ε] (W : World K) (A : ℕ → Mine.Costs K) (fuel : ℕ) (ds : Built ε) : Prop where
  env : ∀ l, ∃ cheaper par order, (∀ x : List (ℤ × List Char × ℤ × List ℕ), (order x).Perm x) ∧ W.env l = Nest.foldEnv cheaper par (fun l => (Mine.computePeriod l).getD 0) order
  floor : ∀ a < ds.listEv.length, ∀ out, Mine.mineAlpha (A a) fuel a (getSequence ds a) = some out → ∀ c ∈ out, 1 ≤ W.floor (ofCyc a c)
  costs : ∀ a < ds.listEv.length, (W.dcosts.lookup (a : ℤ)).isSome

/-- An occurrence of the data, with the number of its event. -/
def InSeql (seql : List (ℤ × ℕ)) (x : ℤ × ℤ) : Prop := ∃ a : ℕ, x.2 = (a : ℤ) ∧ (x.1, a) ∈ seql

section

variable {K : Type} [Field K] [LinearOrder K] {ε : Type} [LinearOrder ε]

theorem WorldOk.envOk {W : World K} {A : ℕ → Mine.Costs K} {fuel : ℕ} {ds : Built ε} (h : WorldOk W A fuel ds) (l : List (PC K)) : Nest.EnvOk (W.env l) := by
  obtain ⟨ch, par, ord, h1, h2⟩ := h.env l
  rw [h2]
  exact Nest.foldEnv_ok ch par _ ord h1

theorem WorldOk.envBounded {W : World K} {A : ℕ → Mine.Costs K} {fuel : ℕ} {ds : Built ε} (h : WorldOk W A fuel ds) (l : List (PC K)) : EnvBounded (W.env l) := by
  obtain ⟨ch, par, ord, -, h2⟩ := h.env l
  rw [h2]
  exact foldEnv_bounded ch par ord

theorem WorldOk.cost {W : World K} {A : ℕ → Mine.Costs K} {fuel : ℕ} {ds : Built ε} (h : WorldOk W A fuel ds) (x : ℤ × ℤ) (hx : InSeqs ds x) : (W.dcosts.lookup x.2).isSome := by
  obtain ⟨a, ha, e, -⟩ := hx
  rw [e]
  exact h.costs a ha

theorem InData.imp {D D' : ℤ × ℤ → Prop} (h : ∀ x, D x → D' x) {c : Cand ℤ} (hc : InData D c) : InData D' c := ⟨hc.1, hc.2.1, fun x hx => h x (hc.2.2 x hx)⟩

/-- Enough turns for the search of simple cycles. -/
def turns (ds : Built ε) : ℕ := (ds.seqd.map (fun e => e.2.length)).sum + 2

theorem turns_ok (ds : Built ε) (k : ℕ) : (getSequence ds k).length + 2 ≤ turns ds := by
  unfold getSequence turns
  cases hlk : ds.seqd.lookup k with
  | none => simp
  | some ts =>
    have := List.le_sum_of_mem (List.mem_map.2 ⟨(k, ts), Mine.lookup_mem' hlk, rfl⟩ : ts.length ∈ ds.seqd.map (fun e => e.2.length))
    rw [Option.getD_some]
    omega

theorem inSeqs_seql {ds : Built ε} (hd : Mine.DataOk ds) (x : ℤ × ℤ) (h : InSeqs ds x) : InSeql ds.seql x := by
  obtain ⟨a, -, e, hx⟩ := h
  exact ⟨a, e, hd.2.1 a _ hx⟩

/-- Once there is no new candidate, further rounds change nothing. -/
theorem rounds_stable (W : World K) (Q : ℕ → Orders) : ∀ (n : ℕ) (s s' : RState K), rounds W Q n s = some s' → s'.pool.newCids = [] → ∀ m, n ≤ m → rounds W Q m s = some s'
  | 0, s, s', h, he, m, _ => by
    simp only [rounds, Option.some.injEq] at h
    subst h
    cases m with
    | zero => rfl
    | succ m => rw [rounds, if_pos he]
  | n + 1, s, s', h, he, m, hm => by
    obtain ⟨m, rfl⟩ := Nat.exists_eq_add_of_le hm
    rw [show n + 1 + m = (n + m) + 1 by omega]
    rw [rounds] at h ⊢
    split at h
    · rename_i h0
      rw [if_pos h0]; exact h
    · rename_i h0
      rw [if_neg h0]
      cases hr : round W (Q s.i) s with
      | none => rw [hr] at h; cases h
      | some s1 =>
        rw [hr] at h
        exact rounds_stable W Q n s1 s' h he (n + m) (by omega)

end

/-- C78. For every series in the order of time, with or without time scale, whatever the costs, the iteration orders and the number of rounds: mining complex patterns never raises. Every candidate ever in the pool is a regular tree repeated
three times or more that fits its occurrences and corrections, and its occurrences, with their events, are occurrences of the data. The patterns returned are distinct candidates, each of which, in the order of the list, adds at least three
occurrences to those before it and costs less than those would on their own. -/
theorem fit_complex_candidates {ε : Type} [LinearOrder ε] (auto : Bool) (rows : List (ℤ × ε)) (h : rows.Pairwise (fun a b => a.1 ≤ b.1)) :
    ∃ m, fitData auto rows = .ok m ∧ ∃ F, ∀ fuel, F ≤ fuel → ∀ {K : Type} [Field K] [LinearOrder K] [IsStrictOrderedRing K] (W : World K) (A : ℕ → Mine.Costs K) (Q : ℕ → Orders), WorldOk W A fuel m.data → (∀ i, OrdersOk (Q i)) →
      ∀ n, ∃ s ps sel, mineComplex W A Q fuel n m.data = some (s, ps) ∧ (∀ e ∈ s.pool.candidates, InData (InSeql m.data.seql) e.2.cand.toCand) ∧
        sel.mapM (fun i => (s.pool.candidates.lookup i).bind (fun c => toPatt c.cand)) = some ps ∧ sel.Nodup ∧ Select.EfficientCover (candsOf s.pool.candidates) W.dcosts Prod.snd 3 sel := by
  obtain ⟨m, hm, hd⟩ := Mine.fitData_dataOk auto rows h
  refine ⟨m, hm, turns m.data, ?_⟩
  intro fuel hF K _ _ _ W A Q hW hQ n
  have hcl := inData_closed W hW.envOk (InSeqs m.data) hW.cost
  obtain ⟨s, i1, i2, i3, -⟩ := initPool_spec (W := W) hcl.shape A fuel m.data hd.1 (fun k => le_trans (turns_ok m.data k) hF) (fun a ha c hc => (ofCyc_simple m.data a ha c hc).1) hW.floor
  obtain ⟨s', r1, r2, -⟩ := rounds_spec hcl (fun _ h => h) (fun _ h => h) hW.envOk Q hQ n ⟨s, 0, none, none⟩ i2 i3
  obtain ⟨sel, ps, c1, c2, c3, -, c5⟩ := choose_spec hW.cost s'.pool r2
  refine ⟨s', ps, sel, ?_, fun e he => (r2.cands e he).imp (inSeqs_seql hd), c2, c3, c5⟩
  unfold mineComplex
  rw [i1, Option.bind_some, r1, Option.bind_some, c1]
  rfl

/-- C79. For every series in the order of time and whatever the costs and iteration orders: after at most one round of combinations, the patterns returned generate occurrences of the data only; if something is found and something left over,
the rows of `reconstruct()` and `get_residuals()` are exactly the rows of the series, none twice.
The full statement has no bound on the number of rounds; it fails for two, see `fit_complex_wrong`. -/
theorem fit_complex_lossless_partial {ε : Type} [LinearOrder ε] (auto : Bool) (rows : List (ℤ × ε)) (h : rows.Pairwise (fun a b => a.1 ≤ b.1)) :
    ∃ m, fitData auto rows = .ok m ∧ ∃ F, ∀ fuel, F ≤ fuel → ∀ {K : Type} [Field K] [LinearOrder K] [IsStrictOrderedRing K] (W : World K) (A : ℕ → Mine.Costs K) (Q : ℕ → Orders), WorldOk W A fuel m.data → (∀ i, OrdersOk (Q i)) →
      ∀ n ≤ 1, ∃ s ps, mineComplex W A Q fuel n m.data = some (s, ps) ∧ FromData m.data.seql ps ∧
      (ps ≠ [] → SomeResidual m.data.seql ps → ∀ enum srt, Enumerates enum → Sorts srt →
        ∃ R L, reconstructed srt m ps = some R ∧ residuals enum srt m ps = some L ∧ (R ++ L).Nodup ∧ ∀ r, r ∈ R ∨ r ∈ L ↔ r ∈ rows) := by
  obtain ⟨m, hm, hd⟩ := Mine.fitData_dataOk auto rows h
  obtain ⟨m', hm', hl⟩ := lossless_partial auto rows
  rw [hm] at hm'
  obtain rfl : m = m' := by injection hm'
  refine ⟨m, hm, turns m.data, ?_⟩
  intro fuel hF K _ _ _ W A Q hW hQ n hn
  have hcl := first_closed W hW.envOk (InSeqs m.data) hW.cost
  obtain ⟨s, i1, i2, i3, -⟩ := initPool_spec (W := W) hcl.shape A fuel m.data hd.1 (fun k => le_trans (turns_ok m.data k) hF) (fun a ha c hc => ofCyc_simple m.data a ha c hc) hW.floor
  obtain ⟨s', r1, r2⟩ : ∃ s', rounds W Q n ⟨s, 0, none, none⟩ = some s' ∧ PoolInv W (fun c => InData (InSeqs m.data) c ∧ Describes c) s'.pool := by
    have h0 : PoolInv W (fun c => InData (InSeqs m.data) c ∧ Describes c) s := i2.imp (fun c hc => ⟨hc.1, hc.2.1⟩)
    rcases Nat.le_one_iff_eq_zero_or_eq_one.1 hn with rfl | rfl
    · exact ⟨_, rfl, h0⟩
    · by_cases hnew : s.newCids = []
      · exact ⟨⟨s, 0, none, none⟩, by rw [rounds, if_pos hnew], h0⟩
      · obtain ⟨s', -, r1, r2, -⟩ := round_spec hcl (P' := fun c => InData (InSeqs m.data) c ∧ Describes c) (fun c hc => ⟨hc.1, hc.2.1⟩) (fun c hc => hc) (fun c hc => hc) (fun c hc => hc.1.1) hW.envOk (Q 0) (hQ 0)
          ⟨s, 0, none, none⟩ i2 (i3 hnew)
        exact ⟨s', by rw [rounds, if_neg hnew, r1]; rfl, r2⟩
  obtain ⟨sel, ps, c1, c2, -, c4, -⟩ := choose_spec hW.cost s'.pool (r2.imp (fun c hc => hc.1))
  have hfd : FromData m.data.seql ps := by
    intro q hq
    obtain ⟨i, hi, e⟩ := (mem_mapM c2 q).1 hq
    rw [Option.bind_eq_some_iff] at e
    obtain ⟨c, e1, e2⟩ := e
    have hc := r2.cands _ (Mine.lookup_mem' e1)
    refine ⟨_, toPatt_cov hc.2 e2, ?_, ?_⟩
    · obtain ⟨t0, ht⟩ := hc.1.1.head
      intro he
      rw [List.map_eq_nil_iff] at he
      have hlen := congrArg List.length he
      have h1 := length_pairs hc.1.1
      rw [hlen] at h1
      cases hO : c.cand.toCand.O with
      | nil => rw [hO] at ht; cases ht
      | cons x l => rw [hO] at h1; simp at h1
    · intro x hx
      obtain ⟨y, hy, rfl⟩ := List.mem_map.1 hx
      obtain ⟨a, e3, e4⟩ := inSeqs_seql hd y (hc.1.2.2 y hy)
      rw [e3, Int.toNat_natCast]
      exact e4
  refine ⟨s', ps, ?_, hfd, fun hp hr enum srt he hs => hl ps hfd hp hr enum srt he hs⟩
  unfold mineComplex
  rw [i1, Option.bind_some, r1, Option.bind_some, c1]
  rfl

/-- C80. Mining complex patterns ends: for every series in the order of time there is a number of rounds, which depends on the series only, after which no round finds a new candidate, whatever the costs and iteration orders; from then on
the result no longer depends on the bound on the number of rounds. -/
theorem fit_complex_terminates {ε : Type} [LinearOrder ε] (auto : Bool) (rows : List (ℤ × ε)) (h : rows.Pairwise (fun a b => a.1 ≤ b.1)) :
    ∃ m, fitData auto rows = .ok m ∧ ∃ F N, ∀ fuel, F ≤ fuel → ∀ {K : Type} [Field K] [LinearOrder K] [IsStrictOrderedRing K] (W : World K) (A : ℕ → Mine.Costs K) (Q : ℕ → Orders), WorldOk W A fuel m.data → (∀ i, OrdersOk (Q i)) →
      ∃ s ps, s.pool.newCids = [] ∧ ∀ n, N ≤ n → mineComplex W A Q fuel n m.data = some (s, ps) := by
  obtain ⟨m, hm, hd⟩ := Mine.fitData_dataOk auto rows h
  obtain ⟨B, hB⟩ := exists_bounds (dataSet m.data)
  refine ⟨m, hm, turns m.data, (sigs B).ncard + 1, ?_⟩
  intro fuel hF K _ _ _ W A Q hW hQ
  have hcost : ∀ x ∈ B.D, (W.dcosts.lookup x.2).isSome := by
    intro x hx
    rw [hB, mem_dataSet] at hx
    exact hW.cost x hx
  have hcl := bounded_closed B W hW.envOk hW.envBounded hcost
  obtain ⟨s, i1, i2, i3, -⟩ := initPool_spec (W := W) hcl.shape A fuel m.data hd.1 (fun k => le_trans (turns_ok m.data k) hF) (fun a ha c hc => ofCyc_bounded m.data hd.1 B hB a ha c hc) hW.floor
  obtain ⟨s', r1, r2, -, r4⟩ := rounds_spec hcl (fun _ h => h.toP B) (fun _ h => h) hW.envOk Q hQ ((sigs B).ncard + 1) ⟨s, 0, none, none⟩ i2 i3
  have hend : s'.pool.newCids = [] := by
    by_contra hne
    have := r4 hne
    have := pool_size B s'.pool r2
    omega
  obtain ⟨sel, ps, c1, -⟩ := choose_spec (D := (· ∈ B.D)) hcost s'.pool (r2.imp (fun c hc => hc.1.data))
  refine ⟨s', ps, hend, ?_⟩
  intro n hn
  unfold mineComplex
  rw [i1, Option.bind_some, rounds_stable W Q _ _ _ r1 hend n hn, Option.bind_some, c1]
  rfl

/-! ### A run -/

/-- Cost of a simple cycle in the example: a constant, the period and the corrections. -/
def exLine (l : List ℤ) : ℤ := 40 + (Mine.computePeriod l).getD 0 + ((computeE l ((Mine.computePeriod l).getD 0)).map (fun e => |e|)).sum

/-- The comparisons of the search, with the cost of one occurrence. -/
def exPar (one : ℤ) : Fold.Par := ⟨fun _ => true, fun dp e => decide (40 + dp + e < 3 * one), fun l => decide (exLine l < one * l.length), none⟩

/-- Costs of simple cycles: an occurrence of the first event costs 14, of another event 18. -/
def exA (a : ℕ) : Mine.Costs ℚ := ⟨fun l => (exLine l : ℚ), if a = 0 then 14 else 18, fun e dp => ((40 + dp + e : ℤ) : ℚ), exPar (if a = 0 then 14 else 18)⟩

/-- Cost of a pattern: a constant, the periods, the corrections and the distances. -/
def exPatt (c : Cand ℤ) : ℚ := ((40 + (Nest.cyclePs c.tree).sum + (c.E.map (fun e => |e|)).sum + (dists c.ch).sum : ℤ) : ℚ)

/-- All costs of the example. -/
def exW : World ℚ := ⟨exPatt, fun c => (c.cost / 18).floor, [(0, 14), (1, 18), (2, 18)], fun _ => Nest.foldEnv (fun _ _ => true) (fun _ _ => exPar 100) (fun l => (Mine.computePeriod l).getD 0) id⟩

/-- A set of numbers, in increasing order. -/
def asc (s : Finset ℕ) : List ℕ := (List.range (s.sup id + 1)).filter (fun x => decide (x ∈ s))

theorem mem_asc (s : Finset ℕ) (x : ℕ) : x ∈ asc s ↔ x ∈ s := by
  simp only [asc, List.mem_filter, List.mem_range, decide_eq_true_eq, and_iff_right_iff_imp]
  intro hx
  have := Finset.le_sup (f := id) hx
  exact Nat.lt_succ_of_le this

theorem nodup_asc (s : Finset ℕ) : (asc s).Nodup := List.nodup_range.filter _

/-- Sets in increasing order. -/
def exQ : Orders := ⟨id, fun _ s => asc s, asc⟩

theorem exQ_ok : OrdersOk exQ := ⟨fun l => List.Perm.refl l, fun _ s => ⟨nodup_asc s, mem_asc s⟩, fun s => ⟨nodup_asc s, mem_asc s⟩⟩

/-- Every ten units: event 2, after two units event 3, after three more event 1 three times in a row. Every regularity is exact. -/
def exRows : List (ℤ × ℕ) := [(0, 2), (2, 3), (5, 1), (6, 1), (7, 1), (10, 2), (12, 3), (15, 1), (16, 1), (17, 1), (20, 2), (22, 3), (25, 1), (26, 1), (27, 1)]

theorem exRows_sorted : exRows.Pairwise (fun a b => a.1 ≤ b.1) := by decide

theorem exRun₁ : (fitData false exRows).toOption.map (fun m => m.data.seql) = some [(0, 1), (2, 2), (5, 0), (6, 0), (7, 0), (10, 1), (12, 2), (15, 0), (16, 0), (17, 0), (20, 1), (22, 2), (25, 0), (26, 0), (27, 0)] := by decide +kernel

theorem exRun₂ : (fitData false exRows).toOption.map (fun m => (m.data.listEv.length, turns m.data, (List.range 3).all (fun a => ((Mine.mineAlpha (exA a) 100 a (getSequence m.data a)).getD []).all (fun c => decide (1 ≤ exW.floor (ofCyc a c)))))) =
    some (3, 17, true) := by decide +kernel

theorem exRun₃ : (fitData false exRows).toOption.bind (fun m => (mineComplex exW exA (fun _ => exQ) 100 3 m.data).map (fun r => (r.1.pool.newCids.length, r.2.map (fun q => getCovSeq q.1 q.2.1 q.2.2)))) =
    some (0, [some [(0, 1), (2, 2), (10, 0), (11, 0), (12, 0), (10, 1), (12, 2), (20, 0), (21, 0), (22, 0), (20, 1), (22, 2), (30, 0), (31, 0), (32, 0)]]) := by decide +kernel

/-- C79, negative: an exactly regular series, given in the order of time, and costs that count periods, distances and corrections. Mining ends after two rounds with one pattern; the pattern generates nine occurrences that are not in the
data. The first round joins events 2 and 3 and nests event 1; the second round joins the two results, and the distance of the third part is counted from the first child of the previous part but used from its last child
(`concat_wrong`). -/
theorem fit_complex_wrong : ∃ m, fitData false exRows = .ok m ∧ WorldOk exW exA 100 m.data ∧ OrdersOk exQ ∧ turns m.data ≤ 100 ∧
    ∀ n, 3 ≤ n → ∃ s ps, mineComplex exW exA (fun _ => exQ) 100 n m.data = some (s, ps) ∧ s.pool.newCids = [] ∧ ¬ FromData m.data.seql ps := by
  have h1 := exRun₁
  have h2 := exRun₂
  have h4 := exRun₃
  cases hf : fitData false exRows with
  | error e => rw [hf] at h1; cases h1
  | ok m =>
    rw [hf] at h1 h2 h4
    simp only [Except.toOption, Option.map_some, Option.bind_some, Option.some.injEq, Prod.mk.injEq] at h1 h2 h4
    obtain ⟨h2, ht, h3⟩ := h2
    refine ⟨m, rfl, ⟨?_, ?_, ?_⟩, exQ_ok, by omega, ?_⟩
    · intro l
      exact ⟨_, _, _, fun x => List.Perm.refl x, rfl⟩
    · intro a ha out hout c hc
      rw [h2] at ha
      have := List.all_eq_true.1 h3 a (List.mem_range.2 ha)
      rw [hout, Option.getD_some] at this
      exact of_decide_eq_true (List.all_eq_true.1 this c hc)
    · intro a ha
      rw [h2] at ha
      have : a = 0 ∨ a = 1 ∨ a = 2 := by omega
      rcases this with rfl | rfl | rfl <;> decide
    · intro n hn
      rw [Option.map_eq_some_iff] at h4
      obtain ⟨⟨s, ps⟩, e, h5⟩ := h4
      simp only [Prod.mk.injEq] at h5
      have hnil : s.pool.newCids = [] := List.length_eq_zero_iff.1 h5.1
      refine ⟨s, ps, ?_, hnil, ?_⟩
      · unfold mineComplex at e ⊢
        rw [Option.bind_eq_some_iff] at e
        obtain ⟨s0, e1, e⟩ := e
        rw [Option.bind_eq_some_iff] at e
        obtain ⟨s1, e2, e⟩ := e
        rw [Option.map_eq_some_iff] at e
        obtain ⟨ps', e3, e4⟩ := e
        simp only [Prod.mk.injEq] at e4
        obtain ⟨rfl, rfl⟩ := e4
        rw [e1, Option.bind_some, rounds_stable exW _ 3 _ _ e2 hnil n hn, Option.bind_some, e3]
        rfl
      · intro hfd
        cases ps with
        | nil => simp at h5
        | cons q ps =>
          simp only [List.map_cons, List.cons.injEq] at h5
          obtain ⟨cov, c1, -, c3⟩ := hfd q List.mem_cons_self
          rw [h5.2.1] at c1
          obtain rfl := Option.some.inj c1
          have := c3 (11, 0) (by decide)
          rw [h1] at this
          exact absurd this (by decide)

/-- The hypotheses of the theorems above hold for the example, and after one round two patterns generate the series. -/
example : exRows.Pairwise (fun a b => a.1 ≤ b.1) := exRows_sorted
example : ((fitData false exRows).toOption.bind (fun m => (mineComplex exW exA (fun _ => exQ) 100 1 m.data).map (fun r => (r.1.pool.candidates.length, r.2.map (fun q => getCovSeq q.1 q.2.1 q.2.2))))) =
    some (9, [some [(5, 0), (6, 0), (7, 0), (15, 0), (16, 0), (17, 0), (25, 0), (26, 0), (27, 0)], some [(0, 1), (2, 2), (10, 1), (12, 2), (20, 1), (22, 2)]]) := by decide +kernel

end Verif.Complex
