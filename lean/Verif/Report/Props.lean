import Verif.Report.Model

/-!
# The statistics of a collection of patterns (C161)
-/

set_option autoImplicit false
set_option linter.unusedSectionVars false

namespace Verif.Report

open Verif.PTree Verif.Cost Verif.Kinds

/-! ### Specification -/

/-- The set of the occurrences of the data that no pattern covers. -/
def IsLeftOver (S : List (ℤ × ℕ)) (ps : List Miner.Patt) (U : Finset (ℤ × ℕ)) : Prop :=
  ∀ x, x ∈ U ↔ x ∈ S ∧ ∀ z ∈ ps, ∀ cov, getCovSeq z.1 z.2.1 z.2.2 = some cov → x ∉ cov

/-! ### Lemmas -/

theorem foldlM_add {β : Type} (f : β → Option ℝ) (g : β → ℝ) : ∀ (l : List β) (a : ℝ), (∀ x ∈ l, f x = some (g x)) → l.foldlM (fun cl z => (f z).map (fun c => cl + c)) a = some (a + (l.map g).sum)
  | [], a, _ => by simp
  | x :: l, a, h => by
    rw [List.foldlM_cons, h x List.mem_cons_self]
    simp only [Option.map_some, Option.bind_eq_bind, Option.bind_some]
    rw [foldlM_add f g l _ (fun y hy => h y (List.mem_cons_of_mem _ hy)), List.map_cons, List.sum_cons, add_assoc]

theorem leftover_eq {ε : Type} (d : DataSeq.Built ε) (g : ℕ → ℝ) : ∀ (l : List (ℕ × ℕ)) (a : ℕ × ℝ), (∀ e ∈ l, costOne (detailsOf d) e.1 = some (g e.1)) →
    l.foldlM (fun a e => (costOne (detailsOf d) e.1).map (fun c => (a.1 + e.2, a.2 + (e.2 : ℝ) * c))) a = some (a.1 + (l.map Prod.snd).sum, a.2 + (l.map (fun e => (e.2 : ℝ) * g e.1)).sum)
  | [], a, _ => by simp
  | e :: l, a, h => by
    rw [List.foldlM_cons, h e List.mem_cons_self]
    simp only [Option.map_some, Option.bind_eq_bind, Option.bind_some]
    rw [leftover_eq d g l _ (fun y hy => h y (List.mem_cons_of_mem _ hy))]
    simp only [List.map_cons, List.sum_cons, add_assoc]

theorem addOne_count (e : ℕ) : ∀ l : List (ℕ × ℕ), ((addOne l e).map Prod.snd).sum = (l.map Prod.snd).sum + 1
  | [] => rfl
  | (e', n) :: l => by
    rw [addOne]
    split
    · simp only [List.map_cons, List.sum_cons]; omega
    · simp only [List.map_cons, List.sum_cons, addOne_count e l]; omega

theorem nbByEv_count (U : List (ℤ × ℕ)) : ((nbByEv U).map Prod.snd).sum = U.length := by
  have : ∀ (U : List (ℤ × ℕ)) (l : List (ℕ × ℕ)), ((U.foldl (fun nbs x => addOne nbs x.2) l).map Prod.snd).sum = (l.map Prod.snd).sum + U.length := by
    intro U
    induction U with
    | nil => intro l; simp
    | cons x U ih => intro l; rw [List.foldl_cons, ih, addOne_count, List.length_cons]; omega
  rw [nbByEv, this]
  simp

section
variable {ε : Type} [LinearOrder ε] (seq : List (ℤ × ε)) (enum : Finset (ℤ × ℕ) → List (ℤ × ℕ)) (henum : ∀ u, (enum u).Nodup ∧ ∀ x, x ∈ enum u ↔ x ∈ u)
  (d : DataSeq.Built ε) (hd : DataSeq.ofList seq = .ok d) (ps : List Miner.Patt) (hps : ∀ z ∈ ps, Fitted d.seql z)
include henum hd hps

/-- The parts from which both reports are made. -/
theorem parts : ∃ (nbs : List (Kinds.Kind × ℕ)) (c : Miner.Patt → ℝ) (u U : Finset (ℤ × ℕ)) (only : ℝ), nbByType (ps.map (fun z => z.1)) = some nbs ∧ (∀ z ∈ ps, codeLength z.1 z.2.1 (some z.2.2) (detailsOf d) = some (c z)) ∧
    listCost d ps = some (ps.map c).sum ∧ Miner.uncovered d.seql ps = some u ∧ IsLeftOver d.seql ps U ∧ leftover d (nbByEv (enum u)) = some (U.card, ∑ x ∈ U, oneBits d.seql (detailsOf d) x.2) ∧
    residualsOnly d = some only ∧ collectionCost enum d ps = some ((ps.map c).sum + ∑ x ∈ U, oneBits d.seql (detailsOf d) x.2) := by
  obtain ⟨c, U, hc, hU, hcost⟩ := collection_cost seq enum henum d hd ps hps
  obtain ⟨nbs, hn, -⟩ := report_counts (ps.map (fun z => z.1)) (by
    intro t ht
    obtain ⟨z, hz, rfl⟩ := List.mem_map.1 ht
    obtain ⟨r, p, ch, h⟩ := (hps z hz).block
    exact ⟨r, p, ch, h, (hps z hz).regular⟩)
  have hv : ∀ z, ∃ cov : List (ℤ × ℕ), z ∈ ps → getCovSeq z.1 z.2.1 z.2.2 = some cov := by
    intro z
    by_cases hz : z ∈ ps
    · obtain ⟨cov, h, _⟩ := (hps z hz).occs
      exact ⟨cov, fun _ => h⟩
    · exact ⟨[], fun h => absurd h hz⟩
  choose cov hv using hv
  have hm2 : Miner.occLists ps = some (ps.map cov) := PTree.mapM_some_map ps _ cov (fun z hz => hv z hz)
  have hlc : listCost d ps = some (ps.map c).sum := by
    rw [listCost, hm2]
    simp only
    rw [foldlM_add (fun z : Miner.Patt => codeLength z.1 z.2.1 (some z.2.2) (detailsOf d)) c ps 0 hc, zero_add]
  have hun : Miner.uncovered d.seql ps = some ((ps.map cov).foldl (fun s l => s \ l.toFinset) d.seql.toFinset) := by rw [Miner.uncovered, hm2]; rfl
  have hUu : (ps.map cov).foldl (fun s l => s \ l.toFinset) d.seql.toFinset = U := by
    ext x
    rw [hU, sdiff_fold, List.mem_toFinset]
    refine and_congr_right (fun _ => ?_)
    constructor
    · intro h z hz cv hcv
      rw [hv z hz] at hcv
      obtain rfl := Option.some.inj hcv
      exact h _ (List.mem_map.2 ⟨z, hz, rfl⟩)
    · intro h l hl
      obtain ⟨z, hz, rfl⟩ := List.mem_map.1 hl
      exact h z hz _ (hv z hz)
  rw [hUu] at hun
  obtain ⟨d', hd', hD, -⟩ := details_ok seq
  obtain rfl : d = d' := by rw [hd] at hd'; exact Except.ok.inj hd'
  have hlo : leftover d (nbByEv (enum U)) = some (U.card, ∑ x ∈ U, oneBits d.seql (detailsOf d) x.2) := by
    rw [leftover, leftover_eq d (oneBits d.seql (detailsOf d)), nbByEv_count, nbByEv_sum (oneBits d.seql (detailsOf d))]
    · have he : (enum U).toFinset = U := by ext x; rw [List.mem_toFinset]; exact (henum U).2 x
      rw [← List.toFinset_card_of_nodup (henum U).1, ← List.sum_toFinset _ (henum U).1, he]
      simp
    · intro e he
      obtain ⟨y, hy, h⟩ := nbByEv_keys _ e he
      have hyS := ((hU y).1 (((henum U).2 y).1 hy)).1
      exact costOne_ok hD (a := e.1) (List.count_pos_iff.2 (List.mem_map.2 ⟨y, hyS, h⟩))
  exact ⟨nbs, c, U, U, _, hn, hc, hlc, hun, hU, hlo, residuals_only seq d hd, hcost⟩

/-- C161. The report of a collection of patterns of the data is made, and its figures are those of the collection: the number of patterns, in all and of each kind, the code lengths of the patterns and of what they leave
over, which add up to the code length of the collection, the number of occurrences left over, and, if the data cost anything on their own, the whole code length, its share of theirs in percent, and theirs. -/
theorem figures_right : ∃ (r : Stats) (c : Miner.Patt → ℝ) (U : Finset (ℤ × ℕ)) (only : ℝ), outputDetailed enum d ps = some r ∧ r.total = ps.length ∧ (r.kinds.map Prod.snd).sum = ps.length ∧
    (∀ k n, (k, n) ∈ r.kinds ↔ 1 ≤ n ∧ ∃ sub : List (PTree.Tree ℕ), sub.Sublist (ps.map (fun z => z.1)) ∧ sub.length = n ∧ (∀ t ∈ sub, HasKind t k) ∧ ∀ s : List (PTree.Tree ℕ), s.Sublist (ps.map (fun z => z.1)) → (∀ t ∈ s, HasKind t k) → s.length ≤ n) ∧
    (∀ z ∈ ps, codeLength z.1 z.2.1 (some z.2.2) (detailsOf d) = some (c z)) ∧ r.clPatterns = (ps.map c).sum ∧
    IsLeftOver d.seql ps U ∧ r.nbResiduals = U.card ∧ r.clResiduals = ∑ x ∈ U, oneBits d.seql (detailsOf d) x.2 ∧
    collectionCost enum d ps = some (r.clPatterns + r.clResiduals) ∧ residualsOnly d = some only ∧
    (0 < only → r.whole = some (r.clPatterns + r.clResiduals, 100 * (r.clPatterns + r.clResiduals) / only, only)) ∧ (¬ 0 < only → r.whole = none) := by
  obtain ⟨nbs, c, u, U, only, hn, hc, hlc, hun, hU, hlo, hro, hcost⟩ := parts seq enum henum d hd ps hps
  obtain ⟨nbs', hn', -, hsum, hperm, -, hk⟩ := report_counts (ps.map (fun z => z.1)) (by
    intro t ht
    obtain ⟨z, hz, rfl⟩ := List.mem_map.1 ht
    obtain ⟨r, p, ch, h⟩ := (hps z hz).block
    exact ⟨r, p, ch, h, (hps z hz).regular⟩)
  obtain rfl : nbs = nbs' := Option.some.inj (hn.symm.trans hn')
  refine ⟨⟨ps.length, reportOrder nbs, (ps.map c).sum, ∑ x ∈ U, oneBits d.seql (detailsOf d) x.2, U.card,
    if 0 < only then some ((ps.map c).sum + ∑ x ∈ U, oneBits d.seql (detailsOf d) x.2, 100 * ((ps.map c).sum + ∑ x ∈ U, oneBits d.seql (detailsOf d) x.2) / only, only) else none⟩, c, U, only, ?_, rfl, ?_, ?_, hc, rfl, hU, rfl, rfl, hcost, hro, fun h => if_pos h, fun h => if_neg h⟩
  · simp only [outputDetailed, hn, hlc, hun, hlo, hro, Option.bind_eq_bind, Option.bind_some, Option.pure_def]
  · simpa using hsum
  · intro k n
    rw [← hk k n]
    exact hperm.mem_iff

/-- C161, for collections with a simple pattern: the printed report returns the same figures, and the number of simple patterns. -/
theorem printed_same_partial (hs : ∃ z ∈ ps, HasKind z.1 .simple) : ∃ (r : Stats) (n : ℕ) (only : ℝ), outputDetailed enum d ps = some r ∧ (Kinds.Kind.simple, n) ∈ r.kinds ∧ residualsOnly d = some only ∧
    strDetailed enum d ps = some (r.clPatterns + r.clResiduals, only, r.clResiduals, n, r.nbResiduals, r.total) := by
  obtain ⟨nbs, c, u, U, only, hn, hc, hlc, hun, hU, hlo, hro, hcost⟩ := parts seq enum henum d hd ps hps
  have hreg : ∀ t ∈ ps.map (fun z => z.1), ∃ r p ch, t = PTree.Tree.node r p ch ∧ t.Regular := by
    intro t ht
    obtain ⟨z, hz, rfl⟩ := List.mem_map.1 ht
    obtain ⟨r, p, ch, h⟩ := (hps z hz).block
    exact ⟨r, p, ch, h, (hps z hz).regular⟩
  have hty : ∀ t ∈ ps.map (fun z => z.1), ∃ k, typeStr t = some k := by
    intro t ht
    obtain ⟨r, p, ch, rfl, hr⟩ := hreg t ht
    obtain ⟨k, hk, -⟩ := kind_unique r p ch hr
    exact ⟨k, (kind_correct r p ch hr k).2 hk⟩
  obtain ⟨out, ho, -, -, -, hcount⟩ := nbByType_spec (ps.map (fun z => z.1)) hty [] (by simp) (by simp)
  obtain rfl : out = nbs := Option.some.inj (ho.symm.trans hn)
  obtain ⟨z, hz, hzk⟩ := hs
  have hpos : 0 < (ps.map (fun z => z.1)).countP (fun t => typeStr t == some Kinds.Kind.simple) := by
    rw [List.countP_pos_iff]
    refine ⟨z.1, List.mem_map.2 ⟨z, hz, rfl⟩, ?_⟩
    obtain ⟨r, p, ch, h⟩ := (hps z hz).block
    have hr := (hps z hz).regular
    rw [h] at hzk hr ⊢
    rw [beq_iff_eq]
    exact (kind_correct r p ch hr _).2 hzk
  obtain ⟨n, hl⟩ : ∃ n, out.lookup Kinds.Kind.simple = some n := by
    cases h : out.lookup Kinds.Kind.simple with
    | some n => exact ⟨n, rfl⟩
    | none =>
      have := hcount Kinds.Kind.simple
      rw [h] at this
      simp only [Option.getD_none, List.lookup_nil, zero_add] at this
      omega
  refine ⟨⟨ps.length, reportOrder out, (ps.map c).sum, ∑ x ∈ U, oneBits d.seql (detailsOf d) x.2, U.card,
    if 0 < only then some ((ps.map c).sum + ∑ x ∈ U, oneBits d.seql (detailsOf d) x.2, 100 * ((ps.map c).sum + ∑ x ∈ U, oneBits d.seql (detailsOf d) x.2) / only, only) else none⟩, n, only, ?_, ?_, hro, ?_⟩
  · simp only [outputDetailed, hn, hlc, hun, hlo, hro, Option.bind_eq_bind, Option.bind_some, Option.pure_def]
  · refine (List.perm_insertionSort _ _).mem_iff.2 ?_
    rw [List.lookup_eq_some_iff] at hl
    obtain ⟨l1, l2, rfl, -⟩ := hl
    simp
  · simp only [strDetailed, hn, hlc, hun, hlo, hro, hl, Option.bind_eq_bind, Option.bind_some, Option.pure_def]

/-- C161 is false for the printed report: without a simple pattern it raises (`KeyError`), though the report itself is made. -/
theorem printed_raises (hs : ∀ z ∈ ps, ¬ HasKind z.1 .simple) : (∃ r, outputDetailed enum d ps = some r) ∧ strDetailed enum d ps = none := by
  obtain ⟨r, -, -, -, hr, -⟩ := figures_right seq enum henum d hd ps hps
  refine ⟨⟨r, hr⟩, ?_⟩
  obtain ⟨nbs, c, u, U, only, hn, hc, hlc, hun, hU, hlo, hro, hcost⟩ := parts seq enum henum d hd ps hps
  obtain ⟨nbs', hn', -, -, -, -, hk⟩ := report_counts (ps.map (fun z => z.1)) (by
    intro t ht
    obtain ⟨z, hz, rfl⟩ := List.mem_map.1 ht
    obtain ⟨r, p, ch, h⟩ := (hps z hz).block
    exact ⟨r, p, ch, h, (hps z hz).regular⟩)
  obtain rfl : nbs = nbs' := Option.some.inj (hn.symm.trans hn')
  have hl : nbs.lookup Kinds.Kind.simple = none := by
    cases h : nbs.lookup Kinds.Kind.simple with
    | none => rfl
    | some n =>
      rw [List.lookup_eq_some_iff] at h
      obtain ⟨l1, l2, rfl, -⟩ := h
      obtain ⟨h1, sub, h2, h3, h4, -⟩ := (hk Kinds.Kind.simple n).1 (by simp)
      cases sub with
      | nil => simp at h3; omega
      | cons t sub =>
        obtain ⟨z, hz, rfl⟩ := List.mem_map.1 (h2.subset List.mem_cons_self)
        exact absurd (h4 _ List.mem_cons_self) (hs z hz)
  simp only [strDetailed, hn, hlc, hun, hlo, hro, hl, Option.bind_eq_bind, Option.bind_some, Option.bind_none]
end

/-! ### Examples -/

/-- The data of `Verif/Cost/Props.lean` with a pattern of two events: it covers everything and is not simple, so the printed report raises. -/
example (enum : Finset (ℤ × ℕ) → List (ℤ × ℕ)) (henum : ∀ u, (enum u).Nodup ∧ ∀ x, x ∈ enum u ↔ x ∈ u) :
    ∃ d, DataSeq.ofList exS = .ok d ∧ (∃ r, outputDetailed enum d [(exT, 2, [0, 0, 1, 0, 0])] = some r ∧ r.total = 1 ∧ r.nbResiduals = 0) ∧ strDetailed enum d [(exT, 2, [0, 0, 1, 0, 0])] = none := by
  obtain ⟨d, hd, -⟩ := details_ok exS
  have hq : (DataSeq.ofList exS).toOption.map (fun d => d.seql) = some exS := by decide
  rw [hd] at hq
  have hq : d.seql = exS := by simpa [Except.toOption] using hq
  have hf : ∀ z ∈ [((exT, 2, [0, 0, 1, 0, 0]) : Miner.Patt)], Fitted d.seql z := by
    intro z hz
    rw [List.mem_singleton.1 hz, hq]
    exact exT_fitted
  obtain ⟨r, c, U, only, h1, h2, -, -, -, -, hU, hn, -⟩ := figures_right exS enum henum d hd _ hf
  refine ⟨d, hd, ⟨r, h1, h2, ?_⟩, (printed_raises exS enum henum d hd _ hf ?_).2⟩
  · rw [hn, Finset.card_eq_zero, Finset.eq_empty_iff_forall_notMem]
    intro x hx
    obtain ⟨hx, h⟩ := (hU x).1 hx
    refine h _ (List.mem_singleton.2 rfl) exS (by decide) (hq ▸ hx)
  · intro z hz
    rw [List.mem_singleton.1 hz]
    rintro ⟨a, r, p, d, t, h, -⟩
    simp [exT] at h

/-- With a simple pattern both reports are made. -/
example (enum : Finset (ℤ × ℕ) → List (ℤ × ℕ)) (henum : ∀ u, (enum u).Nodup ∧ ∀ x, x ∈ enum u ↔ x ∈ u) :
    ∃ d r n only, DataSeq.ofList exS = .ok d ∧ outputDetailed enum d [(exT, 2, [0, 0, 1, 0, 0]), (cycle 3 4 1, 3, [1, -1])] = some r ∧
      strDetailed enum d [(exT, 2, [0, 0, 1, 0, 0]), (cycle 3 4 1, 3, [1, -1])] = some (r.clPatterns + r.clResiduals, only, r.clResiduals, n, r.nbResiduals, r.total) := by
  obtain ⟨d, hd, -⟩ := details_ok exS
  have hq : (DataSeq.ofList exS).toOption.map (fun d => d.seql) = some exS := by decide
  rw [hd] at hq
  have hq : d.seql = exS := by simpa [Except.toOption] using hq
  obtain ⟨r, n, only, h1, -, -, h2⟩ := printed_same_partial exS enum henum d hd [(exT, 2, [0, 0, 1, 0, 0]), (cycle 3 4 1, 3, [1, -1])] (by
    intro z hz
    rw [hq]
    rcases List.mem_cons.1 hz with rfl | hz
    · exact exT_fitted
    · rw [List.mem_singleton.1 hz]; exact exC_fitted) ⟨_, List.mem_cons_of_mem _ (List.mem_singleton.2 rfl), 1, 3, 4, 0, .leaf 1, rfl, rfl⟩
  exact ⟨d, r, n, only, hd, h1, h2⟩

end Verif.Report
