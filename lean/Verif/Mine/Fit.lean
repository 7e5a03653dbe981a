import Verif.Mine.Simple

/-!
# The miner on simple cycles, on the rows of a series (C71)
-/

set_option autoImplicit false
set_option linter.unusedSectionVars false

namespace Verif.Mine

open Verif.DataSeq Verif.TimeScale Verif.Miner

variable {K : Type} [Field K] [LinearOrder K] [IsStrictOrderedRing K] {ε R κ : Type} [LinearOrder ε] [LinearOrder κ]

theorem lookup_mem' {β γ : Type} [BEq β] [LawfulBEq β] {k : β} {v : γ} : ∀ {d : List (β × γ)}, d.lookup k = some v → (k, v) ∈ d := by
  intro d
  induction d with
  | nil => simp
  | cons x d ih =>
    intro h
    obtain ⟨a, b⟩ := x
    rw [List.lookup_cons] at h
    split at h
    · rename_i e
      rw [beq_iff_eq] at e
      obtain rfl := Option.some.inj h
      subst e
      exact List.mem_cons_self
    · exact List.mem_cons_of_mem _ (ih h)

/-- The data sequence of rows in which the times of each event increase. -/
theorem ofList_dataOk (seq : List (ℤ × ε)) (h : seq.Pairwise (fun a b => a.2 = b.2 → a.1 < b.1)) : ∃ d, ofList seq = .ok d ∧ DataOk d := by
  obtain ⟨d, h1, h2, -, h4, h5, h6, -⟩ := ofDict_ok (group seq) (group_nodup seq) (fun q hq => (group_entry seq q.1 q.2 hq).2)
  refine ⟨d, h1, ?_, ?_, ?_⟩
  · intro k
    unfold getSequence
    cases hl : d.seqd.lookup k with
    | none => simp
    | some ts =>
      have := lookup_mem' hl
      rw [h4] at this
      obtain ⟨⟨e, ts'⟩, hq, he⟩ := List.mem_map.1 this
      obtain rfl : ts' = ts := (Prod.mk.inj he).2
      rw [Option.getD_some, (group_entry seq e ts' hq).1, List.pairwise_map]
      refine ((List.Pairwise.sublist List.filter_sublist h).imp_of_mem ?_)
      intro a b ha hb hab
      rw [List.mem_filter, decide_eq_true_eq] at ha hb
      exact hab (ha.2.trans hb.2.symm)
  · intro k t ht
    unfold getSequence at ht
    cases hl : d.seqd.lookup k with
    | none => rw [hl] at ht; simp at ht
    | some ts =>
      rw [hl, Option.getD_some] at ht
      rw [h5, List.mem_insertionSort, List.mem_flatMap]
      exact ⟨(k, ts), lookup_mem' hl, List.mem_map.2 ⟨t, ht, rfl⟩⟩
  · intro k hk
    have hnd : d.listEv.Nodup := by
      rw [h2]; exact (List.perm_insertionSort _ _).nodup_iff.2 (group_nodup seq)
    have hm : d.listEv[k] ∈ (group seq).map Prod.fst := by
      rw [← List.mem_insertionSort (· ≤ ·), ← h2]
      exact List.getElem_mem hk
    obtain ⟨q, hq, e⟩ := List.mem_map.1 hm
    rw [h6, h4, List.map_map, List.map_map, List.mem_map]
    refine ⟨q, hq, ?_⟩
    change d.listEv.idxOf q.1 = k
    rw [e, hnd.idxOf_getElem]

/-- The rows without duplicates are in the order of time when the rows are. -/
theorem dedup_sorted (rows : List (ℤ × ε)) (h : rows.Pairwise (fun a b => a.1 ≤ b.1)) : (dedupRows rows).Pairwise (fun a b => a.2 = b.2 → a.1 < b.1) := by
  have hle : (dedupRows rows).Pairwise (fun a b => a.1 ≤ b.1) := by
    unfold dedupRows
    split
    · exact h
    · rw [List.pairwise_flatMap]
      constructor
      · intro t _
        refine List.pairwise_of_forall_mem_list ?_
        intro a ha b hb
        rw [mem_keepFirst, List.mem_filter, decide_eq_true_eq] at ha hb
        rw [ha.1.2, hb.1.2]
      · refine (List.pairwise_insertionSort (· ≤ ·) (keepFirst [] (rows.map Prod.fst))).imp ?_
        intro s t hst a ha b hb
        rw [mem_keepFirst, List.mem_filter, decide_eq_true_eq] at ha hb
        rw [ha.1.2, hb.1.2]; exact hst
  refine (hle.and (dedupRows_spec rows).1).imp ?_
  rintro ⟨a, x⟩ ⟨b, y⟩ ⟨h1, h2⟩ h3
  rcases lt_or_eq_of_le h1 with h | h
  · exact h
  · exact absurd (Prod.ext h h3) h2

/-- Rows in the order of time give increasing times for each event. -/
theorem fitData_dataOk (auto : Bool) (rows : List (ℤ × ε)) (h : rows.Pairwise (fun a b => a.1 ≤ b.1)) : ∃ m, fitData auto rows = .ok m ∧ DataOk m.data := by
  have hs := dedup_sorted rows h
  obtain ⟨s, e⟩ : ∃ s, s = dedupRows rows := ⟨_, rfl⟩
  unfold fitData
  simp only [← e]
  rw [← e] at hs
  cases auto with
  | false =>
    obtain ⟨d, h1, h2⟩ := ofList_dataOk s hs
    exact ⟨⟨d, 0, 1⟩, by simp [h1, Except.map], h2⟩
  | true =>
    obtain ⟨conv, n, d, u, ha, _, hd, _, hconv, _⟩ := autoscale_exact (s.map Prod.fst)
    have hd0 : 0 < d := by
      simp only [List.mem_cons, List.not_mem_nil, or_false] at hd
      omega
    have hrest : (conv.zip (s.map Prod.snd)).map (fun x => (restore n d x.1, x.2)) = s := by
      rw [show (fun x : ℤ × ε => (restore n d x.1, x.2)) = Prod.map (restore n d) id from rfl, ← List.zip_map_left, hconv]
      have : ∀ l : List (ℤ × ε), (l.map Prod.fst).zip (l.map Prod.snd) = l := by
        intro l
        induction l with
        | nil => rfl
        | cons a l ih => simp [ih]
      exact this s
    obtain ⟨b, h1, h2⟩ := ofList_dataOk (conv.zip (s.map Prod.snd)) (by
      rw [← hrest, List.pairwise_map] at hs
      refine hs.imp ?_
      intro a b hab e
      exact (autoscale_order n d hd0 a.1 b.1).1 (hab e))
    refine ⟨⟨b, n, d⟩, ?_, h2⟩
    simp only [if_true, ha, h1]
    rfl

/-- C71. For every series in the order of time, with or without time scale, and whatever the costs: mining simple cycles succeeds and the patterns generate rows of the series only; if something is found and something left over, the rows of
`reconstruct()` and `get_residuals()` are exactly the rows of the series, none twice.
The full statement has no condition on the order of the rows, nor on the presence of patterns and residuals; see `descending_diverges` and C36. -/
theorem fit_lossless_partial (rws : (ℕ × Cyc K) → ℕ → ℕ → Bool → List R) (rk : R → κ) (W : ℕ → Costs K) (one : ℕ → K) (auto : Bool) (rows : List (ℤ × ε)) (h : rows.Pairwise (fun a b => a.1 ≤ b.1)) :
    ∃ m, fitData auto rows = .ok m ∧ ∃ F, ∀ fuel, F ≤ fuel → ∃ ps, mineSimple rws rk W one fuel m.data = some ps ∧ FromData m.data.seql ps ∧
      (ps ≠ [] → SomeResidual m.data.seql ps → ∀ enum srt, Enumerates enum → Sorts srt →
        ∃ R Q, reconstructed srt m ps = some R ∧ residuals enum srt m ps = some Q ∧ (R ++ Q).Nodup ∧ ∀ r, r ∈ R ∨ r ∈ Q ↔ r ∈ rows) := by
  obtain ⟨m, hm, hd⟩ := fitData_dataOk auto rows h
  obtain ⟨m', hm', hl⟩ := lossless_partial auto rows
  rw [hm] at hm'
  obtain rfl : m = m' := by injection hm'
  refine ⟨m, hm, (m.data.seqd.map (fun e => e.2.length)).sum + 2, ?_⟩
  intro fuel hF
  obtain ⟨_, _, ps, _, h1, _, _, _, _, _, _, _, h2⟩ := mineSimple_ok rws rk W one fuel m.data hd (by
    intro k
    unfold getSequence
    cases hlk : m.data.seqd.lookup k with
    | none => simp; omega
    | some ts =>
      have := List.le_sum_of_mem (List.mem_map.2 ⟨(k, ts), lookup_mem' hlk, rfl⟩ : ts.length ∈ m.data.seqd.map (fun e => e.2.length))
      rw [Option.getD_some]
      omega)
  exact ⟨ps, h1, h2, fun hp hr enum srt he hs => hl ps h2 hp hr enum srt he hs⟩

/-! ### A series in decreasing order of time -/

/-- Once in it, the loop over `seen_ps` does not end. -/
theorem seenLoop_stuck (f : ℕ) : ∀ seen : List ℤ, seen[2]? = some (-2) → Fold.seenLoop (-4) (-4) f seen 2 = none := by
  induction f with
  | zero => intro _ _; rfl
  | succ f ih =>
    intro seen h
    rw [Fold.seenLoop]
    rw [if_pos (by decide)]
    change (match seen[2]? with | none => _ | some v => _) = none
    rw [h]
    simp only
    rw [if_pos (by decide)]
    refine ih _ ?_
    rw [List.getElem?_append_left (by by_contra hc; rw [List.getElem?_eq_none (by omega)] at h; cases h)]
    exact h

theorem foldlM_none {β σ : Type} (f : σ → β → Option σ) (x : β) (h : ∀ s, f s x = none) : ∀ (l : List β) (s : σ), x ∈ l → l.foldlM f s = none := by
  intro l
  induction l with
  | nil => intro s hx; cases hx
  | cons a l ih =>
    intro s hx
    rw [List.foldlM_cons]
    rcases List.mem_cons.1 hx with rfl | hx
    · rw [h]; rfl
    · cases f s a with
      | none => rfl
      | some t => exact ih t hx

/-- Nine occurrences, equally spaced, the last one first: the search of chains never ends. -/
theorem fold_descending (P : Fold.Par) (h0 : P.small 0 = true) (hm : P.maxP = none) (fuel : ℕ) : Fold.extractFold P fuel [8, 7, 6, 5, 4, 3, 2, 1, 0] = none := by
  have hc : Fold.centers P fuel [8, 7, 6, 5, 4, 3, 2, 1, 0] = none := by
    unfold Fold.centers
    rw [foldlM_none _ 4 ?_ _ _ (by decide)]
    · rfl
    intro s
    have ha : Fold.aft P [8, 7, 6, 5, 4, 3, 2, 1, 0] 4 = [-1, -2, -3, -4] := by unfold Fold.aft; rw [hm]; rfl
    have hb : Fold.bef P [8, 7, 6, 5, 4, 3, 2, 1, 0] 4 = [1, 2, 3, 4] := by unfold Fold.bef; rw [hm]; rfl
    unfold Fold.center
    rw [ha, hb]
    rcases fuel with _ | _ | _ | _ | _ | _ | _ | f <;> simp [Fold.scan, Fold.seenLoop, Fold.closer, h0]
    rw [seenLoop_stuck _ _ rfl]
  rw [Fold.extractFold, Fold.foldWith, if_pos (by decide), Fold.foldSub, hc]
  rfl

/-- C71, negative: a series of nine equally spaced occurrences of one event, given from the last to the first. Whatever the costs, mining does not end, for any bound on the number of turns (the times need not be increasing:
`fit` sorts them only if some time occurs twice). -/
theorem descending_diverges (rws : (ℕ × Cyc K) → ℕ → ℕ → Bool → List R) (rk : R → κ) (W : ℕ → Costs K) (one : ℕ → K) (h0 : ∀ a, (W a).par.small 0 = true) (hm : ∀ a, (W a).par.maxP = none) (auto : Bool) :
    ∃ m, fitData auto ([8, 7, 6, 5, 4, 3, 2, 1, 0].map (fun t : ℤ => (t, 7))) = .ok m ∧ ∀ fuel, mineSimple rws rk W one fuel m.data = none := by
  have h : ((fitData auto ([8, 7, 6, 5, 4, 3, 2, 1, 0].map (fun t : ℤ => (t, 7)))).toOption.map (fun m => (m.data.listEv, getSequence m.data 0))) = some ([7], [8, 7, 6, 5, 4, 3, 2, 1, 0]) := by
    cases auto <;> decide +kernel
  cases hf : fitData auto ([8, 7, 6, 5, 4, 3, 2, 1, 0].map (fun t : ℤ => (t, 7))) with
  | error e => rw [hf] at h; cases h
  | ok m =>
    rw [hf] at h
    simp only [Except.toOption, Option.map_some, Option.some.injEq, Prod.mk.injEq] at h
    obtain ⟨h1, h2⟩ := h
    refine ⟨m, rfl, ?_⟩
    intro fuel
    have hmerge : mergedAlpha (W 0) fuel [8, 7, 6, 5, 4, 3, 2, 1, 0] = none := by
      obtain ⟨cycles, residual, c1, c2, -⟩ := Cycles.cycles_partition (W 0).cyc (W 0).res [8, 7, 6, 5, 4, 3, 2, 1, 0] (by decide)
      have hdrop : dropOccs cycles = [] := by
        unfold dropOccs
        rw [List.flatMap_eq_nil_iff]
        intro c hc
        have := (c2 c hc).1.length_le
        rw [if_neg]
        simp only [List.length_cons, List.length_nil] at this
        omega
      unfold mergedAlpha
      rw [c1, Option.bind_some, tmpOccs, hdrop, if_neg (by simp), fold_descending _ (h0 0) (hm 0)]
      rfl
    unfold mineSimple
    rw [h1]
    change (Option.bind (Option.bind (poolLoop rws rk W fuel m.data CandPool.empty 0) _) _) = none
    rw [poolLoop, mineAlpha, h2, hmerge]
    rfl

/-- Costs for the example: five for one cycle, thirty for the others, four for an occurrence on its own. -/
def exCosts : Costs ℚ := ⟨fun l => if l = [2, 4, 6, 8] then 5 else 30, 4, fun e _ => 6 + e, ⟨fun e => decide (e < 2), fun _ _ => true, fun _ => true, none⟩⟩

/-- The initial candidates of five occurrences: the four equidistant ones. -/
example : (mineAlpha exCosts 20 0 [2, 4, 6, 8, 30]).map (fun l => l.map (fun c => (c.occs, c.p))) = some [([2, 4, 6, 8], 2)] := by decide +kernel

example : ([2, 4, 6, 8, 30] : List ℤ).Pairwise (· < ·) ∧ ([2, 4, 6, 8, 30] : List ℤ).length + 2 ≤ 20 := by decide

/-- A whole run on two events: one pattern found, and a residual. -/
example : ((fitData false ([(1, 9), (2, 7), (4, 7), (6, 7), (8, 7), (30, 7)] : List (ℤ × ℕ))).toOption.bind (fun m => (mineSimple (fun _ _ _ _ => []) (id : ℕ → ℕ) (fun _ => exCosts) (fun _ => 4) 20 m.data).map
    (fun ps => (occLists ps, m.data.seql)))) = some (some [[(2, 0), (4, 0), (6, 0), (8, 0)]], [(1, 1), (2, 0), (4, 0), (6, 0), (8, 0), (30, 0)]) := by decide +kernel

/-- The series in increasing order meets the hypothesis of `fit_lossless_partial`; two events interleaved. -/
example : ([(0, 1), (1, 2), (5, 1), (5, 2), (10, 1), (30, 2)] : List (ℤ × ℕ)).Pairwise (fun a b => a.1 ≤ b.1) := by decide

end Verif.Mine
