import Verif.Miner.Simple

/-!
# Properties of reconstruction and residuals

Source: `/repo/skmine/periodic/cycles.py:97-427`.
-/

set_option autoImplicit false
set_option linter.unusedSectionVars false

namespace Verif.Miner

open Verif.PTree Verif.DataSeq

variable {ε : Type} [LinearOrder ε]

/-- The residual rows: decoded once each. -/
theorem residual_rows {enum : Finset (ℤ × ℕ) → List (ℤ × ℕ)} (he : Enumerates enum) {m : Fitted ε} {ps : List Patt} (hd : ∀ x ∈ m.data.seql, (decode m x).isSome)
    (hinj : ∀ x ∈ m.data.seql, ∀ y ∈ m.data.seql, decode m x = decode m y → x = y) {ls : List (List (ℤ × ℕ))} (hls : occLists ps = some ls) :
    ∃ u rows, uncovered m.data.seql ps = some u ∧ (∀ x, x ∈ u ↔ x ∈ m.data.seql ∧ x ∉ ls.flatten) ∧ (enum u).mapM (decode m) = some rows ∧ rows.Nodup ∧
      (∀ r, r ∈ rows ↔ ∃ x ∈ m.data.seql, x ∉ ls.flatten ∧ decode m x = some r) ∧ (rows = [] ↔ u = ∅) := by
  obtain ⟨u, hu⟩ : ∃ u, u = ls.foldl (fun s l => s \ l.toFinset) m.data.seql.toFinset := ⟨_, rfl⟩
  have hmem : ∀ x, x ∈ u ↔ x ∈ m.data.seql ∧ x ∉ ls.flatten := by
    intro x; rw [hu, foldl_sdiff, List.mem_toFinset]
  obtain ⟨rows, hrows⟩ := mapM_exists (decode m) (enum u) (fun x hx => hd x ((hmem x).mp (((he u).2 x).mp hx)).1)
  refine ⟨u, rows, by rw [uncovered, hls, hu]; rfl, hmem, hrows, ?_, ?_, ?_⟩
  · have h1 := (mapM_iff _ _ _).mp hrows
    have h2 : ((enum u).map (decode m)).Nodup := by
      refine List.Nodup.map_on ?_ (he u).1
      intro x hx y hy h
      exact hinj x ((hmem x).mp (((he u).2 x).mp hx)).1 y ((hmem y).mp (((he u).2 y).mp hy)).1 h
    rw [h1] at h2
    exact List.Nodup.of_map _ h2
  · intro r
    rw [mem_mapM hrows r]
    constructor
    · rintro ⟨x, hx, h⟩
      obtain ⟨h1, h2⟩ := (hmem x).mp (((he u).2 x).mp hx)
      exact ⟨x, h1, h2, h⟩
    · rintro ⟨x, h1, h2, h⟩
      exact ⟨x, ((he u).2 x).mpr ((hmem x).mpr ⟨h1, h2⟩), h⟩
  · have hlen : rows.length = (enum u).length := by
      have := congrArg List.length ((mapM_iff _ _ _).mp hrows)
      simpa using this.symm
    constructor
    · intro h0
      rw [h0] at hlen
      have : enum u = [] := List.eq_nil_of_length_eq_zero hlen.symm
      rw [Finset.eq_empty_iff_forall_notMem]
      intro x hx
      have := ((he u).2 x).mpr hx
      simp_all
    · intro h0
      have : enum u = [] := by
        rw [List.eq_nil_iff_forall_not_mem]
        intro x hx
        have := ((he u).2 x).mp hx
        rw [h0] at this
        simp at this
      rw [this] at hlen
      exact List.eq_nil_of_length_eq_zero hlen

/-- C36, on the occurrences themselves: the occurrences generated by the patterns and the uncovered ones are disjoint and together are exactly the occurrences of the data. -/
theorem cover_and_uncovered (seql : List (ℤ × ℕ)) (ps : List Patt) (hf : FromData seql ps) :
    ∃ ls u, occLists ps = some ls ∧ uncovered seql ps = some u ∧ (∀ x, x ∈ seql ↔ x ∈ ls.flatten ∨ x ∈ u) ∧ ∀ x ∈ u, x ∉ ls.flatten := by
  obtain ⟨ls, hls, _, _, hin, _⟩ := occLists_ok hf
  refine ⟨ls, _, hls, by rw [uncovered, hls]; rfl, ?_, ?_⟩
  · intro x
    rw [foldl_sdiff, List.mem_toFinset]
    constructor
    · intro h
      by_cases hx : x ∈ ls.flatten
      · exact Or.inl hx
      · exact Or.inr ⟨h, hx⟩
    · rintro (h | h)
      · exact hin x h
      · exact h.1
  · intro x hx
    rw [foldl_sdiff] at hx
    exact hx.2

/-- C36: for every series, with or without time scale, and every non-empty list of patterns generating occurrences of the data with something left over: `reconstruct()` and `get_residuals()` succeed, no row appears
twice in them together, and their rows are exactly the rows of the series.
The full statement has no condition on the presence of patterns and residuals; see `full_cover_error` and `no_pattern_error`. -/
theorem lossless_partial (auto : Bool) (rows : List (ℤ × ε)) :
    ∃ m, fitData auto rows = .ok m ∧ ∀ (ps : List Patt), FromData m.data.seql ps → ps ≠ [] → SomeResidual m.data.seql ps →
      ∀ enum srt, Enumerates enum → Sorts srt →
        ∃ R Q, reconstructed srt m ps = some R ∧ residuals enum srt m ps = some Q ∧ (R ++ Q).Nodup ∧ ∀ r, r ∈ R ∨ r ∈ Q ↔ r ∈ rows := by
  obtain ⟨m, hm, _, hd, hinj, hrows⟩ := fitData_ok auto rows
  refine ⟨m, hm, ?_⟩
  intro ps hf hps hres enum srt he hs
  obtain ⟨ls, hls, hlen, _, hin, _⟩ := occLists_ok hf
  obtain ⟨u, rs, hu, hum, hdec, hnd, hmem, hnil⟩ := residual_rows he hd hinj hls
  have hne : rs ≠ [] := by
    rw [Ne, hnil]
    intro h0
    obtain ⟨x, hx, hno⟩ := hres
    have : x ∈ u := by
      rw [hum]
      refine ⟨hx, ?_⟩
      intro hxl
      obtain ⟨l, hl, hxl⟩ := List.mem_flatten.mp hxl
      obtain ⟨q, hq, hqe⟩ := (mem_mapM hls l).mp hl
      exact hno q hq l hqe hxl
    rw [h0] at this
    simp at this
  obtain ⟨rr, hrr, hrrne, hrec⟩ := reconstruct_ok srt m ps hf hd ls hls (List.range ps.length) (by simp) (by simpa using hps)
  rw [← hlen, range_flatMap_get] at hrr
  refine ⟨_, rs, by rw [reconstructed, hrec]; rfl, ?_, ?_, ?_⟩
  · unfold residuals getResiduals
    rw [hu, Option.bind_some, hdec, Option.bind_some, if_neg hne, hrec, Option.bind_some, Option.map_some, keptBy_self _ (labels_nodup hs rr)]
    simp
  · rw [List.nodup_append]
    refine ⟨nodup_dropDup _ _, hnd, ?_⟩
    intro a ha b hb hab
    subst hab
    rw [mem_dropDup, ((hs _).map Prod.snd).mem_iff, rows_zipIdx] at ha
    obtain ⟨x, hx, hxa⟩ := (mem_mapM hrr a).mp ha.1
    obtain ⟨y, hy, hyn, hya⟩ := (hmem a).mp hb
    have := hinj x (hin x hx) y hy (by rw [hxa, hya])
    rw [this] at hx
    exact hyn hx
  · intro r
    rw [mem_dropDup, ((hs _).map Prod.snd).mem_iff, rows_zipIdx, mem_mapM hrr r, hmem, hrows]
    constructor
    · rintro (⟨⟨x, hx, h⟩, _⟩ | ⟨x, hx, _, h⟩)
      · exact ⟨x, hin x hx, h⟩
      · exact ⟨x, hx, h⟩
    · rintro ⟨x, hx, h⟩
      by_cases hxl : x ∈ ls.flatten
      · exact Or.inl ⟨⟨x, hxl, h⟩, by simp⟩
      · exact Or.inr ⟨x, hx, hxl, h⟩

/-- C36 fails when the patterns cover everything: whatever the series, `get_residuals()` then raises `KeyError` instead of returning no residual. -/
theorem full_cover_error (auto : Bool) (rows : List (ℤ × ε)) :
    ∃ m, fitData auto rows = .ok m ∧ ∀ (ps : List Patt), FromData m.data.seql ps → ¬ SomeResidual m.data.seql ps → ∀ enum srt, Enumerates enum → residuals enum srt m ps = none := by
  obtain ⟨m, hm, _, hd, hinj, _⟩ := fitData_ok auto rows
  refine ⟨m, hm, ?_⟩
  intro ps hf hres enum srt he
  obtain ⟨ls, hls, _⟩ := occLists_ok hf
  obtain ⟨u, rs, hu, hum, hdec, _, _, hnil⟩ := residual_rows he hd hinj hls
  have h0 : rs = [] := by
    rw [hnil, Finset.eq_empty_iff_forall_notMem]
    intro x hx
    obtain ⟨h1, h2⟩ := (hum x).mp hx
    apply hres
    refine ⟨x, h1, ?_⟩
    intro q hq cov hc hxc
    exact h2 (List.mem_flatten.mpr ⟨cov, (mem_mapM hls cov).mpr ⟨q, hq, hc⟩, hxc⟩)
  unfold residuals getResiduals
  rw [hu, Option.bind_some, hdec, Option.bind_some, if_pos h0]

/-- C36 fails when no pattern is selected: `reconstruct()` and `get_residuals()` raise `KeyError`. -/
theorem no_pattern_error (m : Fitted ε) (enum : Finset (ℤ × ℕ) → List (ℤ × ℕ)) (srt : Frame ε → Frame ε) :
    reconstructed srt m [] = none ∧ residuals enum srt m [] = none := by
  have hrec : reconstruct srt m [] [] = none := by simp [reconstruct]
  refine ⟨by simp [reconstructed, hrec], ?_⟩
  unfold residuals getResiduals
  rw [List.length_nil, List.range_zero, hrec]
  cases uncovered m.data.seql [] with
  | none => rfl
  | some u =>
    rw [Option.bind_some]
    cases (enum u).mapM (decode m) with
    | none => rfl
    | some r =>
      rw [Option.bind_some]
      split <;> rfl

/-- C36: patterns made of simple cycles generate exactly the occurrences of the cycles, so if the cycles consist of data occurrences the patterns come from the data. -/
theorem simple_from_data (seql : List (ℤ × ℕ)) (cycles : List (ℕ × List ℤ × ℤ)) (hne : ∀ c ∈ cycles, c.2.1 ≠ []) (hin : ∀ c ∈ cycles, ∀ t ∈ c.2.1, (t, c.1) ∈ seql) :
    ∃ ps, cycles.mapM (fun c => simplePatt c.1 c.2.1 c.2.2) = some ps ∧ FromData seql ps ∧
      occLists ps = some (cycles.map (fun c => c.2.1.map (fun t => (t, c.1)))) := by
  obtain ⟨ps, hps⟩ := mapM_exists (fun c : ℕ × List ℤ × ℤ => simplePatt c.1 c.2.1 c.2.2) cycles (by
    intro c hc
    obtain ⟨q, hq, _⟩ := simple_covers c.1 c.2.1 (hne c hc) c.2.2
    rw [hq]; rfl)
  refine ⟨ps, hps, ?_, ?_⟩
  · intro q hq
    obtain ⟨c, hc, he⟩ := (mem_mapM hps q).mp hq
    obtain ⟨q', hq', hcov⟩ := simple_covers c.1 c.2.1 (hne c hc) c.2.2
    rw [hq'] at he
    obtain rfl := Option.some.inj he
    refine ⟨_, hcov, by simpa using hne c hc, ?_⟩
    intro x hx
    obtain ⟨t, ht, rfl⟩ := List.mem_map.mp hx
    exact hin c hc t ht
  · unfold occLists
    have hmap := (mapM_iff _ _ _).mp hps
    rw [mapM_iff, List.map_map]
    have h1 : ps.map (fun q : Patt => getCovSeq q.1 q.2.1 q.2.2) = (ps.map some).map (fun o : Option Patt => o.bind (fun q => getCovSeq q.1 q.2.1 q.2.2)) := by
      rw [List.map_map]; rfl
    rw [h1, ← hmap, List.map_map]
    apply List.map_congr_left
    intro c hc
    obtain ⟨q', hq', hcov⟩ := simple_covers c.1 c.2.1 (hne c hc) c.2.2
    simp [hq', hcov]

/-! ## Residuals of chosen patterns (C60) -/

theorem lookup_none {β γ : Type} [BEq β] [LawfulBEq β] (l : List (β × γ)) (b : β) (h : b ∉ l.map Prod.fst) : l.lookup b = none := by
  induction l with
  | nil => rfl
  | cons x l ih =>
    rw [List.map_cons, List.mem_cons, not_or] at h
    rw [List.lookup_cons]
    have : (b == x.1) = false := by simpa using h.1
    rw [this]
    exact ih h.2

/-- C60: when the chosen patterns are the first `k` ones and no occurrence is generated twice, `get_residuals(ids)` returns exactly the rows of the series which are not generated by the chosen patterns, once each.
The full statement is for any choice of patterns; see `residuals_ids_wrong` and `residuals_ids_missing`. -/
theorem residuals_ids_partial (auto : Bool) (rows : List (ℤ × ε)) :
    ∃ m, fitData auto rows = .ok m ∧ ∀ (ps : List Patt), FromData m.data.seql ps → SomeResidual m.data.seql ps → ∀ ls, occLists ps = some ls → ls.flatten.Nodup →
      ∀ k, 1 ≤ k → k ≤ ps.length → ∀ enum srt, Enumerates enum → Sorts srt →
        ∃ Q, getResiduals enum srt m ps (List.range k) = some Q ∧ Q.Nodup ∧ ∀ r, r ∈ Q ↔ r ∈ rows ∧ ∀ x ∈ (ls.take k).flatten, decode m x ≠ some r := by
  obtain ⟨m, hm, _, hd, hinj, hrows⟩ := fitData_ok auto rows
  refine ⟨m, hm, ?_⟩
  intro ps hf hres ls hls hdist k hk1 hk2 enum srt he hs
  obtain ⟨ls', hls', hlen, _, hin, _⟩ := occLists_ok hf
  rw [hls] at hls'
  obtain rfl := Option.some.inj hls'
  obtain ⟨u, rs, hu, hum, hdec, hnd, hmem, hnil⟩ := residual_rows he hd hinj hls
  have hne : rs ≠ [] := by
    rw [Ne, hnil]
    intro h0
    obtain ⟨x, hx, hno⟩ := hres
    have : x ∈ u := by
      rw [hum]
      refine ⟨hx, ?_⟩
      intro hxl
      obtain ⟨l, hl, hxl⟩ := List.mem_flatten.mp hxl
      obtain ⟨q, hq, hqe⟩ := (mem_mapM hls l).mp hl
      exact hno q hq l hqe hxl
    rw [h0] at this
    simp at this
  have hps : ps ≠ [] := by rintro rfl; simp at hk2; omega
  obtain ⟨ra, hra, _, hreca⟩ := reconstruct_ok srt m ps hf hd ls hls (List.range ps.length) (by simp) (by simpa using hps)
  rw [← hlen, range_flatMap_get] at hra
  obtain ⟨rk, hrk, _, hreck⟩ := reconstruct_ok srt m ps hf hd ls hls (List.range k) (by intro i hi; rw [List.mem_range] at hi; omega) (by simp; omega)
  have htake : (List.range k).flatMap (fun i => (ls[i]?).getD []) = (ls.take k).flatten := by
    rw [← range_flatMap_get (ls.take k)]
    have : (ls.take k).length = k := by rw [List.length_take]; omega
    rw [this]
    apply List.flatMap_congr
    intro i hi
    rw [List.mem_range] at hi
    rw [List.getElem?_take, if_pos hi]
  rw [htake] at hrk
  -- the rows of the first patterns are a prefix
  have hmapa := (mapM_iff _ _ _).mp hra
  have hmapk := (mapM_iff _ _ _).mp hrk
  have hsplit : ls.flatten = (ls.take k).flatten ++ (ls.drop k).flatten := by
    rw [← List.flatten_append, List.take_append_drop]
  obtain ⟨rd, hrd⟩ := mapM_exists (decode m) (ls.drop k).flatten (fun x hx => hd x (hin x (by rw [hsplit]; simp [hx])))
  have hmapd := (mapM_iff _ _ _).mp hrd
  have hcat : ra = rk ++ rd := by
    rw [hsplit, List.map_append, hmapk, hmapd, ← List.map_append] at hmapa
    exact (List.map_injective_iff.mpr (Option.some_injective _) hmapa).symm
  have hrand : ra.Nodup := by
    have : (ls.flatten.map (decode m)).Nodup := List.Nodup.map_on (fun x hx y hy h => hinj x (hin x hx) y (hin y hy) h) hdist
    rw [hmapa] at this
    exact List.Nodup.of_map _ this
  have hida : dropDup [] (srt (ra.zipIdx.map Prod.swap)) = srt (ra.zipIdx.map Prod.swap) := by
    apply dropDup_id
    · rw [((hs _).map Prod.snd).nodup_iff, rows_zipIdx]; exact hrand
    · simp
  have hrknd : rk.Nodup := by rw [hcat] at hrand; exact (List.nodup_append.mp hrand).1
  have hidk : dropDup [] (srt (rk.zipIdx.map Prod.swap)) = srt (rk.zipIdx.map Prod.swap) := by
    apply dropDup_id
    · rw [((hs _).map Prod.snd).nodup_iff, rows_zipIdx]; exact hrknd
    · simp
  rw [hida] at hreca
  rw [hidk] at hreck
  have hlabk : ((srt (rk.zipIdx.map Prod.swap)).map Prod.fst).Nodup := by
    rw [((hs _).map Prod.fst).nodup_iff, labels_zipIdx]; exact List.nodup_range'
  -- a row is kept iff it belongs to the other patterns
  have hkeep : ∀ a ∈ ra.zipIdx.map Prod.swap, keptBy (srt (rk.zipIdx.map Prod.swap)) a = decide (rk.length ≤ a.1) := by
    intro a ha
    obtain ⟨⟨r, i⟩, hri, rfl⟩ := List.mem_map.mp ha
    rw [List.mem_zipIdx_iff_getElem?] at hri
    simp only [Prod.swap_prod_mk]
    by_cases hi : i < rk.length
    · have : rk[i]? = some r := by
        rw [hcat, List.getElem?_append_left hi] at hri; exact hri
      have hin2 : (i, r) ∈ srt (rk.zipIdx.map Prod.swap) := by
        rw [(hs _).mem_iff]
        exact List.mem_map.mpr ⟨(r, i), by rw [List.mem_zipIdx_iff_getElem?]; exact this, rfl⟩
      have hl : (srt (rk.zipIdx.map Prod.swap)).lookup i = some r := lookup_of_mem _ hlabk i r hin2
      simp [keptBy, hl, hi]
    · have : i ∉ (srt (rk.zipIdx.map Prod.swap)).map Prod.fst := by
        rw [((hs _).map Prod.fst).mem_iff, labels_zipIdx, List.mem_range']
        rintro ⟨j, hj, rfl⟩
        omega
      simp only [keptBy, lookup_none _ _ this]
      symm
      simpa using hi
  have hcompl : (((srt (ra.zipIdx.map Prod.swap)).filter (keptBy (srt (rk.zipIdx.map Prod.swap)))).map Prod.snd).Perm rd := by
    refine (((hs _).filter _).map _).trans ?_
    rw [List.filter_congr hkeep]
    have hz : ra.zipIdx.map Prod.swap = rk.zipIdx.map Prod.swap ++ (rd.zipIdx rk.length).map Prod.swap := by
      rw [hcat, List.zipIdx_append, List.map_append, Nat.zero_add]
    rw [hz, List.filter_append]
    have e1 : (rk.zipIdx.map Prod.swap).filter (fun a => decide (rk.length ≤ a.1)) = [] := by
      rw [List.filter_eq_nil_iff]
      intro a ha
      have : a.1 ∈ (rk.zipIdx.map Prod.swap).map Prod.fst := List.mem_map.mpr ⟨a, ha, rfl⟩
      rw [labels_zipIdx, List.mem_range'] at this
      obtain ⟨j, hj, h⟩ := this
      simp only [decide_eq_true_eq]; omega
    have e2 : ((rd.zipIdx rk.length).map Prod.swap).filter (fun a => decide (rk.length ≤ a.1)) = (rd.zipIdx rk.length).map Prod.swap := by
      rw [List.filter_eq_self]
      intro a ha
      have : a.1 ∈ ((rd.zipIdx rk.length).map Prod.swap).map Prod.fst := List.mem_map.mpr ⟨a, ha, rfl⟩
      rw [labels_zipIdx, List.mem_range'] at this
      obtain ⟨j, hj, h⟩ := this
      simp only [decide_eq_true_eq]; omega
    rw [e1, e2, List.nil_append, rows_zipIdx]
  refine ⟨_, by
    unfold getResiduals
    rw [hu, Option.bind_some, hdec, Option.bind_some, if_neg hne, hreck, Option.bind_some, hreca, Option.map_some], ?_, ?_⟩
  · rw [List.nodup_append]
    refine ⟨hnd, hcompl.nodup_iff.mpr (by rw [hcat] at hrand; exact (List.nodup_append.mp hrand).2.1), ?_⟩
    intro a ha b hb hab
    subst hab
    rw [hcompl.mem_iff, mem_mapM hrd a] at hb
    obtain ⟨x, hx, hxa⟩ := hb
    obtain ⟨y, hy, hyn, hya⟩ := (hmem a).mp ha
    have hxf : x ∈ ls.flatten := by rw [hsplit]; simp [hx]
    have := hinj x (hin x hxf) y hy (by rw [hxa, hya])
    rw [this] at hxf
    exact hyn hxf
  · intro r
    rw [List.mem_append, hcompl.mem_iff, mem_mapM hrd r, hmem, hrows]
    constructor
    · rintro (⟨x, hx, hxn, h⟩ | ⟨x, hx, h⟩)
      · refine ⟨⟨x, hx, h⟩, ?_⟩
        intro y hy hcon
        have hyf : y ∈ ls.flatten := by rw [hsplit]; simp only [List.mem_append]; exact Or.inl hy
        have := hinj x hx y (hin y hyf) (by rw [h, hcon])
        rw [← this] at hyf
        exact hxn hyf
      · have hxf : x ∈ ls.flatten := by rw [hsplit]; simp only [List.mem_append]; exact Or.inr hx
        refine ⟨⟨x, hin x hxf, h⟩, ?_⟩
        intro y hy hcon
        have hyf : y ∈ ls.flatten := by rw [hsplit]; simp only [List.mem_append]; exact Or.inl hy
        have := hinj x (hin x hxf) y (hin y hyf) (by rw [h, hcon])
        rw [hsplit, List.nodup_append] at hdist
        exact hdist.2.2 y hy x hx this.symm
    · rintro ⟨⟨x, hx, h⟩, hno⟩
      by_cases hxf : x ∈ ls.flatten
      · right
        rw [hsplit, List.mem_append] at hxf
        rcases hxf with hxf | hxf
        · exact absurd h (hno x hxf)
        · exact ⟨x, hxf, h⟩
      · left; exact ⟨x, hx, hxf, h⟩

/-! ## Concrete cases -/

/-- A stable sort by time. -/
def byTime (f : Frame ℕ) : Frame ℕ := f.insertionSort (fun a b => a.2.1 ≤ b.2.1)

theorem byTime_sorts : Sorts byTime := fun _ => List.perm_insertionSort _ _

theorem enum_singleton {enum : Finset (ℤ × ℕ) → List (ℤ × ℕ)} (he : Enumerates enum) (x : ℤ × ℕ) : enum {x} = [x] := by
  obtain ⟨h1, h2⟩ := he {x}
  have h3 : ∀ y, y ∈ enum {x} ↔ y ∈ [x] := by intro y; rw [h2]; simp
  exact List.perm_singleton.mp ((List.perm_ext_iff_of_nodup h1 (by simp)).mpr h3)

/-- Two cycles of events `5` and `7` and a last event `7`. -/
def exRows : List (ℤ × ℕ) := [(0, 5), (1, 7), (6, 7), (10, 5), (11, 7), (20, 5), (50, 7), (50, 7)]

/-- The data fitted without time scale. -/
def exFit : Fitted ℕ :=
  ⟨⟨[5, 7], [(5, 0), (7, 1)], [(0, [0, 10, 20]), (1, [1, 6, 11, 50])], [(0, 0), (1, 1), (6, 1), (10, 0), (11, 1), (20, 0), (50, 1)],
    [(0, 3), (1, 4)], [(0, 0), (1, 1)], [(0, 20), (1, 50)], 0, 50, 50⟩, 0, 1⟩

theorem exFit_ok : fitData false exRows = .ok exFit := by rfl

/-- The two cycles as patterns. -/
def exPs : List Patt := [(.node 3 10 (.cons 0 (.leaf 0) .nil), 0, [0, 0]), (.node 3 5 (.cons 0 (.leaf 1) .nil), 1, [0, 0])]

example : [(0, [0, 10, 20], 10), (1, [1, 6, 11], 5)].mapM (fun c : ℕ × List ℤ × ℤ => simplePatt c.1 c.2.1 c.2.2) = some exPs := by rfl

theorem exPs_from : FromData exFit.data.seql exPs := by
  intro q hq
  simp only [exPs, List.mem_cons, List.not_mem_nil, or_false] at hq
  rcases hq with rfl | rfl
  · exact ⟨[(0, 0), (10, 0), (20, 0)], by decide, by decide, by decide⟩
  · exact ⟨[(1, 1), (6, 1), (11, 1)], by decide, by decide, by decide⟩

theorem exPs_residual : SomeResidual exFit.data.seql exPs := by
  refine ⟨(50, 1), by decide, ?_⟩
  intro q hq cov hc
  simp only [exPs, List.mem_cons, List.not_mem_nil, or_false] at hq
  rcases hq with rfl | rfl
  · rw [show getCovSeq (PTree.Tree.node 3 10 (.cons 0 (.leaf 0) .nil)) 0 [0, 0] = some [(0, 0), (10, 0), (20, 0)] by decide] at hc
    rw [← Option.some.inj hc]; decide
  · rw [show getCovSeq (PTree.Tree.node 3 5 (.cons 0 (.leaf 1) .nil)) 1 [0, 0] = some [(1, 1), (6, 1), (11, 1)] by decide] at hc
    rw [← Option.some.inj hc]; decide

theorem exUncov : uncovered exFit.data.seql exPs = some {(50, 1)} := by decide

/-- The hypotheses of `lossless_partial` hold for the two cycles. -/
example (enum : Finset (ℤ × ℕ) → List (ℤ × ℕ)) (he : Enumerates enum) :
    ∃ R Q, reconstructed byTime exFit exPs = some R ∧ residuals enum byTime exFit exPs = some Q ∧ (R ++ Q).Nodup ∧ ∀ r, r ∈ R ∨ r ∈ Q ↔ r ∈ exRows := by
  obtain ⟨m, hm, h⟩ := lossless_partial false exRows
  rw [exFit_ok] at hm
  obtain rfl := Except.ok.inj hm
  exact h exPs exPs_from (by simp [exPs]) exPs_residual enum byTime he byTime_sorts

example : reconstructed byTime exFit exPs = some [(0, 5), (1, 7), (6, 7), (10, 5), (11, 7), (20, 5)] := by decide

/-- The first pattern alone: the complement is right (`residuals_ids_partial`). -/
example (enum : Finset (ℤ × ℕ) → List (ℤ × ℕ)) (he : Enumerates enum) :
    getResiduals enum byTime exFit exPs [0] = some [(50, 7), (1, 7), (6, 7), (11, 7)] := by
  unfold getResiduals
  rw [exUncov, Option.bind_some, enum_singleton he]
  decide

example : occLists exPs = some [[(0, 0), (10, 0), (20, 0)], [(1, 1), (6, 1), (11, 1)]] ∧ ([[(0, 0), (10, 0), (20, 0)], [(1, 1), (6, 1), (11, 1)]] : List (List (ℤ × ℕ))).flatten.Nodup := by decide

/-- C60 fails: the complement of the second pattern contains the occurrences of that pattern, because rows are compared label by label. -/
theorem residuals_ids_wrong (enum : Finset (ℤ × ℕ) → List (ℤ × ℕ)) (he : Enumerates enum) :
    reconstruct byTime exFit exPs [1] = some [(0, 1, 7), (1, 6, 7), (2, 11, 7)] ∧
    getResiduals enum byTime exFit exPs [1] = some [(50, 7), (0, 5), (1, 7), (6, 7), (10, 5), (11, 7), (20, 5)] := by
  refine ⟨by decide, ?_⟩
  unfold getResiduals
  rw [exUncov, Option.bind_some, enum_singleton he]
  decide

/-- Two cycles of the same event: labels coincide in the event column, and rows of the pattern which is not chosen disappear. -/
def exRows2 : List (ℤ × ℕ) := [(0, 5), (10, 5), (20, 5), (33, 5), (37, 5), (41, 5), (90, 5)]

/-- The fitted data. -/
def exFit2 : Fitted ℕ :=
  ⟨⟨[5], [(5, 0)], [(0, [0, 10, 20, 33, 37, 41, 90])], [(0, 0), (10, 0), (20, 0), (33, 0), (37, 0), (41, 0), (90, 0)], [(0, 7)], [(0, 0)], [(0, 90)], 0, 90, 90⟩, 0, 1⟩

/-- The two cycles. -/
def exPs2 : List Patt := [(.node 3 10 (.cons 0 (.leaf 0) .nil), 0, [0, 0]), (.node 3 4 (.cons 0 (.leaf 0) .nil), 33, [0, 0])]

/-- C60 fails the other way: the complement of the second cycle lacks the rows of the first one and has those of the second. -/
theorem residuals_ids_missing (enum : Finset (ℤ × ℕ) → List (ℤ × ℕ)) (he : Enumerates enum) :
    fitData false exRows2 = .ok exFit2 ∧ reconstruct byTime exFit2 exPs2 [1] = some [(0, 33, 5), (1, 37, 5), (2, 41, 5)] ∧
    getResiduals enum byTime exFit2 exPs2 [1] = some [(90, 5), (33, 5), (37, 5), (41, 5)] := by
  refine ⟨by rfl, by decide, ?_⟩
  unfold getResiduals
  rw [show uncovered exFit2.data.seql exPs2 = some {(90, 0)} by decide, Option.bind_some, enum_singleton he]
  decide

/-- `full_cover_error` applies to the second series without its last event. -/
example (enum : Finset (ℤ × ℕ) → List (ℤ × ℕ)) (he : Enumerates enum) : ∃ m, fitData false (exRows2.take 6) = .ok m ∧ residuals enum byTime m exPs2 = none := by
  refine ⟨⟨⟨[5], [(5, 0)], [(0, [0, 10, 20, 33, 37, 41])], [(0, 0), (10, 0), (20, 0), (33, 0), (37, 0), (41, 0)], [(0, 6)], [(0, 0)], [(0, 41)], 0, 41, 41⟩, 0, 1⟩, by rfl, ?_⟩
  unfold residuals getResiduals
  rw [show uncovered _ exPs2 = some ∅ by decide, Option.bind_some]
  have : enum ∅ = [] := by
    rw [List.eq_nil_iff_forall_not_mem]
    intro x hx
    have := ((he ∅).2 x).mp hx
    simp at this
  rw [this]
  rfl

end Verif.Miner
