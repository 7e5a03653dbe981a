import Verif.Mine.Period
import Verif.Mine.Merge
import Verif.Mine.TopK
import Verif.Fold.Props
import Verif.Nest.FoldProps
import Verif.Cycles.Props

/-!
# The initial candidates of one event (C70)
-/

set_option autoImplicit false
set_option linter.unusedSectionVars false

namespace Verif.Mine

variable {K : Type} [Field K] [LinearOrder K] [IsStrictOrderedRing K]

/-- A cycle made of at least three of the given occurrences, in order, with the period of its occurrences. -/
def Good (occs : List ℤ) (c : Cyc K) : Prop := c.occs.Sublist occs ∧ 3 ≤ c.occs.length ∧ computePeriod c.occs = some c.p

theorem fold_any (P : Fold.Par) (fuel : ℕ) (tmp : List ℤ) (hs : tmp.Pairwise (· < ·)) (hf : tmp.length + 2 ≤ fuel) :
    ∃ r, Fold.extractFold P fuel tmp = some r ∧ (∀ c ∈ r.1, c.1.Sublist tmp ∧ 4 ≤ c.1.length) ∧
      ∀ t ∈ r.2, ∃ O, t.2.2.mapM (fun k => tmp[k]?) = some O ∧ O.Sublist tmp ∧ O.length = 3 := by
  have trip : ∀ a b c x y z, Fold.Near P.small P.maxP tmp a b c → tmp[a]? = some x → tmp[b]? = some y → tmp[c]? = some z →
      ∃ O, [a, b, c].mapM (fun k => tmp[k]?) = some O ∧ O.Sublist tmp ∧ O.length = 3 := by
    intro a b c x y z hn hx hy hz
    refine ⟨[x, y, z], by simp [hx, hy, hz], ?_, rfl⟩
    have := Nest.sublist_of_positions (l := tmp) (pos := [a, b, c]) (vals := [x, y, z]) (n := 0) (by simp [hn.1, hn.2.1]; exact hn.1.trans hn.2.1) (by simp) (by simp [hx, hy, hz])
    simpa using this
  by_cases h : tmp.length < 2000
  · obtain ⟨chains, triples, e, h1, h2⟩ := Fold.fold_sound P fuel tmp hs h hf
    refine ⟨(chains, triples), e, ?_, ?_⟩
    · intro c hc
      obtain ⟨k1, k2, k3, -⟩ := h1 c hc
      have := Nest.sublist_of_positions (l := tmp) (n := 0) k2 (by simp) k3
      have hl := congrArg List.length k3
      simp only [List.length_map] at hl
      exact ⟨by simpa using this, by omega⟩
    · intro t ht
      obtain ⟨a, b, c, x, y, z, e1, hn, hx, hy, hz, -⟩ := h2 t ht
      rw [e1]
      exact trip a b c x y z hn hx hy hz
  · obtain ⟨parts, e, -, hb⟩ := Fold.fold_blocks_partial P fuel tmp hs (by omega) (by omega)
    refine ⟨_, e, ?_, ?_⟩
    · intro c hc
      obtain ⟨x, hx, hc⟩ := List.mem_flatMap.1 hc
      obtain ⟨j, hj⟩ := List.mem_iff_getElem?.1 hx
      obtain ⟨k1, k2, -, k4, -⟩ := (hb j x hj).1 c hc
      have hl := congrArg List.length k4
      simp only [List.length_map] at hl
      refine ⟨?_, by omega⟩
      have := Nest.sublist_of_positions (l := tmp) (n := 0) (pos := c.2.map (fun k => j * 1500 + k)) (by
        rw [List.pairwise_map]; exact k2.imp (fun h => by omega)) (by simp) (by rw [k4, List.map_map]; rfl)
      simpa using this
    · intro t ht
      obtain ⟨x, hx, ht⟩ := List.mem_flatMap.1 ht
      obtain ⟨j, hj⟩ := List.mem_iff_getElem?.1 hx
      obtain ⟨a, b, c, x, y, z, e1, hn, -, hx, hy, hz, -⟩ := (hb j x hj).2 t ht
      rw [e1]
      exact trip a b c x y z hn hx hy hz

/-- What is left of the occurrences is still increasing. -/
theorem tmpOccs_spec (occs : List ℤ) (dyn : List (List ℤ)) (hs : occs.Pairwise (· < ·)) : (tmpOccs occs dyn).Sublist occs := by
  unfold tmpOccs
  split
  · have hn : occs.Nodup := hs.imp (fun h => ne_of_lt h)
    rw [List.Nodup.dedup hn]
    have hsort : (occs.filter (fun o => decide (o ∉ dropOccs dyn))).Pairwise (· ≤ ·) := (hs.imp (fun h => h.le)).filter _
    rw [hsort.insertionSort_eq]
    exact List.filter_sublist
  · exact List.Sublist.refl _

theorem period_some (O : List ℤ) (h : 2 ≤ O.length) : ∃ p, computePeriod O = some p := by
  obtain ⟨p, hp, -⟩ := computePeriod_optimal O h
  exact ⟨p, hp⟩

theorem withPeriod_all (cost : List ℤ → K) (occs : List ℤ) (l : List (List ℤ)) (h : ∀ O ∈ l, O.Sublist occs ∧ 3 ≤ O.length) :
    ∃ cs : List (Cyc K), l.mapM (withPeriod cost) = some cs ∧ (∀ c ∈ cs, Good occs c ∧ c.cost = cost c.occs) ∧ cs.map Cyc.occs = l := by
  induction l with
  | nil => exact ⟨[], rfl, by simp, rfl⟩
  | cons O l ih =>
    obtain ⟨cs, e, h1, h2⟩ := ih (fun x hx => h x (List.mem_cons_of_mem _ hx))
    obtain ⟨hO1, hO2⟩ := h O List.mem_cons_self
    obtain ⟨p, hp⟩ := period_some O (by omega)
    refine ⟨⟨O, p, cost O⟩ :: cs, by simp [withPeriod, hp, e], ?_, by simp [h2]⟩
    intro c hc
    rcases List.mem_cons.1 hc with rfl | hc
    · exact ⟨⟨hO1, hO2, hp⟩, rfl⟩
    · exact h1 c hc

theorem tripleCyc_all (trip : ℤ → ℤ → K) (tmp occs : List ℤ) (hsub : tmp.Sublist occs) (l : List Fold.Triple)
    (h : ∀ t ∈ l, ∃ O, t.2.2.mapM (fun k => tmp[k]?) = some O ∧ O.Sublist tmp ∧ O.length = 3) :
    ∃ cs : List (Cyc K), l.mapM (tripleCyc trip tmp) = some cs ∧ ∀ c ∈ cs, Good occs c := by
  induction l with
  | nil => exact ⟨[], rfl, by simp⟩
  | cons t l ih =>
    obtain ⟨cs, e, h1⟩ := ih (fun x hx => h x (List.mem_cons_of_mem _ hx))
    obtain ⟨O, hO, hO1, hO2⟩ := h t List.mem_cons_self
    obtain ⟨p, hp⟩ := period_some O (by omega)
    refine ⟨⟨O, p, trip t.1 t.2.1⟩ :: cs, by simp [tripleCyc, hO, hp, e], ?_⟩
    intro c hc
    rcases List.mem_cons.1 hc with rfl | hc
    · exact ⟨hO1.trans hsub, by simp [hO2], hp⟩
    · exact h1 c hc

/-- The cycles before the final selection. -/
theorem mergedAlpha_ok (W : Costs K) (fuel : ℕ) (occs : List ℤ) (hs : occs.Pairwise (· < ·)) (hf : occs.length + 2 ≤ fuel) :
    ∃ cycles dyn residual, mergedAlpha W fuel occs = some cycles ∧ Cycles.computeCycles W.cyc W.res occs = some (dyn, residual) ∧ (∀ c ∈ cycles, Good occs c) ∧ cycles.Pairwise (fun a b => ¬ Same a b) ∧
      ∀ O ∈ dyn, ∃ c ∈ cycles, c.occs.head? = O.head? ∧ c.occs.length = O.length ∧ some c.p = computePeriod O ∧ c.cost ≤ W.cyc O := by
  have hn : occs.Nodup := hs.imp (fun h => ne_of_lt h)
  obtain ⟨dyn, residual, hd, hd1, -, -⟩ := Cycles.cycles_partition W.cyc W.res occs hn
  obtain ⟨tmp, htmp⟩ : ∃ tmp, tmp = tmpOccs occs dyn := ⟨_, rfl⟩
  have hsub : tmp.Sublist occs := by rw [htmp]; exact tmpOccs_spec occs dyn hs
  have hl := hsub.length_le
  obtain ⟨r, hr, hr1, hr2⟩ := fold_any W.par fuel tmp (hs.sublist hsub) (by omega)
  obtain ⟨cd, ed, gd, od⟩ := withPeriod_all W.cyc occs dyn (fun O hO => ⟨(hd1 O hO).1.sublist, (hd1 O hO).2⟩)
  obtain ⟨cc, ec, gc, -⟩ := withPeriod_all W.cyc occs (r.1.map Prod.fst) (by
    intro O hO
    obtain ⟨c, hc, rfl⟩ := List.mem_map.1 hO
    obtain ⟨h1, h2⟩ := hr1 c hc
    exact ⟨h1.trans hsub, by omega⟩)
  obtain ⟨ct, et, gt⟩ := tripleCyc_all W.trip tmp occs hsub r.2 hr2
  have good : ∀ c ∈ ([cd, cc, ct] : List (List (Cyc K))).flatten, Good occs c := by
    intro c hc
    simp only [List.flatten_cons, List.flatten_nil, List.append_nil, List.mem_append] at hc
    rcases hc with hc | hc | hc
    · exact (gd c hc).1
    · exact (gc c hc).1
    · exact gt c hc
  obtain ⟨out, h1, h2, h3, h4, -⟩ := merge_cheapest [cd, cc, ct] (by
    intro l hl c hc e
    have := (good c (List.mem_flatten.2 ⟨l, hl, hc⟩)).2.1
    rw [e] at this
    simp at this)
  refine ⟨out, dyn, residual, ?_, hd, fun c hc => good c (h2 c hc), h3, ?_⟩
  · unfold mergedAlpha
    rw [hd, Option.bind_some]
    simp only
    rw [← htmp, hr, Option.bind_some, ed, ec, et]
    exact h1
  · intro O hO
    rw [← od] at hO
    obtain ⟨c, hc, rfl⟩ := List.mem_map.1 hO
    obtain ⟨c', hc', ⟨s1, s2, s3⟩, hle⟩ := h4 c (by simp [hc])
    obtain ⟨⟨_, _, hp⟩, hcost⟩ := gd c hc
    exact ⟨c', hc', s1, s2, by rw [s3, hp], by rw [← hcost]; exact hle⟩

theorem count_map_inj {β γ : Type} [DecidableEq β] [DecidableEq γ] (f : β → γ) (hf : ∀ a b, f a = f b → a = b) (x : β) (l : List β) : (l.map f).count (f x) = l.count x := by
  rw [List.count, List.count, List.countP_map]
  apply List.countP_congr
  intro t _
  simp only [Function.comp, beq_iff_eq]
  exact ⟨hf t x, fun h => by rw [h]⟩

theorem selectAlpha_eq (alpha : ℕ) (cycles : List (Cyc K)) : ∃ ids : List ℕ, ids.Nodup ∧ (∀ i ∈ ids, i < cycles.length) ∧ selectAlpha alpha cycles = ids.filterMap (fun i => cycles[i]?) ∧
    ∀ x, min 6 ((cycles.flatMap Cyc.occs).count x) ≤ ((selectAlpha alpha cycles).flatMap Cyc.occs).count x := by
  obtain ⟨ratio, hr⟩ : ∃ ratio : ℕ → K, ratio = fun i => (cycles[i]?.map (fun c => c.cost / (c.occs.length : K))).getD 0 := ⟨_, rfl⟩
  obtain ⟨eo, he⟩ : ∃ eo : ℕ → List (ℤ × ℕ), eo = fun i => (cycles[i]?.map (fun c => c.occs.map (fun t => (t, alpha)))).getD [] := ⟨_, rfl⟩
  have hdef : selectAlpha alpha cycles = (topKeach ratio eo 5 cycles.length).filterMap (fun i => cycles[i]?) := by rw [selectAlpha, ← hr, ← he]
  obtain ⟨h1, h2, -⟩ := topKeach_kept ratio eo 5 cycles.length
  refine ⟨_, h1, h2, hdef, fun x => ?_⟩
  have key : ∀ ids : List ℕ, (∀ i ∈ ids, i < cycles.length) → times eo ids (x, alpha) = ((ids.filterMap (fun i => cycles[i]?)).flatMap Cyc.occs).count x := by
    intro ids
    induction ids with
    | nil => intro _; rfl
    | cons i ids ih =>
      intro h
      have hi := h i List.mem_cons_self
      rw [times, List.map_cons, List.sum_cons, List.filterMap_cons, List.getElem?_eq_getElem hi]
      simp only [List.flatMap_cons, List.count_append]
      rw [← ih (fun j hj => h j (List.mem_cons_of_mem _ hj)), he]
      simp only [List.getElem?_eq_getElem hi, Option.map_some, Option.getD_some, times]
      congr 1
      exact count_map_inj (fun t : ℤ => (t, alpha)) (fun a b h => (Prod.mk.inj h).1) x _
  have := topKeach_covers ratio eo 5 cycles.length (x, alpha)
  rw [key _ h2, key _ (by simp), ← hdef] at this
  have e : (List.range cycles.length).filterMap (fun i => cycles[i]?) = cycles := by
    apply List.ext_getElem?
    intro i
    clear this key hdef h1 h2 hr he
    induction cycles using List.reverseRecOn generalizing i with
    | nil => rfl
    | append_singleton l a ih =>
      rw [List.length_append, List.length_singleton, List.range_succ, List.filterMap_append]
      have : (List.range l.length).filterMap (fun i => (l ++ [a])[i]?) = (List.range l.length).filterMap (fun i => l[i]?) := by
        apply List.filterMap_congr
        intro j hj
        exact List.getElem?_append_left (List.mem_range.1 hj)
      rw [this, List.ext_getElem? ih]
      simp
  rw [e] at this
  exact this

/-- C70. On increasing occurrences the search of initial candidates succeeds. Every candidate is made of at least three of the occurrences, with the period of these; no two candidates agree in first occurrence, number of occurrences and period.
They are chosen among cycles in which each cycle of the dynamic programming is represented by one of the same start, number and period that is not more costly; and an occurrence is in at least six candidates, or in as many as there were cycles with it. -/
theorem mineAlpha_sound (W : Costs K) (fuel alpha : ℕ) (occs : List ℤ) (hs : occs.Pairwise (· < ·)) (hf : occs.length + 2 ≤ fuel) :
    ∃ cycles out, mergedAlpha W fuel occs = some cycles ∧ mineAlpha W fuel alpha occs = some out ∧ (∀ c ∈ out, c ∈ cycles) ∧ (∀ c ∈ cycles, Good occs c) ∧ out.Pairwise (fun a b => ¬ Same a b) ∧
      (∃ dyn residual, Cycles.computeCycles W.cyc W.res occs = some (dyn, residual) ∧
        ∀ O ∈ dyn, ∃ c ∈ cycles, c.occs.head? = O.head? ∧ c.occs.length = O.length ∧ some c.p = computePeriod O ∧ c.cost ≤ W.cyc O) ∧
      ∀ x, min 6 ((cycles.flatMap Cyc.occs).count x) ≤ (out.flatMap Cyc.occs).count x := by
  obtain ⟨cycles, dyn, residual, h1, h2, h3, h4, h5⟩ := mergedAlpha_ok W fuel occs hs hf
  obtain ⟨ids, k1, k2, k3, k4⟩ := selectAlpha_eq alpha cycles
  refine ⟨cycles, selectAlpha alpha cycles, h1, by rw [mineAlpha, h1]; rfl, ?_, h3, ?_, ⟨dyn, residual, h2, h5⟩, k4⟩
  · intro c hc
    rw [k3] at hc
    obtain ⟨i, _, hi⟩ := List.mem_filterMap.1 hc
    exact List.mem_of_getElem? hi
  · rw [k3, List.pairwise_filterMap]
    refine k1.imp ?_
    intro i j hij c hc c' hc' hsame
    obtain ⟨li, ei⟩ := List.getElem?_eq_some_iff.1 hc
    obtain ⟨lj, ej⟩ := List.getElem?_eq_some_iff.1 hc'
    rcases lt_or_gt_of_ne hij with h | h
    · exact List.pairwise_iff_getElem.1 h4 i j li lj h (by rw [ei, ej]; exact hsame)
    · exact List.pairwise_iff_getElem.1 h4 j i lj li h (by rw [ei, ej]; exact ⟨hsame.1.symm, hsame.2.1.symm, hsame.2.2.symm⟩)

end Verif.Mine
