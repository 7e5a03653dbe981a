import Verif.Mine.UnitProps
import Verif.Cost.Collection
import Verif.Cost.Cycle
import Verif.Complex.Size

/-!
# The recorded costs of the simple candidates (for C146)
-/

set_option autoImplicit false
set_option linter.unusedSectionVars false

namespace Verif.Mine

open Verif.DataSeq Verif.CandPool

section Field

variable {K : Type} [Field K] [LinearOrder K] [IsStrictOrderedRing K]

/-- What the cost recorded for a cycle is: that of its occurrences, or the one computed for a triple. -/
def Priced (W : Costs K) (c : Cyc K) : Prop :=
  c.cost = W.cyc c.occs ∨ ∃ x y z, c.occs = [x, y, z] ∧ W.par.small |(z - y) - (y - x)| = true ∧ c.cost = W.trip |(z - y) - (y - x)| (min (z - y) (y - x))

theorem fold_trip (P : Fold.Par) (fuel : ℕ) (tmp : List ℤ) (hs : tmp.Pairwise (· < ·)) (hf : tmp.length + 2 ≤ fuel) :
    ∃ r, Fold.extractFold P fuel tmp = some r ∧
      ∀ t ∈ r.2, ∃ x y z, t.2.2.mapM (fun k => tmp[k]?) = some [x, y, z] ∧ P.small |(z - y) - (y - x)| = true ∧ t.1 = |(z - y) - (y - x)| ∧ t.2.1 = min (z - y) (y - x) := by
  have trip : ∀ a b c x y z, Fold.Near P.small P.maxP tmp a b c → tmp[a]? = some x → tmp[b]? = some y → tmp[c]? = some z →
      [a, b, c].mapM (fun k => tmp[k]?) = some [x, y, z] ∧ P.small |(z - y) - (y - x)| = true := by
    intro a b c x y z hn hx hy hz
    obtain ⟨-, -, x', y', z', hx', hy', hz', hsm, -⟩ := hn
    rw [hx] at hx'
    rw [hy] at hy'
    rw [hz] at hz'
    cases hx'
    cases hy'
    cases hz'
    exact ⟨by simp [hx, hy, hz], hsm⟩
  by_cases h : tmp.length < 2000
  · obtain ⟨chains, triples, e, -, h2⟩ := Fold.fold_sound P fuel tmp hs h hf
    refine ⟨(chains, triples), e, ?_⟩
    intro t ht
    obtain ⟨a, b, c, x, y, z, e1, hn, hx, hy, hz, e2, e3, -⟩ := h2 t ht
    obtain ⟨k1, k2⟩ := trip a b c x y z hn hx hy hz
    exact ⟨x, y, z, by rw [e1]; exact k1, k2, e2, e3⟩
  · obtain ⟨parts, e, -, hb⟩ := Fold.fold_blocks_partial P fuel tmp hs (by omega) (by omega)
    refine ⟨_, e, ?_⟩
    intro t ht
    obtain ⟨x, hx, ht⟩ := List.mem_flatMap.1 ht
    obtain ⟨j, hj⟩ := List.mem_iff_getElem?.1 hx
    obtain ⟨a, b, c, x, y, z, e1, hn, -, hx, hy, hz, e2, e3, -⟩ := (hb j x hj).2 t ht
    obtain ⟨k1, k2⟩ := trip a b c x y z hn hx hy hz
    exact ⟨x, y, z, by rw [e1]; exact k1, k2, e2, e3⟩

theorem tripleCyc_priced (W : Costs K) (tmp : List ℤ) (l : List Fold.Triple)
    (h : ∀ t ∈ l, ∃ x y z, t.2.2.mapM (fun k => tmp[k]?) = some [x, y, z] ∧ W.par.small |(z - y) - (y - x)| = true ∧ t.1 = |(z - y) - (y - x)| ∧ t.2.1 = min (z - y) (y - x)) :
    ∃ cs : List (Cyc K), l.mapM (tripleCyc W.trip tmp) = some cs ∧ ∀ c ∈ cs, Priced W c ∧ c.occs ≠ [] := by
  induction l with
  | nil => exact ⟨[], rfl, by simp⟩
  | cons t l ih =>
    obtain ⟨cs, e, h1⟩ := ih (fun x hx => h x (List.mem_cons_of_mem _ hx))
    obtain ⟨x, y, z, hO, hO1, hO2, hO3⟩ := h t List.mem_cons_self
    obtain ⟨p, hp⟩ := period_some [x, y, z] (by simp)
    refine ⟨⟨[x, y, z], p, W.trip t.1 t.2.1⟩ :: cs, by simp [tripleCyc, hO, hp, e], ?_⟩
    intro c hc
    rcases List.mem_cons.1 hc with rfl | hc
    · exact ⟨Or.inr ⟨x, y, z, rfl, hO1, by rw [hO2, hO3]⟩, by simp⟩
    · exact h1 c hc

theorem merged_priced (W : Costs K) (fuel : ℕ) (occs : List ℤ) (hs : occs.Pairwise (· < ·)) (hf : occs.length + 2 ≤ fuel) : ∃ cycles, mergedAlpha W fuel occs = some cycles ∧ ∀ c ∈ cycles, Priced W c := by
  have hn : occs.Nodup := hs.imp (fun h => ne_of_lt h)
  obtain ⟨dyn, residual, hd, hd1, -, -⟩ := Cycles.cycles_partition W.cyc W.res occs hn
  obtain ⟨tmp, htmp⟩ : ∃ tmp, tmp = tmpOccs occs dyn := ⟨_, rfl⟩
  have hsub : tmp.Sublist occs := by rw [htmp]; exact tmpOccs_spec occs dyn hs
  have hl := hsub.length_le
  obtain ⟨r, hr, hr1, -⟩ := fold_any W.par fuel tmp (hs.sublist hsub) (by omega)
  obtain ⟨r', hr', hr2⟩ := fold_trip W.par fuel tmp (hs.sublist hsub) (by omega)
  rw [hr] at hr'
  obtain rfl := Option.some.inj hr'
  obtain ⟨cd, ed, gd, -⟩ := withPeriod_all W.cyc occs dyn (fun O hO => ⟨(hd1 O hO).1.sublist, (hd1 O hO).2⟩)
  obtain ⟨cc, ec, gc, -⟩ := withPeriod_all W.cyc occs (r.1.map Prod.fst) (by
    intro O hO
    obtain ⟨c, hc, rfl⟩ := List.mem_map.1 hO
    obtain ⟨h1, h2⟩ := hr1 c hc
    exact ⟨h1.trans hsub, by omega⟩)
  obtain ⟨ct, et, gt⟩ := tripleCyc_priced W tmp r.2 hr2
  have long : ∀ c : Cyc K, Good occs c → c.occs ≠ [] := by
    intro c hc e
    have := hc.2.1
    rw [e] at this
    simp at this
  have good : ∀ c ∈ ([cd, cc, ct] : List (List (Cyc K))).flatten, Priced W c ∧ c.occs ≠ [] := by
    intro c hc
    simp only [List.flatten_cons, List.flatten_nil, List.append_nil, List.mem_append] at hc
    rcases hc with hc | hc | hc
    · exact ⟨Or.inl (gd c hc).2, long c (gd c hc).1⟩
    · exact ⟨Or.inl (gc c hc).2, long c (gc c hc).1⟩
    · exact gt c hc
  obtain ⟨out, h1, h2, -⟩ := merge_cheapest [cd, cc, ct] (fun l hl c hc => (good c (List.mem_flatten.2 ⟨l, hl, hc⟩)).2)
  refine ⟨out, ?_, fun c hc => (good c (h2 c hc)).1⟩
  unfold mergedAlpha
  rw [hd, Option.bind_some]
  simp only
  rw [← htmp, hr, Option.bind_some, ed, ec, et]
  exact h1

theorem covered_cyc (pool : List (ℕ × (ℕ × Cyc K))) : ∀ (sel : List ℕ) (cyc : List (ℕ × Cyc K)), sel.map (fun i => pool.lookup i) = cyc.map some →
    Select.covered (candsOf pool) sel = (cyc.flatMap (fun c => c.2.occs.map (fun t => (t, c.1)))).toFinset ∧ sel.map (candsOf pool).cost = cyc.map (fun c => c.2.cost)
  | [], [], _ => ⟨rfl, rfl⟩
  | [], _ :: _, h => by simp at h
  | _ :: _, [], h => by simp at h
  | i :: sel, c :: cyc, h => by
    simp only [List.map_cons, List.cons.injEq] at h
    obtain ⟨h1, h2⟩ := covered_cyc pool sel cyc h.2
    constructor
    · rw [Select.covered, h1, List.flatMap_cons, List.toFinset_append]
      congr 1
      simp [candsOf, h.1]
    · rw [List.map_cons, List.map_cons, h2]
      congr 1
      simp [candsOf, h.1]

theorem lookup_map_fst {β : Type} (l : List (ℕ × β)) (f : ℕ → K) (k : ℕ) (h : k ∈ l.map Prod.fst) : (l.map (fun e => (e.1, f e.1))).lookup k = some (f k) := by
  induction l with
  | nil => simp at h
  | cons a l ih =>
    rw [List.map_cons, List.lookup_cons]
    by_cases e : k = a.1
    · subst e; simp
    · rw [List.map_cons, List.mem_cons] at h
      simp only [beq_eq_false_iff_ne.2 e]
      exact ih (h.resolve_left e)

variable {ε R κ : Type} [LinearOrder ε] [LinearOrder κ]

/-- The patterns of the simple miner with their cycles: where they come from, what their recorded costs are, and that these add up to less than the occurrences covered cost on their own. -/
theorem mineSimple_priced (rows : (ℕ × Cyc K) → ℕ → ℕ → Bool → List R) (rk : R → κ) (W : ℕ → Costs K) (one : ℕ → K) (fuel : ℕ) (ds : Built ε) (hd : DataOk ds)
    (hf : ∀ k, (getSequence ds k).length + 2 ≤ fuel) :
    ∃ (ps : List Miner.Patt) (cyc : List (ℕ × Cyc K)), mineSimple rows rk W one fuel ds = some ps ∧ cyc.mapM (fun c => Miner.simplePatt c.1 c.2.occs c.2.p) = some ps ∧
      Miner.occLists ps = some (cyc.map (fun c => c.2.occs.map (fun t => (t, c.1)))) ∧
      (∀ c ∈ cyc, c.1 < ds.listEv.length ∧ Good (getSequence ds c.1) c.2 ∧ Priced (W c.1) c.2) ∧
      (cyc.map (fun c => c.2.cost)).sum ≤ ∑ o ∈ (cyc.flatMap (fun c => c.2.occs.map (fun t => (t, c.1)))).toFinset, one o.2 ∧
      (cyc ≠ [] → (cyc.map (fun c => c.2.cost)).sum < ∑ o ∈ (cyc.flatMap (fun c => c.2.occs.map (fun t => (t, c.1)))).toFinset, one o.2) := by
  obtain ⟨s, h1, h2, h3, h4, h5⟩ := poolLoop_ok rows rk W fuel ds hd.1 hf ds.listEv.length
  obtain ⟨s', k1, -, k3, -⟩ := poolLoop_all rows rk W fuel ds hd.1 hf ds.listEv.length
  rw [h1] at k1
  obtain rfl := Option.some.inj k1
  have hpr : ∀ e ∈ s.candidates, Priced (W e.2.1) e.2.2 := by
    intro e he
    have : e.2 ∈ s.candidates.map Prod.snd := List.mem_map.2 ⟨e, he, rfl⟩
    rw [k3] at this
    obtain ⟨k, -, hk⟩ := List.mem_flatMap.1 this
    obtain ⟨c, hc, e1⟩ := List.mem_map.1 hk
    rw [← e1]
    obtain ⟨cycles, out, m1, m2, m3, -⟩ := mineAlpha_sound (W k) fuel k (getSequence ds k) (hd.1 k) (hf k)
    obtain ⟨cycles', n1, n2⟩ := merged_priced (W k) fuel (getSequence ds k) (hd.1 k) (hf k)
    rw [m1] at n1
    obtain rfl := Option.some.inj n1
    rw [m2, Option.getD_some] at hc
    exact n2 c (m3 c hc)
  have hnd : (s.candidates.map Prod.fst).Nodup := by rw [h2.ids]; exact List.nodup_range
  have hlook : ∀ i c, (i, c) ∈ s.candidates → s.candidates.lookup i = some c := fun i c h => lookup_of_mem s.candidates hnd i c h
  have hcost : ∀ i ∈ s.candidates.map Prod.fst, ∀ o ∈ (candsOf s.candidates).occs i, ((ds.evNbOccs.map (fun e => (e.1, one e.1))).lookup o.2).isSome := by
    intro i hi o ho
    obtain ⟨⟨i', c⟩, he, rfl⟩ := List.mem_map.1 hi
    simp only [candsOf] at ho
    rw [hlook i' c he] at ho
    simp only [Option.map_some, Option.getD_some, List.mem_toFinset] at ho
    obtain ⟨t, _, rfl⟩ := List.mem_map.1 ho
    rw [lookup_map_fst _ one _ (hd.2.2 c.1 (h4 _ he).1)]
    rfl
  obtain ⟨sel, s1, s2, s3, -⟩ := Select.selection_efficient (candsOf s.candidates) (ds.evNbOccs.map (fun e => (e.1, one e.1))) (Prod.snd : ℤ × ℕ → ℕ) 3 (s.candidates.map Prod.fst) hnd hcost
  obtain ⟨v1, v2⟩ := Select.selection_saves (candsOf s.candidates) (ds.evNbOccs.map (fun e => (e.1, one e.1))) (Prod.snd : ℤ × ℕ → ℕ) 3 (s.candidates.map Prod.fst) hnd hcost sel s1
  obtain ⟨cyc, hc⟩ := Miner.mapM_exists (fun i => s.candidates.lookup i) sel (by
    intro i hi
    obtain ⟨⟨i', c⟩, he, rfl⟩ := List.mem_map.1 (s3 i hi)
    rw [hlook i' c he]; rfl)
  have hcm : ∀ c ∈ cyc, ∃ i, (i, c) ∈ s.candidates := by
    intro c hcc
    obtain ⟨i, hi, e⟩ := (Miner.mem_mapM hc c).1 hcc
    obtain ⟨⟨i', c'⟩, he, rfl⟩ := List.mem_map.1 (s3 i hi)
    rw [hlook i' c' he] at e
    obtain rfl := Option.some.inj e
    exact ⟨i', he⟩
  obtain ⟨ps, p1, p2, p3⟩ := Miner.simple_from_data ds.seql (cyc.map (fun c => (c.1, c.2.occs, c.2.p))) (by
    intro x hx
    obtain ⟨c, hcc, rfl⟩ := List.mem_map.1 hx
    obtain ⟨i, hi⟩ := hcm c hcc
    have := (h4 _ hi).2.2.1
    intro e
    simp only at e this
    rw [e] at this
    simp at this) (by
    intro x hx t ht
    obtain ⟨c, hcc, rfl⟩ := List.mem_map.1 hx
    obtain ⟨i, hi⟩ := hcm c hcc
    exact hd.2.1 _ t ((h4 _ hi).2.1.subset ht))
  have hmp := (Miner.mapM_iff _ sel cyc).1 hc
  obtain ⟨w1, w2⟩ := covered_cyc s.candidates sel cyc hmp
  have hsum : ∑ o ∈ (cyc.flatMap (fun c => c.2.occs.map (fun t => (t, c.1)))).toFinset, Select.single (ds.evNbOccs.map (fun e => (e.1, one e.1))) (Prod.snd : ℤ × ℕ → ℕ) o =
      ∑ o ∈ (cyc.flatMap (fun c => c.2.occs.map (fun t => (t, c.1)))).toFinset, one o.2 := by
    refine Finset.sum_congr rfl ?_
    intro o ho
    rw [List.mem_toFinset] at ho
    obtain ⟨c, hcc, ho⟩ := List.mem_flatMap.1 ho
    obtain ⟨t, -, rfl⟩ := List.mem_map.1 ho
    obtain ⟨i, hi⟩ := hcm c hcc
    rw [Select.single, lookup_map_fst _ one _ (hd.2.2 c.1 (h4 _ hi).1)]
    rfl
  rw [w1, w2, hsum] at v1 v2
  refine ⟨ps, cyc, ?_, ?_, ?_, ?_, v1, ?_⟩
  · unfold mineSimple
    rw [h1, Option.bind_some, s1, Option.bind_some, Miner.mapM_iff]
    rw [Miner.mapM_iff, List.map_map] at p1
    rw [← p1]
    have : sel.map (fun i => (s.candidates.lookup i).bind (fun c => Miner.simplePatt c.1 c.2.occs c.2.p)) = (sel.map (fun i => s.candidates.lookup i)).map (fun x => x.bind (fun c => Miner.simplePatt c.1 c.2.occs c.2.p)) := by
      rw [List.map_map]; rfl
    rw [this, hmp, List.map_map]
    rfl
  · rw [Miner.mapM_iff] at p1 ⊢
    rw [← p1, List.map_map]
    rfl
  · rw [p3, List.map_map]; rfl
  · intro c hcc
    obtain ⟨i, hi⟩ := hcm c hcc
    exact ⟨(h4 _ hi).1, (h4 _ hi).2, hpr _ hi⟩
  · intro hne
    apply v2
    intro e
    rw [e] at hmp
    simp at hmp
    exact hne hmp

end Field

end Verif.Mine
