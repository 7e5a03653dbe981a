import Verif.Mine.Alpha
import Verif.Miner.Props
import Verif.Select.Props
import Verif.CandPool.Props
import Verif.PattKey.Props
import Verif.DataSeq.Props
import Verif.TimeScale.Props

/-!
# The miner on simple cycles, from the series to the patterns (C71)
-/

set_option autoImplicit false
set_option linter.unusedSectionVars false

namespace Verif.Mine

open Verif.DataSeq Verif.CandPool

/-! ### The pool -/

section Pool

variable {C M Q N R κ : Type} [DecidableEq M] [DecidableEq Q] [DecidableEq N] [LinearOrder κ]

/-- Candidates with new and distinct keys are all added, with or without the cost of a residual. -/
theorem addLoop_fresh (o : CandOps C M Q R) (rk : R → κ) (n : N) (b : Bool) : ∀ (cs : List C) (s : Pool C M Q N R) (rows : List R), Inv o s → PidsOk rk s →
    (∀ c ∈ cs, (o.minor c, o.major c) ∉ s.candidates.map (fun e => (o.minor e.2, o.major e.2))) → (cs.map (fun c => (o.minor c, o.major c))).Nodup →
    ∃ s', addLoop o rk n b s rows cs = (s', none) ∧ Inv o s' ∧ PidsOk rk s' ∧ s'.candidates.map Prod.snd = s.candidates.map Prod.snd ++ cs := by
  intro cs
  induction cs with
  | nil =>
    intro s rows hI hP _ _
    rw [addLoop]
    obtain ⟨h1, h2⟩ := finish_pids rk s rows hP
    obtain ⟨f1, f2, f3, -⟩ := finish_fields rk s rows
    refine ⟨(finish rk s rows).1, by rw [← h2], ⟨by rw [f1, f2]; exact hI.ids, by rw [f1, f3]; exact hI.keys, by rw [f1]; exact hI.nodup⟩, h1, by rw [f1]; simp⟩
  | cons c cs ih =>
    intro s rows hI hP hnew hnd
    rcases addCandQuiet_spec o s hI c n with ⟨h, _⟩ | ⟨_, s', h1, h2, h3, _, h5, h6, _, _⟩
    · exact absurd h (hnew c List.mem_cons_self)
    · rw [List.map_cons, List.nodup_cons] at hnd
      have hP' : PidsOk rk s' := by
        unfold PidsOk at hP ⊢
        rw [h5, h6]; exact hP
      obtain ⟨s'', k1, k2, k3, k4⟩ := ih s' (rows ++ o.rows c s.nextCid (s'.nkeys.idxOf n) b) h3 hP' (by
        intro x hx
        rw [h2, List.map_append, List.mem_append, not_or]
        refine ⟨hnew x (List.mem_cons_of_mem _ hx), ?_⟩
        simp only [List.map_cons, List.map_nil, List.mem_singleton]
        intro e
        exact hnd.1 (by rw [← e]; exact List.mem_map.2 ⟨x, hx, rfl⟩)) hnd.2
      refine ⟨s'', ?_, k2, k3, ?_⟩
      · rw [addLoop, h1]
        exact k1
      · rw [k4, h2]; simp

end Pool

variable {K : Type} [Field K] [LinearOrder K] [IsStrictOrderedRing K] {ε R κ : Type} [LinearOrder ε] [LinearOrder κ]

/-- A data sequence whose events have increasing times, listed in the sequence and counted. -/
def DataOk (ds : Built ε) : Prop :=
  (∀ k, (getSequence ds k).Pairwise (· < ·)) ∧ (∀ k, ∀ t ∈ getSequence ds k, (t, k) ∈ ds.seql) ∧ ∀ k < ds.listEv.length, k ∈ ds.evNbOccs.map Prod.fst

theorem cyc_key_same (rows : (ℕ × Cyc K) → ℕ → ℕ → Bool → List R) (a b : ℕ × Cyc K) (h : ((cycOps rows).minor a, (cycOps rows).major a) = ((cycOps rows).minor b, (cycOps rows).major b)) :
    a.1 = b.1 ∧ Same a.2 b.2 := by
  simp only [cycOps, Prod.mk.injEq] at h
  obtain ⟨h1, h2, h3⟩ := h
  obtain ⟨h4, h5, -⟩ := PattKey.rpKey_prefix a.2.occs.length b.2.occs.length a.2.p b.2.p [] [] (by rw [h3])
  exact ⟨h1, h2, h4, h5⟩

/-- The loop over the events never raises; the candidates are cycles of their event. -/
theorem poolLoop_ok (rows : (ℕ × Cyc K) → ℕ → ℕ → Bool → List R) (rk : R → κ) (W : ℕ → Costs K) (fuel : ℕ) (ds : Built ε) (hd : ∀ k, (getSequence ds k).Pairwise (· < ·))
    (hf : ∀ k, (getSequence ds k).length + 2 ≤ fuel) (n : ℕ) :
    ∃ s, (List.range n).foldlM (poolLoop rows rk W fuel ds) CandPool.empty = some s ∧ Inv (cycOps rows) s ∧ PidsOk rk s ∧ (∀ e ∈ s.candidates, e.2.1 < n ∧ Good (getSequence ds e.2.1) e.2.2) ∧
      ∀ k < n, ∀ c out, mineAlpha (W k) fuel k (getSequence ds k) = some out → c ∈ out → (k, c) ∈ s.candidates.map Prod.snd := by
  induction n with
  | zero => exact ⟨CandPool.empty, rfl, empty_inv _, Or.inl ⟨rfl, rfl⟩, by simp [CandPool.empty], by omega⟩
  | succ n ih =>
    obtain ⟨s, h1, h2, h3, h4, h5⟩ := ih
    obtain ⟨cycles, out, -, hout, ho1, ho2, ho3, -⟩ := mineAlpha_sound (W n) fuel n (getSequence ds n) (hd n) (hf n)
    obtain ⟨f1, f2, f3, f4, f5, f6, f7, f8, f9⟩ := recordKey_fields s (none : Option String)
    obtain ⟨s', k1, k2, k3, k4⟩ := addLoop_fresh (cycOps rows) rk (none : Option String) true (out.map (fun c => (n, c))) (recordKey s none) []
      ⟨by rw [f1, f2]; exact h2.ids, by rw [f1, f3]; exact h2.keys, by rw [f1]; exact h2.nodup⟩ (by unfold PidsOk at h3 ⊢; rw [f6, f7]; exact h3) (by
        intro c hc hmem
        obtain ⟨x, hx, rfl⟩ := List.mem_map.1 hc
        rw [f1] at hmem
        obtain ⟨e, he, hk⟩ := List.mem_map.1 hmem
        have h' := (cyc_key_same rows _ _ hk).1
        have := (h4 e he).1
        simp only at h'
        omega) (by
        rw [List.map_map, List.Nodup, List.pairwise_map]
        refine ho3.imp ?_
        intro a b hab hk
        exact hab (cyc_key_same rows _ _ hk).2)
    rw [f1] at k4
    refine ⟨s', ?_, k2, k3, ?_, ?_⟩
    · rw [List.range_succ, List.foldlM_append, h1]
      simp only [Option.bind_eq_bind, Option.bind_some, List.foldlM_cons, List.foldlM_nil, Option.pure_def, Option.bind_fun_some]
      unfold poolLoop
      rw [hout, Option.bind_some, addCands, k1]
    · intro e he
      have : e.2 ∈ s'.candidates.map Prod.snd := List.mem_map.2 ⟨e, he, rfl⟩
      rw [k4, List.mem_append] at this
      rcases this with h | h
      · obtain ⟨e', he', e1⟩ := List.mem_map.1 h
        obtain ⟨g1, g2⟩ := h4 e' he'
        rw [← e1]
        exact ⟨by omega, g2⟩
      · obtain ⟨c, hc, e1⟩ := List.mem_map.1 h
        rw [← e1]
        exact ⟨by simp, ho2 c (ho1 c hc)⟩
    · intro k hk c out' hout' hc
      rw [k4, List.mem_append]
      rcases Nat.lt_succ_iff_lt_or_eq.1 hk with hk | rfl
      · exact Or.inl (h5 k hk c out' hout' hc)
      · rw [hout] at hout'
        obtain rfl := Option.some.inj hout'
        exact Or.inr (List.mem_map.2 ⟨c, hc, rfl⟩)

/-- C71. On increasing times the simple miner succeeds, whatever the costs. The patterns stand for cycles `sel` of the candidate pool; all initial candidates are in the pool, each a cycle of at least three occurrences of its event; with the cost and the occurrences of each cycle, every selected
one adds at least three occurrences and costs less than these on their own; all occurrences generated by the patterns are in the data. -/
theorem mineSimple_ok (rows : (ℕ × Cyc K) → ℕ → ℕ → Bool → List R) (rk : R → κ) (W : ℕ → Costs K) (one : ℕ → K) (fuel : ℕ) (ds : Built ε) (hd : DataOk ds)
    (hf : ∀ k, (getSequence ds k).length + 2 ≤ fuel) :
    ∃ (pool : List (ℕ × (ℕ × Cyc K))) (sel : List ℕ) (ps : List Miner.Patt) (cyc : List (ℕ × Cyc K)), mineSimple rows rk W one fuel ds = some ps ∧
      (∀ e ∈ pool, e.2.1 < ds.listEv.length ∧ Good (getSequence ds e.2.1) e.2.2) ∧ (pool.map Prod.fst).Nodup ∧
      (∀ k < ds.listEv.length, ∀ c out, mineAlpha (W k) fuel k (getSequence ds k) = some out → c ∈ out → (k, c) ∈ pool.map Prod.snd) ∧
      sel.Nodup ∧ sel.map (fun i => pool.lookup i) = cyc.map some ∧
      (∃ C : Select.Cands K (ℤ × ℕ), (∀ e ∈ pool, C.cost e.1 = e.2.2.cost ∧ ∀ o, o ∈ C.occs e.1 ↔ o.2 = e.2.1 ∧ o.1 ∈ e.2.2.occs) ∧
        Select.EfficientCover C (ds.evNbOccs.map (fun e => (e.1, one e.1))) Prod.snd 3 sel) ∧
      Miner.occLists ps = some (cyc.map (fun c => c.2.occs.map (fun t => (t, c.1)))) ∧ Miner.FromData ds.seql ps := by
  obtain ⟨s, h1, h2, h3, h4, h5⟩ := poolLoop_ok rows rk W fuel ds hd.1 hf ds.listEv.length
  have hnd : (s.candidates.map Prod.fst).Nodup := by rw [h2.ids]; exact List.nodup_range
  have hlook : ∀ i c, (i, c) ∈ s.candidates → s.candidates.lookup i = some c := fun i c h => lookup_of_mem s.candidates hnd i c h
  obtain ⟨sel, s1, s2, s3, s4⟩ := Select.selection_efficient (candsOf s.candidates) (ds.evNbOccs.map (fun e => (e.1, one e.1))) (Prod.snd : ℤ × ℕ → ℕ) 3 (s.candidates.map Prod.fst) hnd (by
    intro i hi o ho
    obtain ⟨⟨i', c⟩, he, rfl⟩ := List.mem_map.1 hi
    simp only [candsOf] at ho
    rw [hlook i' c he] at ho
    simp only [Option.map_some, Option.getD_some, List.mem_toFinset] at ho
    obtain ⟨t, _, rfl⟩ := List.mem_map.1 ho
    have hk := hd.2.2 c.1 (h4 _ he).1
    obtain ⟨e, he', e1⟩ := List.mem_map.1 hk
    simp only
    rw [← e1]
    cases hl : (ds.evNbOccs.map (fun e => (e.1, one e.1))).lookup e.1 with
    | some _ => rfl
    | none =>
      rw [List.lookup_eq_none_iff] at hl
      have := hl (e.1, one e.1) (List.mem_map.2 ⟨e, he', rfl⟩)
      simp at this)
  -- the cycles of the selection
  obtain ⟨cyc, hc⟩ := Miner.mapM_exists (fun i => s.candidates.lookup i) sel (by
    intro i hi
    obtain ⟨⟨i', c⟩, he, rfl⟩ := List.mem_map.1 (s3 i hi)
    rw [hlook i' c he]; rfl)
  have hcm : ∀ c ∈ cyc, ∃ i, (i, c) ∈ s.candidates := by
    intro c hcc
    obtain ⟨i, hi, e⟩ := (Miner.mem_mapM hc c).1 hcc
    obtain ⟨⟨i', c'⟩, he, rfl⟩ := List.mem_map.1 (s3 i hi)
    rw [hlook i' c' he] at e
    obtain rfl := Option.some.inj e
    exact ⟨i', he⟩
  obtain ⟨ps, p1, p2, p3⟩ := Miner.simple_from_data ds.seql (cyc.map (fun c => (c.1, c.2.occs, c.2.p))) (by
    intro x hx
    obtain ⟨c, hcc, rfl⟩ := List.mem_map.1 hx
    obtain ⟨i, hi⟩ := hcm c hcc
    have := (h4 _ hi).2.2.1
    intro e
    simp only at e this
    rw [e] at this
    simp at this) (by
    intro x hx t ht
    obtain ⟨c, hcc, rfl⟩ := List.mem_map.1 hx
    obtain ⟨i, hi⟩ := hcm c hcc
    exact hd.2.1 _ t ((h4 _ hi).2.1.subset ht))
  have hmp := (Miner.mapM_iff _ sel cyc).1 hc
  refine ⟨s.candidates, sel, ps, cyc, ?_, h4, hnd, h5, s2, hmp, ⟨candsOf s.candidates, fun e he => ?_, s4⟩, ?_, p2⟩
  · unfold mineSimple
    rw [h1, Option.bind_some, s1, Option.bind_some, Miner.mapM_iff]
    rw [Miner.mapM_iff, List.map_map] at p1
    rw [← p1]
    have : sel.map (fun i => (s.candidates.lookup i).bind (fun c => Miner.simplePatt c.1 c.2.occs c.2.p)) = (sel.map (fun i => s.candidates.lookup i)).map (fun x => x.bind (fun c => Miner.simplePatt c.1 c.2.occs c.2.p)) := by
      rw [List.map_map]; rfl
    rw [this, hmp, List.map_map]
    rfl
  · obtain ⟨i, c⟩ := e
    simp only [candsOf, hlook i c he, Option.map_some, Option.getD_some, List.mem_toFinset, List.mem_map, true_and]
    rintro ⟨t, a⟩
    constructor
    · rintro ⟨t', ht, e⟩; cases e; exact ⟨rfl, ht⟩
    · rintro ⟨rfl, ht⟩; exact ⟨t, ht, rfl⟩
  · rw [p3, List.map_map]; rfl

end Verif.Mine
