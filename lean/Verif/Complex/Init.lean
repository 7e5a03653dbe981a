import Verif.Complex.Rounds

/-!
# The pool of simple cycles
-/

set_option autoImplicit false
set_option linter.unusedSectionVars false

namespace Verif.Complex

open Verif.PTree Verif.Concat Verif.PattKey Verif.CandPool Verif.DataSeq

variable {K : Type} [Field K] [LinearOrder K] [IsStrictOrderedRing K] {ε : Type} [LinearOrder ε]

theorem ofCyc_key {W : World K} {a b : ℕ} {c d : Mine.Cyc K} (hc : c.occs ≠ []) (hd : d.occs ≠ []) (h : ((ops W).minor (ofCyc a c), (ops W).major (ofCyc a c)) = ((ops W).minor (ofCyc b d), (ops W).major (ofCyc b d))) :
    a = b ∧ Mine.Same c d := by
  simp only [ops, ofCyc, AnyCand.minorKey, AnyCand.majorKey, Prod.mk.injEq, Sum.inl.injEq, Nat.cast_inj] at h
  obtain ⟨h1, h2⟩ := h
  obtain ⟨x, hx⟩ : ∃ x, c.occs.head? = some x := by
    cases e : c.occs with
    | nil => exact absurd e hc
    | cons x l => exact ⟨x, rfl⟩
  obtain ⟨y, hy⟩ : ∃ y, d.occs.head? = some y := by
    cases e : d.occs with
    | nil => exact absurd e hd
    | cons x l => exact ⟨x, rfl⟩
  rw [hx, hy] at h2
  simp only [Option.map_some, Option.some.injEq, Prod.mk.injEq] at h2
  obtain ⟨h4, h5, -⟩ := rpKey_prefix c.occs.length d.occs.length c.p d.p [] [] (by rw [h2.2])
  exact ⟨h1, by rw [hx, hy, h2.1], h4, h5⟩

/-- The loop over the events never raises; the candidates are cycles of their event, and all cycles found are candidates. -/
theorem initPool_spec {W : World K} {P : Cand ℤ → Prop} (hS : ∀ c, P c → Shape c) (A : ℕ → Mine.Costs K) (fuel : ℕ) (ds : Built ε) (hd : ∀ k, (getSequence ds k).Pairwise (· < ·))
    (hf : ∀ k, (getSequence ds k).length + 2 ≤ fuel) (hP : ∀ a < ds.listEv.length, ∀ c : Mine.Cyc K, Mine.Good (getSequence ds a) c → P (ofCyc a c).cand.toCand) (hfl : ∀ a < ds.listEv.length, ∀ out, Mine.mineAlpha (A a) fuel a (getSequence ds a) = some out → ∀ c ∈ out, 1 ≤ W.floor (ofCyc a c)) :
    ∃ s, initPool W A fuel ds = some s ∧ PoolInv W P s ∧ (s.newCids ≠ [] → s.props.isSome) ∧
      (∀ e ∈ s.candidates, ∃ (a : ℕ) (c : Mine.Cyc K), a < ds.listEv.length ∧ e.2 = ofCyc a c ∧ Mine.Good (getSequence ds a) c) ∧
      ∀ k < ds.listEv.length, ∀ c out, Mine.mineAlpha (A k) fuel k (getSequence ds k) = some out → c ∈ out → ofCyc k c ∈ s.candidates.map Prod.snd := by
  unfold initPool
  have main : ∀ n ≤ ds.listEv.length, ∃ s, (List.range n).foldlM (initLoop W A fuel ds) CandPool.empty = some s ∧ PoolInv W P s ∧ (s.newCids ≠ [] → s.props.isSome) ∧
      (∀ e ∈ s.candidates, ∃ (a : ℕ) (c : Mine.Cyc K), a < n ∧ e.2 = ofCyc a c ∧ Mine.Good (getSequence ds a) c) ∧
      ∀ k < n, ∀ c out, Mine.mineAlpha (A k) fuel k (getSequence ds k) = some out → c ∈ out → ofCyc k c ∈ s.candidates.map Prod.snd := by
    intro n
    induction n with
    | zero =>
      intro _
      refine ⟨CandPool.empty, rfl, ⟨empty_inv _, Or.inl ⟨rfl, rfl⟩, by simp [CandPool.empty], by simp [CandPool.empty]⟩, by simp [CandPool.empty], by simp [CandPool.empty], by omega⟩
    | succ n ih =>
      intro hn
      obtain ⟨s, h1, h2, h3, h4, h5⟩ := ih (by omega)
      obtain ⟨cycles, out, -, hout, ho1, ho2, ho3, -⟩ := Mine.mineAlpha_sound (A n) fuel n (getSequence ds n) (hd n) (hf n)
      have hgood : ∀ c ∈ out, Mine.Good (getSequence ds n) c := fun c hc => ho2 c (ho1 c hc)
      have hne : ∀ (a : ℕ) (c : Mine.Cyc K), Mine.Good (getSequence ds a) c → c.occs ≠ [] := by
        intro a c hc e
        have := hc.2.1
        rw [e] at this
        simp at this
      obtain ⟨f1, f2, f3, f4, f5, f6, f7, f8, f9⟩ := recordKey_fields s (none : NKey)
      have hfresh : ∀ c ∈ out.map (ofCyc n), ((ops W).minor c, (ops W).major c) ∉ s.candidates.map (fun e => ((ops W).minor e.2, (ops W).major e.2)) := by
        intro c hc hmem
        obtain ⟨x, hx, rfl⟩ := List.mem_map.1 hc
        obtain ⟨e, he, hk⟩ := List.mem_map.1 hmem
        obtain ⟨a, d, ha, hed, hg⟩ := h4 e he
        rw [hed] at hk
        have := (ofCyc_key (hne a d hg) (hne n x (hgood x hx)) hk).1
        omega
      have hnd : ((out.map (ofCyc n)).map (fun c => ((ops W).minor c, (ops W).major c))).Nodup := by
        rw [List.map_map, List.Nodup, List.pairwise_map]
        refine ho3.imp_of_mem ?_
        intro a b ha hb hab hk
        exact hab (ofCyc_key (hne n a (hgood a ha)) (hne n b (hgood b hb)) hk).2
      obtain ⟨s0, k1, -, -, k4⟩ := Mine.addLoop_fresh (ops W) rowKey (none : NKey) true (out.map (ofCyc n)) (recordKey s none) []
        ⟨by rw [f1, f2]; exact h2.inv.ids, by rw [f1, f3]; exact h2.inv.keys, by rw [f1]; exact h2.inv.nodup⟩ (by have := h2.pids; unfold PidsOk at this ⊢; rw [f6, f7]; exact this)
        (by rw [f1]; exact hfresh) hnd
      have hok : (addCands (ops W) rowKey s (out.map (ofCyc n)) none true).2 = none := by rw [addCands, k1]
      obtain ⟨s', added, a1, a2, a3, a4, a5, a6, -, a8, a9⟩ := addCands_inv hS s h2 (out.map (ofCyc n)) none true (by
          intro c hc
          obtain ⟨x, hx, rfl⟩ := List.mem_map.1 hc
          exact hP n (by omega) x (hgood x hx)) (by
          intro _ c hc
          obtain ⟨x, hx, rfl⟩ := List.mem_map.1 hc
          exact ⟨hfl n (by omega) out hout x hx, rfl, (hgood x hx).2.1⟩) (fun _ => hok)
      have hadd : ∀ e ∈ added, ∃ c ∈ out, e.2 = ofCyc n c := by
        intro e he
        obtain ⟨c, hc, h⟩ := List.mem_map.1 (a4.subset (List.mem_map.2 ⟨e, he, rfl⟩))
        exact ⟨c, hc, h.symm⟩
      refine ⟨s', ?_, a2, ?_, ?_, ?_⟩
      · rw [List.range_succ, List.foldlM_append, h1]
        simp only [Option.bind_eq_bind, Option.bind_some, List.foldlM_cons, List.foldlM_nil, Option.pure_def, Option.bind_fun_some]
        unfold initLoop
        rw [hout, Option.bind_some, a1]
      · intro hnew
        rw [a6] at hnew
        by_cases hs : s.newCids = []
        · have hane : added ≠ [] := by
            rintro rfl
            rw [hs] at hnew
            simp at hnew
          obtain ⟨e, he⟩ := List.exists_mem_of_ne_nil _ hane
          obtain ⟨c, hc, h⟩ := hadd e he
          exact a9 ⟨e, he, by rw [h]; exact (hgood c hc).2.1⟩
        · exact a8 (h3 hs)
      · intro e he
        rw [a3, List.mem_append] at he
        rcases he with he | he
        · obtain ⟨a, c, ha, h⟩ := h4 e he
          exact ⟨a, c, by omega, h⟩
        · obtain ⟨c, hc, h⟩ := hadd e he
          exact ⟨n, c, by omega, h, hgood c hc⟩
      · intro k hk c out' hout' hc
        rcases Nat.lt_succ_iff_lt_or_eq.1 hk with hk | rfl
        · rw [a3, List.map_append]
          exact List.mem_append_left _ (h5 k hk c out' hout' hc)
        · rw [hout] at hout'
          obtain rfl := Option.some.inj hout'
          have hs' : s' = s0 := by
            rw [addCands, k1] at a1
            exact (Prod.mk.inj a1).1.symm
          rw [hs', k4, f1]
          exact List.mem_append_right _ (List.mem_map.2 ⟨c, hc, rfl⟩)
  exact main _ (le_refl _)

end Verif.Complex
