import Verif.Mine.ShiftProps
import Verif.Select.Block
import Verif.Kinds.Model

/-!
# The simple miner, event by event (for C125)
-/

set_option autoImplicit false
set_option linter.unusedSectionVars false

namespace Verif.Mine

open Verif.DataSeq Verif.Miner Verif.PTree Verif.TimeScale

variable {K : Type} [Field K] [LinearOrder K] [IsStrictOrderedRing K]

/-- The initial candidates do not depend on the number of the event. -/
theorem mineAlpha_num (W : Costs K) (fuel a b : ℕ) (occs : List ℤ) : mineAlpha W fuel a occs = mineAlpha W fuel b occs := by
  unfold mineAlpha
  congr 1
  funext cs
  unfold selectAlpha
  rw [topKeach_sh (fun x : ℤ × ℕ => (x.1, Equiv.swap a b x.2)) (fun x y h => by
      simp only [Prod.mk.injEq, EmbeddingLike.apply_eq_iff_eq] at h
      exact Prod.ext h.1 h.2) _ (fun i => (cs[i]?.map (fun c => c.occs.map (fun t => (t, b)))).getD [])]
  intro i
  cases cs[i]? with
  | none => rfl
  | some c => simp

/-- The occurrences of the event `k`. -/
def evEmb (k : ℕ) : ℤ ↪ ℤ × ℕ := ⟨fun t => (t, k), fun _ _ h => (Prod.ext_iff.1 h).1⟩

@[simp] theorem evEmb_apply (k : ℕ) (t : ℤ) : evEmb k t = (t, k) := rfl

/-- The candidates of one event, as read by the selection. -/
def evCands (L : List (Cyc K)) : Select.Cands K ℤ := ⟨fun i => (L[i]?.map (fun c => c.cost)).getD 0, fun i => (L[i]?.map (fun c => c.occs.toFinset)).getD ∅⟩

/-- The patterns selected for the event `k` with times `occs`, when `one` is the cost of an occurrence of it and `mx` the cost of an occurrence of the cheapest event. -/
def evPatts (W : Costs K) (one mx : K) (fuel k : ℕ) (occs : List ℤ) : List Patt :=
  let L := (mineAlpha W fuel k occs).getD []
  (Select.greedy (Select.codeRule (evCands L) [((), one)] (fun _ => ()) 3 mx) L.length
    ((List.range L.length).insertionSort (fun a b => Select.ratio ((evCands L).cost a) ((evCands L).occs a) ≤ Select.ratio ((evCands L).cost b) ((evCands L).occs b))) (evCands L).occs).filterMap
      (fun i => L[i]?.bind (fun c => simplePatt k c.occs c.p))

theorem filter_block {β : Type} (k : ℕ) (P M S : List (ℕ × β)) (hP : ∀ x ∈ P, x.1 ≠ k) (hM : ∀ x ∈ M, x.1 = k) (hS : ∀ x ∈ S, x.1 ≠ k) :
    (List.range (P ++ (M ++ S)).length).filter (fun i => decide (((P ++ (M ++ S))[i]?.map Prod.fst) = some k)) = (List.range M.length).map (P.length + ·) := by
  rw [List.length_append, List.length_append, List.range_add, List.range_add, List.map_append, List.filter_append, List.filter_append]
  have h1 : (List.range P.length).filter (fun i => decide (((P ++ (M ++ S))[i]?.map Prod.fst) = some k)) = [] := by
    rw [List.filter_eq_nil_iff]
    intro i hi
    rw [List.mem_range] at hi
    rw [List.getElem?_append_left hi, List.getElem?_eq_getElem hi]
    simpa using hP _ (List.getElem_mem hi)
  have h2 : ((List.range M.length).map (P.length + ·)).filter (fun i => decide (((P ++ (M ++ S))[i]?.map Prod.fst) = some k)) = (List.range M.length).map (P.length + ·) := by
    rw [List.filter_eq_self]
    intro i hi
    obtain ⟨j, hj, rfl⟩ := List.mem_map.1 hi
    rw [List.mem_range] at hj
    rw [List.getElem?_append_right (by omega), show P.length + j - P.length = j from by omega, List.getElem?_append_left hj, List.getElem?_eq_getElem hj]
    simpa using hM _ (List.getElem_mem hj)
  have h3 : (((List.range S.length).map (M.length + ·)).map (P.length + ·)).filter (fun i => decide (((P ++ (M ++ S))[i]?.map Prod.fst) = some k)) = [] := by
    rw [List.filter_eq_nil_iff]
    intro i hi
    obtain ⟨j', hj', rfl⟩ := List.mem_map.1 hi
    obtain ⟨j, hj, rfl⟩ := List.mem_map.1 hj'
    rw [List.mem_range] at hj
    rw [List.getElem?_append_right (by omega), show P.length + (M.length + j) - P.length = M.length + j from by omega, List.getElem?_append_right (by omega),
      show M.length + j - M.length = j from by omega, List.getElem?_eq_getElem hj]
    simpa using hS _ (List.getElem_mem hj)
  rw [h1, h2, h3, List.nil_append, List.append_nil]

theorem lookup_range {β : Type} (cs : List (ℕ × β)) (h : cs.map Prod.fst = List.range cs.length) (i : ℕ) : cs.lookup i = (cs.map Prod.snd)[i]? := by
  have hnd : (cs.map Prod.fst).Nodup := by rw [h]; exact List.nodup_range
  by_cases hi : i < cs.length
  · have h1 : cs[i].1 = i := by
      have : (cs.map Prod.fst)[i]? = some i := by rw [h]; simp [hi]
      rw [List.getElem?_map, List.getElem?_eq_getElem hi] at this
      simpa using this
    rw [List.getElem?_map, List.getElem?_eq_getElem hi]
    refine DataSeq.lookup_of_mem cs hnd i cs[i].2 ?_
    rw [show (i, cs[i].2) = cs[i] from Prod.ext h1.symm rfl]
    exact List.getElem_mem hi
  · rw [List.getElem?_eq_none (by simpa using hi), List.lookup_eq_none_iff]
    intro e he
    have : e.1 ∈ cs.map Prod.fst := List.mem_map.2 ⟨e, he, rfl⟩
    rw [h, List.mem_range] at this
    simp only [bne_iff_ne]
    omega

/-- The number of the event of a simple pattern. -/
def isOf (k : ℕ) (q : Patt) : Bool := decide (Kinds.eventsMinor false q.1 = [k])

theorem isOf_simplePatt (k e : ℕ) (O : List ℤ) (p : ℤ) (q : Patt) (h : simplePatt e O p = some q) : isOf k q = decide (e = k) := by
  unfold simplePatt at h
  cases hO : O.head? with
  | none => rw [hO] at h; cases h
  | some t =>
    rw [hO] at h
    obtain rfl := Option.some.inj h
    simp [isOf, Kinds.eventsMinor, Kinds.eventsMinorF]

section Pool

variable {ε R κ : Type} [LinearOrder ε] [LinearOrder κ]

/-- The patterns found for one event are those selected among its own candidates. -/
theorem mineSimple_event (rows : (ℕ × Cyc K) → ℕ → ℕ → Bool → List R) (rk : R → κ) (W : ℕ → Costs K) (one : ℕ → K) (fuel : ℕ) (ds : Built ε) (hd : DataOk ds) (hf : ∀ k, (getSequence ds k).length + 2 ≤ fuel)
    (mx : K) (hm : Select.minCost (ds.evNbOccs.map (fun e => (e.1, one e.1))) = some mx) :
    ∃ ps, mineSimple rows rk W one fuel ds = some ps ∧ (∀ q ∈ ps, ∃ k < ds.listEv.length, isOf k q = true) ∧
      ∀ k < ds.listEv.length, ps.filter (isOf k) = evPatts (W k) (one k) mx fuel k (getSequence ds k) := by
  obtain ⟨s, s1, s2, s3, -, -⟩ := poolLoop_all rows rk W fuel ds hd.1 hf ds.listEv.length
  obtain ⟨L, hL⟩ : ∃ L : ℕ → List (Cyc K), L = fun k => (mineAlpha (W k) fuel k (getSequence ds k)).getD [] := ⟨_, rfl⟩
  have s3' : s.candidates.map Prod.snd = (List.range ds.listEv.length).flatMap (fun k => (L k).map (fun c => (k, c))) := by rw [s3, hL]
  obtain ⟨A, hA⟩ : ∃ A, A = s.candidates.map Prod.snd := ⟨_, rfl⟩
  have hlook : ∀ i, s.candidates.lookup i = A[i]? := fun i => by rw [hA]; exact lookup_range _ s2 i
  have hlen : s.candidates.length = A.length := by rw [hA, List.length_map]
  have hmemA : ∀ x ∈ A, x.1 < ds.listEv.length := by
    intro x hx
    rw [hA, s3'] at hx
    obtain ⟨k, hk, hx⟩ := List.mem_flatMap.1 hx
    obtain ⟨c, -, rfl⟩ := List.mem_map.1 hx
    exact List.mem_range.1 hk
  have hdc : ∀ k < ds.listEv.length, (ds.evNbOccs.map (fun e => (e.1, one e.1))).lookup k = some (one k) := by
    intro k hk
    have : ∀ l : List (ℕ × ℕ), k ∈ l.map Prod.fst → (l.map (fun e => (e.1, one e.1))).lookup k = some (one k) := by
      intro l
      induction l with
      | nil => intro h; simp at h
      | cons a l ih =>
        intro h
        rw [List.map_cons, List.lookup_cons]
        by_cases e : k = a.1
        · simp [e]
        · rw [beq_eq_false_iff_ne.2 e]
          rw [List.map_cons, List.mem_cons] at h
          exact ih (h.resolve_left e)
    exact this _ (hd.2.2 k hk)
  have hocc : ∀ i, (candsOf s.candidates).occs i = (A[i]?.map (fun c => (c.2.occs.map (fun t => (t, c.1))).toFinset)).getD ∅ := fun i => by simp only [candsOf, hlook]
  have hcost : ∀ i, (candsOf s.candidates).cost i = (A[i]?.map (fun c => c.2.cost)).getD 0 := fun i => by simp only [candsOf, hlook]
  have hoev : ∀ i, ∀ o ∈ (candsOf s.candidates).occs i, A[i]?.map Prod.fst = some o.2 := by
    intro i o ho
    rw [hocc] at ho
    cases hi : A[i]? with
    | none => rw [hi] at ho; simp at ho
    | some x =>
      rw [hi, Option.map_some, Option.getD_some, List.mem_toFinset] at ho
      obtain ⟨t, -, rfl⟩ := List.mem_map.1 ho
      rfl
  have hall : ∀ c ∈ s.candidates.map Prod.fst, ∀ o ∈ (candsOf s.candidates).occs c, ((ds.evNbOccs.map (fun e => (e.1, one e.1))).lookup o.2).isSome := by
    intro c _ o ho
    have h1 := hoev c o ho
    cases hc : A[c]? with
    | none => rw [hc] at h1; cases h1
    | some x =>
      rw [hc, Option.map_some, Option.some.injEq] at h1
      rw [hdc o.2 (by rw [← h1]; exact hmemA x (List.mem_of_getElem? hc))]
      rfl
  have hnd : (s.candidates.map Prod.fst).Nodup := by rw [s2]; exact List.nodup_range
  obtain ⟨sel, f1, f2, f3, -⟩ := Select.selection_efficient (candsOf s.candidates) (ds.evNbOccs.map (fun e => (e.1, one e.1))) (Prod.snd : ℤ × ℕ → ℕ) 3 (s.candidates.map Prod.fst) hnd hall
  obtain ⟨pool, sel0, ps, cyc, hps, -⟩ := mineSimple_ok rows rk W one fuel ds hd hf
  refine ⟨ps, hps, ?_⟩
  have hps' := hps
  unfold mineSimple at hps'
  rw [s1, Option.bind_some, f1, Option.bind_some] at hps'
  have hmp := hps'
  rw [Miner.mapM_iff] at hmp
  simp only [hlook] at hmp
  constructor
  · intro q hq
    have : some q ∈ ps.map some := List.mem_map.2 ⟨q, hq, rfl⟩
    rw [← hmp] at this
    obtain ⟨i, -, hi⟩ := List.mem_map.1 this
    cases hA' : A[i]? with
    | none => rw [hA'] at hi; cases hi
    | some x =>
      rw [hA', Option.bind_some] at hi
      exact ⟨x.1, hmemA x (List.mem_of_getElem? hA'), by rw [isOf_simplePatt x.1 x.1 _ _ q hi]; simp⟩
  · intro k hk
    -- the candidates of the event
    obtain ⟨r1, r2, hr⟩ := List.append_of_mem (List.mem_range.2 hk)
    have hrn : (List.range ds.listEv.length).Nodup := List.nodup_range
    rw [hr, List.nodup_append] at hrn
    have hr1 : k ∉ r1 := fun h => hrn.2.2 k h k (by simp) rfl
    have hr2 : k ∉ r2 := (List.nodup_cons.1 hrn.2.1).1
    have hsplit : A = r1.flatMap (fun k => (L k).map (fun c => (k, c))) ++ ((L k).map (fun c => (k, c)) ++ r2.flatMap (fun k => (L k).map (fun c => (k, c)))) := by
      rw [hA, s3', hr, List.flatMap_append, List.flatMap_cons]
    obtain ⟨P, hP⟩ : ∃ P : List (ℕ × Cyc K), P = r1.flatMap (fun k => (L k).map (fun c => (k, c))) := ⟨_, rfl⟩
    obtain ⟨S, hS⟩ : ∃ S : List (ℕ × Cyc K), S = r2.flatMap (fun k => (L k).map (fun c => (k, c))) := ⟨_, rfl⟩
    rw [← hP, ← hS] at hsplit
    have hPk : ∀ x ∈ P, x.1 ≠ k := by
      intro x hx
      rw [hP] at hx
      obtain ⟨j, hj, hx⟩ := List.mem_flatMap.1 hx
      obtain ⟨c, -, rfl⟩ := List.mem_map.1 hx
      exact fun e => hr1 (e ▸ hj)
    have hSk : ∀ x ∈ S, x.1 ≠ k := by
      intro x hx
      rw [hS] at hx
      obtain ⟨j, hj, hx⟩ := List.mem_flatMap.1 hx
      obtain ⟨c, -, rfl⟩ := List.mem_map.1 hx
      exact fun e => hr2 (e ▸ hj)
    have hblock := filter_block k P ((L k).map (fun c => (k, c))) S hPk (fun x hx => by obtain ⟨c, -, rfl⟩ := List.mem_map.1 hx; rfl) hSk
    rw [← hsplit, List.length_map] at hblock
    have hAi : ∀ i < (L k).length, A[P.length + i]? = (L k)[i]?.map (fun c => (k, c)) := by
      intro i hi
      rw [hsplit, List.getElem?_append_right (by omega), show P.length + i - P.length = i from by omega, List.getElem?_append_left (by simpa using hi), List.getElem?_map]
    -- the selection of the event
    have hpart := Select.filterCover_part (candsOf s.candidates) (ds.evNbOccs.map (fun e => (e.1, one e.1))) (Prod.snd : ℤ × ℕ → ℕ) 3 (s.candidates.map Prod.fst) hall mx hm
      (fun i => decide (A[i]?.map Prod.fst = some k)) (by
        intro a _ b _ pa pb
        rw [Finset.disjoint_left]
        intro o ho ho'
        have h1 := hoev a o ho
        have h2 := hoev b o ho'
        simp only [decide_eq_true_eq] at pa
        rw [h1] at pa
        simp only [decide_eq_false_iff_not] at pb
        exact pb (by rw [h2, pa])) sel f1 (L k).length (by rw [s2, hlen, hblock]; simp)
    rw [s2, hlen, hblock] at hpart
    have hocc' : ∀ i < (L k).length, (candsOf s.candidates).occs (P.length + i) = ((evCands (L k)).occs i).map (evEmb k) := by
      intro i hi
      rw [hocc, hAi i hi]
      simp only [evCands, List.getElem?_eq_getElem hi, Option.map_some, Option.getD_some]
      ext o
      simp
    have hcost' : ∀ i < (L k).length, (candsOf s.candidates).cost (P.length + i) = (evCands (L k)).cost i := by
      intro i hi
      rw [hcost, hAi i hi]
      simp only [evCands, List.getElem?_eq_getElem hi, Option.map_some, Option.getD_some]
    have hratio : ∀ (c : K) (T : Finset ℤ), Select.ratio c (T.map (evEmb k)) = Select.ratio c T := by
      intro c T; unfold Select.ratio; rw [Finset.card_map]
    have hsort : ((List.range (L k).length).map (P.length + ·)).insertionSort (fun a b => Select.ratio ((candsOf s.candidates).cost a) ((candsOf s.candidates).occs a) ≤ Select.ratio ((candsOf s.candidates).cost b) ((candsOf s.candidates).occs b)) =
        ((List.range (L k).length).insertionSort (fun a b => Select.ratio ((evCands (L k)).cost a) ((evCands (L k)).occs a) ≤ Select.ratio ((evCands (L k)).cost b) ((evCands (L k)).occs b))).map (P.length + ·) :=
      (List.map_insertionSort (r := fun a b => Select.ratio ((evCands (L k)).cost a) ((evCands (L k)).occs a) ≤ Select.ratio ((evCands (L k)).cost b) ((evCands (L k)).occs b))
        (s := fun a b => Select.ratio ((candsOf s.candidates).cost a) ((candsOf s.candidates).occs a) ≤ Select.ratio ((candsOf s.candidates).cost b) ((candsOf s.candidates).occs b)) (P.length + ·) _ (fun a ha b hb => by
          rw [List.mem_range] at ha hb
          rw [hcost' a ha, hcost' b hb, hocc' a ha, hocc' b hb, hratio, hratio])).symm
    rw [hsort, Select.greedy_map (Select.codeRule (evCands (L k)) [((), one k)] (fun _ => ()) 3 mx) (Select.codeRule (candsOf s.candidates) (ds.evNbOccs.map (fun e => (e.1, one e.1))) (Prod.snd : ℤ × ℕ → ℕ) 3 mx) (P.length + ·)
      (evEmb k) _ _ (evCands (L k)).occs _ (by
        intro c hc T
        have hc' := List.mem_range.1 ((List.mem_insertionSort _).1 hc)
        have heff : Select.isEfficient (ds.evNbOccs.map (fun e => (e.1, one e.1))) (Prod.snd : ℤ × ℕ → ℕ) ((evCands (L k)).cost c) (T.map (evEmb k)) =
            Select.isEfficient [((), one k)] (fun _ : ℤ => ()) ((evCands (L k)).cost c) T := by
          unfold Select.isEfficient Select.sumCosts
          rw [Finset.card_map, Finset.sum_map]
          have h1 : (∀ o ∈ T.map (evEmb k), ((ds.evNbOccs.map (fun e => (e.1, one e.1))).lookup o.2).isSome = true) ↔ (∀ o ∈ T, (([((), one k)] : List (_root_.Unit × K)).lookup ((fun _ : ℤ => ()) o)).isSome = true) := by
            constructor
            · intro _ o _; rfl
            · intro _ o ho
              obtain ⟨t, -, rfl⟩ := Finset.mem_map.1 ho
              rw [evEmb_apply, hdc k hk]; rfl
          simp only [h1, evEmb_apply, hdc k hk]
          rfl
        simp only [Select.codeRule, hcost' c hc', hratio, Finset.card_map, heff, and_self]) (by
        intro c hc
        exact hocc' c (List.mem_range.1 ((List.mem_insertionSort _).1 hc)))] at hpart
    -- the patterns of the event
    have hps2 : ps.filter (isOf k) = (sel.filter (fun i => decide (A[i]?.map Prod.fst = some k))).filterMap (fun i => A[i]?.bind (fun c => simplePatt c.1 c.2.occs c.2.p)) := by
      clear hpart f1 f2 f3 hps hps'
      induction sel generalizing ps with
      | nil =>
        have : ps = [] := by simpa using hmp.symm
        subst this; rfl
      | cons i sel ih =>
        cases ps with
        | nil => simp at hmp
        | cons q ps =>
          rw [List.map_cons, List.map_cons, List.cons.injEq] at hmp
          have hrec := ih ps hmp.2
          cases hi : A[i]? with
          | none => rw [hi] at hmp; cases hmp.1
          | some x =>
            have hq := hmp.1
            rw [hi, Option.bind_some] at hq
            have hiso := isOf_simplePatt k x.1 _ _ q hq
            by_cases hx : x.1 = k
            · rw [List.filter_cons_of_pos (by rw [hiso]; simpa using hx), List.filter_cons_of_pos (by rw [hi]; simpa using hx), List.filterMap_cons_some (b := q) (by rw [hi]; exact hq), hrec]
            · rw [List.filter_cons_of_neg (by rw [hiso]; simpa using hx), List.filter_cons_of_neg (by rw [hi]; simpa using hx), hrec]
    rw [hps2, hpart, List.filterMap_map]
    have hLk : (mineAlpha (W k) fuel k (getSequence ds k)).getD [] = L k := by rw [hL]
    unfold evPatts
    simp only [hLk]
    refine List.filterMap_congr (fun i hi => ?_)
    have hi' := List.mem_range.1 ((List.mem_insertionSort _).1 (Select.greedy_subset _ _ _ _ i hi))
    simp only [Function.comp]
    rw [hAi i hi', List.getElem?_eq_getElem hi']
    rfl

end Pool

end Verif.Mine
