import Verif.Miner.Lemmas

set_option autoImplicit false
set_option linter.unusedSectionVars false

namespace Verif.Miner

open Verif.PTree

/-- The covered occurrences from the times. -/
theorem getCovSeq_of_getOccs {α : Type} (T : PTree.Tree α) (t0 : ℤ) (E ts : List ℤ) (h : getOccs T (occsStar T [] 0) t0 E = some ts) :
    getCovSeq T t0 E = some (ts.zip ((gen T 0).map Prod.snd)) := by
  rw [gen_eq T [] 0, List.map_map]
  unfold getOccs at h
  unfold getCovSeq
  obtain ⟨oStar, ho⟩ : ∃ o, o = occsStar T [] 0 := ⟨_, rfl⟩
  simp only [← ho] at h ⊢
  have key : ∀ (l : List (ℤ × α × Path)) (ts : List ℤ),
      l.mapM (fun o => (getCCorr T o.2.2 (getEDict oStar E)).map (fun c => o.1 + t0 + c)) = some ts →
      l.mapM (fun o => (getCCorr T o.2.2 (getEDict oStar E)).map (fun c => (o.1 + t0 + c, o.2.1))) = some (ts.zip (l.map (Prod.snd ∘ fun o => (o.1, o.2.1)))) := by
    intro l
    induction l with
    | nil =>
      intro ts hc
      simp only [List.mapM_nil, Option.pure_def, Option.some.injEq] at hc
      rw [← hc]; rfl
    | cons a l ih =>
      intro ts hc
      rw [List.mapM_cons] at hc
      cases hg : getCCorr T a.2.2 (getEDict oStar E) with
      | none => simp [hg] at hc
      | some c =>
        simp only [hg, Option.map_some, Option.bind_eq_bind, Option.bind_some] at hc
        cases hm : l.mapM (fun o => (getCCorr T o.2.2 (getEDict oStar E)).map (fun c => o.1 + t0 + c)) with
        | none => simp [hm] at hc
        | some ts' =>
          simp only [hm, Option.bind_some, Option.pure_def, Option.some.injEq] at hc
          rw [List.mapM_cons, ih ts' hm, ← hc]
          simp [hg]
  exact key oStar ts h

theorem length_computeE (O : List ℤ) (p : ℤ) : (computeE O p).length = O.length - 1 := by
  induction O with
  | nil => rfl
  | cons a O ih =>
    cases O with
    | nil => rfl
    | cons b l => simp only [computeE, List.length_cons] at ih ⊢; omega

theorem computeE_get (O : List ℤ) (p : ℤ) : computeE O p = (List.range (O.length - 1)).map (fun i => O.getD (i + 1) 0 - O.getD i 0 - p) := by
  induction O with
  | nil => rfl
  | cons a O ih =>
    cases O with
    | nil => rfl
    | cons b l =>
      rw [computeE, ih]
      simp only [List.length_cons, Nat.add_sub_cancel]
      rw [List.range_succ_eq_map, List.map_cons, List.map_map]
      congr 1

theorem simple_corr (ev : ℕ) (p : ℤ) (t0 : ℤ) (ts : List ℤ) :
    (corrT (.node (ts.length + 1) p (.cons 0 (.leaf ev) .nil)) (t0 :: ts) 0 0).tail = computeE (t0 :: ts) p := by
  rw [computeE_get]
  simp only [corrT, corrF, nbOccsF, nbOccs, List.append_nil, Nat.add_zero, Nat.mul_one]
  have : ∀ i ∈ List.range (ts.length + 1), (List.map (fun x => x - (if i = 0 then 0 else (List.drop (i - 1) (t0 :: ts)).headD 0) - (if i = 0 then 0 else p)) (List.take 1 (List.take 1 (List.drop i (t0 :: ts))))) =
      [(t0 :: ts).getD i 0 - (if i = 0 then 0 else (t0 :: ts).getD (i - 1) 0) - (if i = 0 then 0 else p)] := by
    intro i hi
    rw [List.mem_range] at hi
    have hd : ∀ j, j < ts.length + 1 → (t0 :: ts).drop j = (t0 :: ts).getD j 0 :: (t0 :: ts).drop (j + 1) := by
      intro j hj
      rw [List.drop_eq_getElem_cons (by simpa using hj), List.getD_eq_getElem?_getD, List.getElem?_eq_getElem (by simpa using hj), Option.getD_some]
    rw [hd i hi]
    by_cases h0 : i = 0
    · simp [h0]
    · rw [hd (i - 1) (by omega)]
      simp [h0]
  rw [List.flatMap_congr this]
  rw [← List.map_eq_flatMap, List.range_succ_eq_map, List.map_cons, List.tail_cons, List.map_map]
  simp only [List.length_cons, Nat.add_sub_cancel]
  apply List.map_congr_left
  intro i _
  simp

/-- A simple cycle generates exactly its own occurrences, whatever the period. -/
theorem simple_covers (ev : ℕ) (O : List ℤ) (hO : O ≠ []) (p : ℤ) :
    ∃ q, simplePatt ev O p = some q ∧ getCovSeq q.1 q.2.1 q.2.2 = some (O.map (fun t => (t, ev))) := by
  obtain ⟨t0, ts, rfl⟩ := List.exists_cons_of_ne_nil hO
  refine ⟨_, rfl, ?_⟩
  have hreg : (PTree.Tree.node (ts.length + 1) p (.cons 0 (.leaf ev) .nil)).Regular := by
    simp [Tree.Regular, Forest.Regular, Forest.NonEmpty, Forest.firstDist]
  have hocc := (getOccs_iff (.node (ts.length + 1) p (.cons 0 (.leaf ev) .nil)) hreg t0 ts (computeE (t0 :: ts) p) (by simp [nbOccs, nbOccsF]) (by rw [length_computeE]; simp)).mpr
    (simple_corr ev p t0 ts).symm
  have := getCovSeq_of_getOccs _ _ _ _ hocc
  simp only [List.length_cons]
  rw [this]
  congr 1
  have hg : (gen (PTree.Tree.node (ts.length + 1) p (.cons 0 (.leaf ev) .nil)) 0).map Prod.snd = List.replicate (ts.length + 1) ev := by
    simp only [gen, genF, List.append_nil, ← List.map_eq_flatMap, List.map_map]
    rw [List.eq_replicate_iff]
    simp
  rw [hg]
  have : ∀ l : List ℤ, l.zip (List.replicate l.length ev) = l.map (fun t => (t, ev)) := by
    intro l
    induction l with
    | nil => rfl
    | cons a l ih => simp [List.replicate_succ, ih]
  exact this (t0 :: ts)

end Verif.Miner
