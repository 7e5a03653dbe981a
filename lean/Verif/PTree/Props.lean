import Verif.PTree.Fact

/-!
# Properties C34, C35 and C50

C34: corrections and occurrences determine each other. C35: counts, keys, events and uncorrected times. C50: factorisation.
-/

set_option autoImplicit false
set_option linter.unusedSectionVars false

namespace Verif.PTree

variable {α : Type}

/-- `A` repeated twice with period 2, then `B` 5 later, all repeated three times with period 10. -/
def exTree : Tree ℕ := .node 3 10 (.cons 0 (.node 2 2 (.cons 0 (.leaf 7) .nil)) (.cons 5 (.leaf 8) .nil))

theorem exTree_regular : exTree.Regular := by
  simp [exTree, Tree.Regular, Forest.Regular, Forest.NonEmpty, Forest.firstDist]

/-- C34: for a regular tree and any list of times, one per occurrence, the corrections computed from the times exist, there is one per occurrence but the first, and
regenerating the occurrences from the first time and the corrections gives back the times. -/
theorem corrections_roundtrip (T : Tree α) (hT : T.Regular) (t0 : ℤ) (ts : List ℤ) (hl : (t0 :: ts).length = nbOccs T) :
    ∃ E, computeEFromO T (t0 :: ts) = some E ∧ E.length = ts.length ∧ getOccs T (occsStar T [] 0) t0 E = some (t0 :: ts) := by
  have hlen : (keys T).length = nbOccs T := by
    rw [← length_gen T 0, gen_eq T [] 0, ← oids_eq]; simp
  obtain ⟨o, ho⟩ := exists_fun (keys T) (t0 :: ts) (keys_nodup T) (by rw [hl, hlen])
  obtain ⟨l, hk'⟩ := pos_head T hT
  have hk : keys T = lm T :: l := hk'
  have ht0 : o (lm T) = t0 := by rw [hk] at ho; simp at ho; exact ho.1.symm
  obtain ⟨v, h0, hv⟩ := exists_corr hT o
  refine ⟨(keys T).tail.map v, ?_, ?_, ?_⟩
  · unfold computeEFromO
    simp only [oids_eq]
    rw [ho, computeEDict_eq hT o v h0 hv]
    simp only [Option.bind_some]
    apply mapM_some_map
    intro k hkk
    exact lookup_zip_map _ _ (List.mem_of_mem_tail hkk)
  · simp only [List.length_map, List.length_tail, hlen, ← hl]; simp
  · rw [getOccs_eq hT v h0, ho]
    congr 1
    apply List.map_congr_left
    intro k hkk
    rw [← ht0]
    exact corr_sum hT o v h0 hv _ k hkk rfl

/-- C34, converse: any start time and any corrections, one per occurrence but the first, describe times that start at the start time and from which the
same corrections are computed. -/
theorem corrections_recovered (T : Tree α) (hT : T.Regular) (t0 : ℤ) (E : List ℤ) (hl : E.length + 1 = nbOccs T) :
    ∃ ts, getOccs T (occsStar T [] 0) t0 E = some (t0 :: ts) ∧ ts.length = E.length ∧ computeEFromO T (t0 :: ts) = some E := by
  have hlen : (keys T).length = nbOccs T := by
    rw [← length_gen T 0, gen_eq T [] 0, ← oids_eq]; simp
  obtain ⟨v, hv⟩ := exists_fun (keys T) (0 :: E) (keys_nodup T) (by rw [hlen, ← hl]; rfl)
  obtain ⟨l, hk'⟩ := pos_head T hT
  have hk : keys T = lm T :: l := hk'
  have h0 : v (lm T) = 0 := by rw [hk] at hv; simp at hv; exact hv.1.symm
  have hE : E = (keys T).tail.map v := by rw [hk] at hv ⊢; simp at hv ⊢; exact hv.2
  obtain ⟨o, ho⟩ : ∃ o : Path → ℤ, o = fun k => starT T k + t0 + (v k + ((gT T k).map v).sum) := ⟨_, rfl⟩
  have ho' : ∀ k, o k = starT T k + t0 + (v k + ((gT T k).map v).sum) := fun k => by rw [ho]
  have holm : o (lm T) = t0 := by rw [ho', starT_lm T hT, gT_lm T hT, h0]; simp
  have hocc : getOccs T (occsStar T [] 0) t0 E = some ((keys T).map o) := by
    rw [hE, getOccs_eq hT v h0, ho]
  refine ⟨(keys T).tail.map o, ?_, ?_, ?_⟩
  · rw [hocc, hk]; simp [holm]
  · rw [hE]; simp
  · unfold computeEFromO
    have hcons : t0 :: (keys T).tail.map o = (keys T).map o := by rw [hk]; simp [holm]
    simp only [oids_eq]
    rw [hcons, computeEDict_eq hT o v h0 (corr_sum' o v t0 ho' hT)]
    simp only [Option.bind_some]
    rw [hE]
    apply mapM_some_map
    intro k hkk
    exact lookup_zip_map _ _ (List.mem_of_mem_tail hkk)

example : nbOccs exTree = 9 := by decide
example : computeEFromO exTree [100, 103, 105, 111, 112, 117, 119, 121, 124] = some [1, 0, 1, -1, 1, -2, 0, 0] := by decide
example : getOccs exTree (occsStar exTree [] 0) 100 [1, 0, 1, -1, 1, -2, 0, 0] = some [100, 103, 105, 111, 112, 117, 119, 121, 124] := by decide

/-- C34 fails when the first child of a node is at a distance other than 0 (such a dictionary is accepted by the constructor): the times come back shifted. -/
theorem first_distance_shifts :
    let T : Tree ℕ := .node 2 5 (.cons 3 (.leaf 1) .nil)
    computeEFromO T [10, 15] = some [0] ∧ getOccs T (occsStar T [] 0) 10 [0] = some [13, 18] := by decide

/-- C35: every tree generates as many occurrences as it reports, at distinct positions, and their times and events are those described by the tree. -/
theorem occurrences_counted (T : Tree α) (time : ℤ) :
    (occsStar T [] time).length = nbOccs T ∧ ((occsStar T [] time).map (fun o => o.2.2)).Nodup ∧
      (occsStar T [] time).map (fun o => (o.1, o.2.1)) = gen T time := by
  refine ⟨?_, ?_, (gen_eq T [] time).symm⟩
  · rw [← length_gen T time, gen_eq T [] time]; simp
  · rw [occsStar_eq, List.map_map]
    exact nodup_pos T

mutual
/-- The tree with every cycle run once. -/
def once : Tree α → Tree α
  | .leaf ev => .leaf ev
  | .node _ p ch => .node 1 p (onceF ch)
/-- The same for the children. -/
def onceF : Forest α → Forest α
  | .nil => .nil
  | .cons d t rest => .cons d (once t) (onceF rest)
end

mutual
theorem nbLeaves_nbOccs : ∀ t : Tree α, nbLeaves t = nbOccs (once t)
  | .leaf _ => rfl
  | .node _ _ ch => by rw [nbLeaves, once, nbOccs, nbLeavesF_nbOccsF ch, one_mul]
theorem nbLeavesF_nbOccsF : ∀ ch : Forest α, nbLeavesF ch = nbOccsF (onceF ch)
  | .nil => rfl
  | .cons _ t rest => by rw [nbLeavesF, onceF, nbOccsF, nbLeaves_nbOccs t, nbLeavesF_nbOccsF rest]
end

/-- C35: the number of leaves is the number of occurrences when every cycle is run once. -/
theorem leaves_once (t : Tree α) : nbLeaves t = (occsStar (once t) [] 0).length := by
  rw [nbLeaves_nbOccs, ← length_gen (once t) 0, gen_eq (once t) [] 0, List.length_map]

/-- C35: the events generated by a regular tree are those of its leaves. -/
theorem events_are_alphabet [DecidableEq α] (T : Tree α) (hT : T.Regular) (time : ℤ) (a : α) :
    a ∈ alphabet T ↔ ∃ o ∈ occsStar T [] time, o.2.1 = a := by
  rw [mem_alphabet T hT time a, gen_eq T [] time]
  simp only [List.map_map, List.mem_map, Function.comp_apply]

/-- C35: without corrections, the covered events of a regular tree are those described by the tree from the start time, which are the ones from time 0 shifted. -/
theorem uncorrected_cover (T : Tree α) (hT : T.Regular) (t0 : ℤ) :
    getCovSeq T t0 [] = some (gen T t0) ∧ gen T t0 = (gen T 0).map (fun x => (x.1 + t0, x.2)) := by
  have hs : gen T t0 = (gen T 0).map (fun x => (x.1 + t0, x.2)) := by
    have := gen_shift T 0 t0
    rwa [zero_add] at this
  refine ⟨?_, hs⟩
  have hE : getEDict (occsStar T [] 0) [] = (keys T).zip ((keys T).map (fun _ => (0 : ℤ))) := by
    unfold getEDict
    rw [oids_eq]
    congr 1
    have hl : (occsStar T [] 0).length = (keys T).length := by rw [← oids_eq, List.length_map]
    obtain ⟨l, hk'⟩ := pos_head T hT
    have hk : keys T = lm T :: l := hk'
    split
    · rename_i h
      rw [hl, hk] at h
      simp only [List.length_cons, Nat.add_sub_cancel, List.length_nil, Nat.le_zero, List.length_eq_zero_iff] at h
      subst h
      rw [hk]; rfl
    · rw [← oids_eq, List.map_map]; rfl
  unfold getCovSeq
  simp only [hE]
  have : ∀ o ∈ occsStar T [] 0, ((getCCorr T o.2.2 ((keys T).zip ((keys T).map (fun _ => (0 : ℤ))))).map (fun c => (o.1 + t0 + c, o.2.1))) =
      some (o.1 + t0, o.2.1) := by
    intro o ho
    rw [occsStar_eq] at ho
    obtain ⟨x, hx, rfl⟩ := List.mem_map.mp ho
    simp only [List.reverse_nil, List.nil_append, zero_add]
    rw [getCCorr_eq hT _ (List.mem_map_of_mem hx)]
    simp
  rw [mapM_some_map _ _ _ this, hs, gen_eq T [] 0, List.map_map]
  rfl

example : getCovSeq exTree 100 [] = some [(100, 7), (102, 7), (105, 8), (110, 7), (112, 7), (115, 8), (120, 7), (122, 7), (125, 8)] := by decide

/-- C50: at every node where a regular tree can be factorised, factorising succeeds, gives a regular tree, and keeps the number of occurrences and the timestamped events (in some
order). -/
theorem factorize_preserves (T : Tree α) (hT : T.Regular) (k : List ℕ) (hk : k ∈ canFactorize T) :
    ∃ T', factorizeAt k T = some T' ∧ T'.Regular ∧ nbOccs T' = nbOccs T ∧ ∀ time, (gen T' time).Perm (gen T time) :=
  at_gen k T hk hT

/-- The two children have one child each and the same period and repetitions. -/
def exFact : Tree ℕ := .node 2 50 (.cons 0 (.node 3 4 (.cons 0 (.leaf 7) .nil)) (.cons 1 (.node 3 4 (.cons 0 (.leaf 8) .nil)) .nil))

example : exFact.Regular := by simp [exFact, Tree.Regular, Forest.Regular, Forest.NonEmpty, Forest.firstDist]
example : canFactorize exFact = [[]] := by decide
example : (factorizeAt [] exFact).map (fun t => gen t 0) =
    some [(0, 7), (1, 8), (4, 7), (5, 8), (8, 7), (9, 8), (50, 7), (51, 8), (54, 7), (55, 8), (58, 7), (59, 8)] := by decide
example : gen exFact 0 = [(0, 7), (4, 7), (8, 7), (1, 8), (5, 8), (9, 8), (50, 7), (54, 7), (58, 7), (51, 8), (55, 8), (59, 8)] := by decide

/-- C50 fails when a grandchild is at a distance other than 0: the distance is lost. -/
theorem factorize_loses_distance :
    let T : Tree ℕ := .node 1 50 (.cons 0 (.node 2 4 (.cons 0 (.leaf 7) .nil)) (.cons 1 (.node 2 4 (.cons 3 (.leaf 8) .nil)) .nil))
    canFactorize T = [[]] ∧ gen T 0 = [(0, 7), (4, 7), (4, 8), (8, 8)] ∧
      (factorizeAt [] T).map (fun t => gen t 0) = some [(0, 7), (1, 8), (4, 7), (5, 8)] := by decide

/-- C34 after C50: any times attached to a factorised regular tree can be described by corrections (this is how the miner rewrites a candidate). -/
theorem factorized_times (T : Tree α) (hT : T.Regular) (k : List ℕ) (hk : k ∈ canFactorize T) (t0 : ℤ) (ts : List ℤ) (hl : (t0 :: ts).length = nbOccs T) :
    ∃ T' E, factorizeAt k T = some T' ∧ computeEFromO T' (t0 :: ts) = some E ∧ getOccs T' (occsStar T' [] 0) t0 E = some (t0 :: ts) := by
  obtain ⟨T', h1, h2, h3, -⟩ := factorize_preserves T hT k hk
  obtain ⟨E, e1, -, e3⟩ := corrections_roundtrip T' h2 t0 ts (by rw [h3]; exact hl)
  exact ⟨T', E, h1, e1, e3⟩

end Verif.PTree
