import Verif.Cost.Events
import Verif.Cost.Right

set_option autoImplicit false
set_option linter.unusedSectionVars false

namespace Verif.Cost

open Verif.PTree

variable {α : Type} [DecidableEq α]

/-- Accumulated correction at a position, for corrections `v`. -/
def corr (T : PTree.Tree α) (v : Path → ℤ) (k : Path) : ℤ := v k + ((gT T k).map v).sum

/-- The corrections as a function of the position. -/
theorem exists_corrs (T : PTree.Tree α) (hT : T.Regular) (E : List ℤ) (hl : E.length + 1 = nbOccs T) :
    ∃ v : Path → ℤ, v (lm T) = 0 ∧ (keys T).tail.map v = E ∧ (keys T).map v = 0 :: E := by
  have hlen : (keys T).length = nbOccs T := by rw [keys, List.length_map, length_pos]
  obtain ⟨v, hv⟩ := exists_fun (keys T) (0 :: E) (keys_nodup T) (by simp [hlen, hl])
  obtain ⟨l, hk⟩ := pos_head T hT
  have hk' : keys T = lm T :: l := hk
  rw [hk'] at hv
  simp only [List.map_cons, List.cons.injEq] at hv
  refine ⟨v, hv.1.symm, by rw [hk']; exact hv.2.symm, by rw [hk', List.map_cons, ← hv.1, ← hv.2]⟩

/-- The correction at each position, by position. -/
def vOf (ks : List Path) (E : List ℤ) (k : Path) : ℤ := ((ks.zip (0 :: E)).lookup k).getD 0

theorem vOf_eq (T : PTree.Tree α) (hT : T.Regular) (E : List ℤ) (hl : E.length + 1 = nbOccs T) :
    vOf (keys T) E (lm T) = 0 ∧ (keys T).tail.map (vOf (keys T) E) = E := by
  obtain ⟨v, v0, vE, vA⟩ := exists_corrs T hT E hl
  have h : ∀ k ∈ keys T, vOf (keys T) E k = v k := by
    intro k hk
    rw [vOf, ← vA, lookup_zip_map _ _ hk, Option.getD_some]
  refine ⟨by rw [h _ (lm_mem T hT), v0], ?_⟩
  rw [← vE]
  rw [vE]
  exact List.map_congr_left (fun k hk => h k (List.mem_of_mem_tail hk)) |>.trans vE

theorem edict_eq (T : PTree.Tree α) (hT : T.Regular) (t0 : ℤ) (v : Path → ℤ) (h0 : v (lm T) = 0) :
    getEDict (occsStar T [] t0) ((keys T).tail.map v) = (keys T).zip ((keys T).map v) := by
  rw [← getEDict_eq hT v h0]
  have : ∀ t : ℤ, (occsStar T [] t).map (fun o => o.2.2) = keys T := by
    intro t; rw [occsStar_eq, List.map_map]; rfl
  have hlen : ∀ t : ℤ, (occsStar T [] t).length = (keys T).length := fun t => by rw [← this t, List.length_map]
  unfold getEDict
  rw [this, this, hlen, hlen]
  have hm : ∀ t : ℤ, (occsStar T [] t).map (fun _ => (0 : ℤ)) = (keys T).map (fun _ => 0) := by
    intro t; rw [← this t, List.map_map]; rfl
  simp only [hm]

theorem covSeq_eq (T : PTree.Tree α) (hT : T.Regular) (t0 : ℤ) (v : Path → ℤ) (h0 : v (lm T) = 0) :
    getCovSeq T t0 ((keys T).tail.map v) = some ((pos T).map (fun x => (starT T x.1 + t0 + corr T v x.1, x.2))) := by
  unfold getCovSeq
  simp only []
  rw [edict_eq T hT 0 v h0, PTree.mapM_some_map _ _ (fun o => (o.1 + t0 + corr T v o.2.2, o.2.1))]
  · rw [occsStar_eq, List.map_map]
    congr 1
    apply List.map_congr_left
    intro x _
    simp
  · intro o ho
    have hk : o.2.2 ∈ keys T := by rw [← oids_eq]; exact List.mem_map.2 ⟨o, ho, rfl⟩
    rw [getCCorr_eq hT v hk]; rfl

theorem za_ok (r : ℕ) (p : ℤ) (ch : Forest α) (hT : (PTree.Tree.node r p ch).Regular) :
    leafKeyFromRep (.node r p ch) [] (r - 1) = some ((0, r - 1) :: lmF ch) ∧ (keys (.node r p ch))[(r - 1) * nbOccsF ch]? = some ((0, r - 1) :: lmF ch) ∧
      starT (.node r p ch) ((0, r - 1) :: lmF ch) = ((r : ℤ) - 1) * p := by
  simp only [Tree.Regular] at hT
  obtain ⟨h1, h2, h3, h4⟩ := hT
  refine ⟨?_, ?_, ?_⟩
  · cases ch with
    | nil => simp [Forest.NonEmpty] at h2
    | cons d t rest =>
      simp only [Forest.Regular] at h4
      simp [leafKeyFromRep, nodeAt, leftmost_eq t h4.1, lmF]
  · have hk : keys (.node r p ch) = (List.range r).flatMap (fun i => (posF ch 0 i).map Prod.fst) := by
      simp [keys, pos, List.map_flatMap]
    obtain ⟨l, hb, -⟩ := block_flatMap (fun i => (posF ch 0 i).map Prod.fst) (nbOccsF ch) r (r - 1) (fun j _ => by rw [List.length_map, length_posF]) (by omega)
    obtain ⟨l', hl'⟩ := posF_head ch h4 h2 0 (r - 1)
    have hd : (keys (.node r p ch)).drop ((r - 1) * nbOccsF ch) = ((0, r - 1) :: lmF ch) :: (l' ++ l) := by
      rw [hk, hb, hl']; rfl
    have := congrArg (fun x => x[0]?) hd
    simpa using this
  · cases ch with
    | nil => simp [Forest.NonEmpty] at h2
    | cons d t rest =>
      simp only [Forest.firstDist] at h3
      simp only [Forest.Regular] at h4
      simp only [starT, starF, lmF, starT_lm t h4.1, h3]
      rw [Nat.cast_sub h1]
      push_cast
      ring

theorem shifts_eq (T : PTree.Tree α) (hT : T.Regular) (t0 : ℤ) (f : Path → ℤ) :
    markedShifts T t0 ((pos T).map (fun x => starT T x.1 + t0 + f x.1)) = (rightKeys T true).map f := by
  have hs := sel_marks T true true hT
  rw [if_pos rfl] at hs
  rw [← hs]
  unfold markedShifts sel
  rw [gen_eq T [] t0, occsStar_eq, List.map_map, List.map_map]
  generalize marks T true true = m
  generalize pos T = l
  induction l generalizing m with
  | nil => simp
  | cons a l ih =>
    cases m with
    | nil => simp
    | cons b m =>
      cases b
      · have := ih m
        simpa using this
      · have := ih m
        simp only [List.map_cons, List.zip_cons_cons, List.filter_cons_of_pos, Function.comp_apply]
        rw [this]
        congr 1
        ring

theorem corrBits_eq (E : List ℤ) : codeLengthE E = corrBits E := by
  unfold codeLengthE corrBits
  induction E with
  | nil => rfl
  | cons e E ih =>
    simp only [List.map_cons, List.sum_cons, List.length_cons] at ih ⊢
    push_cast at ih ⊢
    linarith

theorem lookup_star (T : PTree.Tree α) (t0 : ℤ) {k : Path} (hk : k ∈ keys T) :
    ((occsStar T [] t0).map (fun o => (o.2.2, o.1))).lookup k = some (t0 + starT T k) := by
  have : (occsStar T [] t0).map (fun o => (o.2.2, o.1)) = (keys T).zip ((keys T).map (fun k => t0 + starT T k)) := by
    rw [occsStar_eq, keys]
    generalize pos T = l
    induction l with
    | nil => rfl
    | cons a l ih =>
      simp only [List.map_cons, List.zip_cons_cons, List.reverse_nil, List.nil_append] at ih ⊢
      rw [ih]
  rw [this]
  exact lookup_zip_map _ _ hk

theorem max_star (r : ℕ) (p : ℤ) (ch : Forest α) (hT : (PTree.Tree.node r p ch).Regular) (hP : Proper (PTree.Tree.node r p ch)) (t0 : ℤ) :
    npMaxZ ((occsStar (.node r p ch) [] t0).map (fun o => o.1)) = some (t0 + (((r : ℤ) - 1) * p + durF ch)) := by
  have hg : (occsStar (.node r p ch) [] t0).map (fun o => o.1) = (gen (.node r p ch) t0).map Prod.fst := by
    rw [gen_eq (.node r p ch) [] t0, List.map_map]; rfl
  rw [npMaxZ_eq, hg]
  apply max?_eq
  · obtain ⟨x, hx, e⟩ := durT_mem (.node r p ch) hT hP t0
    rw [durT] at e
    exact List.mem_map.2 ⟨x, hx, e⟩
  · intro y hy
    obtain ⟨x, hx, rfl⟩ := List.mem_map.1 hy
    have := dur_bound (.node r p ch) t0 hP x hx
    rw [durT] at this
    exact this.2

/-- Accumulated correction at the start of the last repetition. -/
def ecZa (r : ℕ) (p : ℤ) (ch : Forest α) (E : List ℤ) : ℤ := corr (.node r p ch) (vOf (keys (.node r p ch)) E) ((0, r - 1) :: lmF ch)

/-- Least accumulated correction at the rightmost leaves. -/
def ecZz (T : PTree.Tree α) (E : List ℤ) : ℤ := (((rightKeys T true).map (corr T (vOf (keys T) E))).min?).getD 0

theorem cost_message_aux (S : List (ℤ × α)) (D : Details α) (hD : IsDetails S D) (r : ℕ) (p : ℤ) (ch : Forest α) (hT : (PTree.Tree.node r p ch).Regular) (hP : Proper (PTree.Tree.node r p ch))
    (t0 : ℤ) (E : List ℤ) (hl : E.length + 1 = nbOccs (.node r p ch)) (cov : List (ℤ × α)) (hc : getCovSeq (.node r p ch) t0 E = some cov) (hS : ∀ x ∈ cov, x ∈ S) (hn : cov.Nodup) :
    codeLength (.node r p ch) t0 (some E) D = some (eventBits S (.node r p ch) + bits (message S D r p ch t0 (cov.map Prod.fst)) + (corrBits E : ℝ)) ∧
      (∀ f ∈ message S D r p ch t0 (cov.map Prod.fst), Fits f) ∧
      message S D r p ch t0 (cov.map Prod.fst) = fieldsR S (.node r p ch) ++
        [(p - 1, (D.deltaT - ecZa r p ch E) / ((r : ℤ) - 1)), (t0 - D.tStart, D.deltaT - ecZa r p ch E - p * ((r : ℤ) - 1) + 1)] ++
        (if hasNestedPDs ch then (durF ch, D.tEnd - t0 - p * ((r : ℤ) - 1) - ecZz (.node r p ch) E + 1) :: fieldsPF ch (durF ch) else []) ∧
      ∀ a ∈ leafEvents (.node r p ch), 0 < countEv S a := by
  obtain ⟨T, hTe⟩ : ∃ T, T = PTree.Tree.node r p ch := ⟨_, rfl⟩
  rw [← hTe] at hT hP hl hc
  obtain ⟨v, hv⟩ : ∃ v, v = vOf (keys T) E := ⟨_, rfl⟩
  obtain ⟨v0, vE⟩ := vOf_eq T hT E hl
  rw [← hv] at v0 vE
  have hcov := covSeq_eq T hT t0 v v0
  rw [vE, hc] at hcov
  have hcov := Option.some.inj hcov
  have hev : cov.map Prod.snd = (gen T 0).map Prod.snd := by
    rw [hcov, gen_eq T [] 0, occsStar_eq, List.map_map, List.map_map, List.map_map]; rfl
  have htimes : cov.map Prod.fst = (pos T).map (fun x => starT T x.1 + t0 + corr T v x.1) := by rw [hcov, List.map_map]; rfl
  have htk : ∀ k ∈ keys T, D.tStart ≤ starT T k + t0 + corr T v k ∧ starT T k + t0 + corr T v k ≤ D.tEnd := by
    intro k hk
    obtain ⟨x, hx, rfl⟩ := List.mem_map.1 hk
    exact hD.window _ (hS _ (by rw [hcov]; exact List.mem_map.2 ⟨x, hx, rfl⟩))
  -- counts of events
  have hcount : ∀ a, ((gen T 0).map Prod.snd).count a ≤ countEv S a := by
    intro a
    rw [← hev, countEv]
    have hsp : List.Subperm cov S := List.subperm_of_subset hn hS
    obtain ⟨l, hl1, hl2⟩ := hsp
    rw [← (hl1.map Prod.snd).count_eq]
    exact (hl2.map Prod.snd).count_le a
  have hpos : ∀ a ∈ leafEvents T, 0 < countEv S a := by
    intro a ha
    exact lt_of_lt_of_le (List.count_pos_iff.2 (leafEvents_mem T hT 0 a ha)) (hcount a)
  -- first and last
  have hlm : lm T ∈ keys T := lm_mem T hT
  have c0 : corr T v (lm T) = 0 := by simp [corr, v0, gT_lm T hT]
  have ht0 : D.tStart ≤ t0 := by
    have := (htk _ hlm).1
    rw [starT_lm T hT, c0] at this
    omega
  obtain ⟨z1, z2, z3⟩ := za_ok r p ch (hTe ▸ hT)
  obtain ⟨za, hza⟩ : ∃ za : Path, za = (0, r - 1) :: lmF ch := ⟨_, rfl⟩
  rw [← hza] at z1 z2 z3
  rw [← hTe] at z1 z2 z3
  have hzk : za ∈ keys T := List.mem_of_getElem? z2
  have hX : ((cov.map Prod.fst)[(r - 1) * nbOccsF ch]?).getD 0 = ((r : ℤ) - 1) * p + t0 + corr T v za := by
    have : cov.map Prod.fst = (keys T).map (fun k => starT T k + t0 + corr T v k) := by rw [htimes, keys, List.map_map]; rfl
    rw [this, List.getElem?_map, z2, Option.map_some, Option.getD_some, z3]
  have hxk := htk za hzk
  rw [z3] at hxk
  have hR := hT
  rw [hTe] at hR
  simp only [Tree.Regular] at hR
  have hQ := hP
  rw [hTe] at hQ
  simp only [Proper] at hQ
  obtain ⟨q1, q2, q3⟩ := hQ
  obtain ⟨ez, hez⟩ : ∃ ez, ez = corr T v za := ⟨_, rfl⟩
  rw [← hez] at hX hxk
  obtain ⟨room, hroom⟩ : ∃ room : ℤ, room = D.tEnd - D.tStart - (((r : ℤ) - 1) * p + t0 + ez - t0) := ⟨_, rfl⟩
  have hr0 : 0 ≤ room := by omega
  have hrm : 0 < (r : ℤ) - 1 := by omega
  have hdiv : 0 ≤ room / ((r : ℤ) - 1) := Int.ediv_nonneg hr0 hrm.le
  have ePT : (D.deltaT - ez) / ((r : ℤ) - 1) = p + room / ((r : ℤ) - 1) := by
    have : D.deltaT - ez = room + p * ((r : ℤ) - 1) := by rw [hroom, Details.deltaT]; ring
    rw [this, Int.add_mul_ediv_right _ _ hrm.ne']
    ring
  have eT0 : D.deltaT - ez - p * ((r : ℤ) - 1) + 1 = room + 1 := by rw [hroom, Details.deltaT]; ring
  have hclP : codeLengthPTop D r ez = some (Real.logb 2 ((p + room / ((r : ℤ) - 1) : ℤ) : ℝ)) := by
    rw [codeLengthPTop, if_neg (by omega), ePT, log2_some (by omega)]
  have hclT : codeLengthT0 D r p ez = some (Real.logb 2 ((room + 1 : ℤ) : ℝ)) := by
    rw [codeLengthT0, eT0, log2_some (by omega)]
  have hcorr : ∀ k ∈ keys T, getCCorr T k ((keys T).zip ((keys T).map v)) = some (corr T v k) := fun k hk => getCCorr_eq hT v hk
  have hEd : getEDict (occsStar T [] t0) E = (keys T).zip ((keys T).map v) := by rw [← vE]; exact edict_eq T hT t0 v v0
  -- the numbers
  have hfR := fieldsR_fit (S := S) T hT hcount
  have hclEv := events_ok hD T hpos
  have hclR := codeLengthR_ok hD T hT hpos
  -- rightmost leaves
  obtain ⟨ks, hks, hstar⟩ := right_attains T hT hP
  have hksk := rightKeys_sub T hT ks hks
  have hmne : ((rightKeys T true).map (corr T v)) ≠ [] := by
    intro h
    rw [List.map_eq_nil_iff] at h
    rw [h] at hks
    cases hks
  obtain ⟨m, hm⟩ : ∃ m, ((rightKeys T true).map (corr T v)).min? = some m := by
    cases h : ((rightKeys T true).map (corr T v)).min? with
    | none => rw [List.min?_eq_none_iff] at h; exact absurd h hmne
    | some m => exact ⟨m, rfl⟩
  have hms : ((markedShifts T t0 (cov.map Prod.fst)).min?).getD 0 = m := by
    rw [htimes, shifts_eq T hT t0 (corr T v), hm, Option.getD_some]
  have hmm := List.min?_eq_some_iff.1 hm
  have hmk : m ≤ corr T v ks := hmm.2 _ (List.mem_map.2 ⟨ks, hks, rfl⟩)
  have hend := (htk ks hksk).2
  rw [hstar, hTe, durT] at hend
  rw [hTe] at hmk
  have hdn := durF_nonneg ch q3
  have hspan := span_eq ch hR.2.1 hR.2.2.2 hR.2.2.1 q3
  have hslack : durF ch ≤ D.tEnd - t0 - p * ((r : ℤ) - 1) - m := by
    have : p * ((r : ℤ) - 1) = ((r : ℤ) - 1) * p := mul_comm _ _
    omega
  obtain ⟨hpd, hpf⟩ := pdsF_ok ch (durF ch) q3 hR.2.2.2 hR.2.2.1 le_rfl
  -- the whole
  have hbase : ∀ f ∈ fieldsR S T ++ [(p - 1, p + room / ((r : ℤ) - 1)), (t0 - D.tStart, room + 1)], Fits f := by
    intro f hf
    rcases List.mem_append.1 hf with hf | hf
    · exact hfR f hf
    · simp only [List.mem_cons, List.not_mem_nil, or_false] at hf
      rcases hf with rfl | rfl
      · exact ⟨by simp only []; omega, by simp only []; omega⟩
      · exact ⟨by simp only []; omega, by simp only []; omega⟩
  have hmsg : message S D r p ch t0 (cov.map Prod.fst) = fieldsR S T ++ [(p - 1, p + room / ((r : ℤ) - 1)), (t0 - D.tStart, room + 1)] ++
      if hasNestedPDs ch then (durF ch, D.tEnd - t0 - p * ((r : ℤ) - 1) - m + 1) :: fieldsPF ch (durF ch) else [] := by
    unfold message
    simp only [hX, ← hTe]
    rw [← hroom]
    congr 1
    split
    · next => simp [hasNestedPDs, isInterm]
    · next h =>
      have hne : hasNestedPDs ch = true := by
        cases ch with
        | nil => simp [Forest.NonEmpty] at hR
        | cons d t rest =>
          cases rest with
          | cons d' t' rest' => simp [hasNestedPDs]
          | nil =>
            cases t with
            | leaf a => exact absurd rfl (h d a)
            | node => simp [hasNestedPDs, isInterm]
      rw [if_pos hne, ← hTe, hms, hspan]
  refine ⟨?_, ?_, ?_, by rw [← hTe]; exact hpos⟩
  · rw [hmsg]
    unfold codeLength
    simp only [← hTe, z1, hEd, hcorr za hzk, ← hez, hclEv, hclR, hclP, hclT, Option.bind_eq_bind, Option.bind_some]
    by_cases hnest : hasNestedPDs ch = true
    · rw [if_pos hnest, if_pos hnest]
      have hmin : ((rightKeys T true).mapM (fun k => getCCorr T k ((keys T).zip ((keys T).map v)))).bind npMinZ = some m := by
        rw [PTree.mapM_some_map _ _ (corr T v) (fun k hk => hcorr k (rightKeys_sub T hT k hk)), Option.bind_some, npMinZ_eq, hm]
      have hmx := max_star r p ch (hTe ▸ hT) (hTe ▸ hP) t0
      rw [← hTe] at hmx
      have hlk := lookup_star T t0 hzk
      simp only [hmin, hmx, hlk, z3, Option.bind_some]
      have e1 : t0 + (((r : ℤ) - 1) * p + durF ch) - (t0 + ((r : ℤ) - 1) * p) = durF ch := by ring
      rw [e1, hpd]
      simp only [Option.bind_some, Option.isNone_some, Bool.false_eq_true, and_false, if_false]
      rw [log2_some (by omega)]
      simp only [Option.bind_some, Option.pure_def, Option.some.injEq, bits_append, bits_cons, bits_nil, corrBits_eq]
      ring
    · rw [if_neg hnest, if_neg hnest]
      simp only [Option.pure_def, Option.some.injEq, bits_append, bits_cons, bits_nil, corrBits_eq]
      ring
  · rw [hmsg]
    intro f hf
    rcases List.mem_append.1 hf with hf | hf
    · exact hbase f hf
    · split at hf
      · rcases List.mem_cons.1 hf with rfl | hf
        · exact ⟨hdn, by simp only []; omega⟩
        · exact hpf f hf
      · simp at hf
  · have e1 : ecZa r p ch E = ez := by rw [hez, ecZa, hza, hv, hTe]
    have e2 : ecZz (.node r p ch) E = m := by rw [ecZz, ← hTe, ← hv, hm, Option.getD_some]
    rw [hmsg, e1, e2, ePT, eT0, hTe]

/-- C73. A pattern whose occurrences are distinct occurrences of the data: the code length is defined; it is the cost of the events and brackets, of the numbers of the message and of the corrections; and every number fits the values allowed for it. -/
theorem cost_message (S : List (ℤ × α)) (D : Details α) (hD : IsDetails S D) (r : ℕ) (p : ℤ) (ch : Forest α) (hT : (PTree.Tree.node r p ch).Regular) (hP : Proper (PTree.Tree.node r p ch))
    (t0 : ℤ) (E : List ℤ) (hl : E.length + 1 = nbOccs (.node r p ch)) (cov : List (ℤ × α)) (hc : getCovSeq (.node r p ch) t0 E = some cov) (hS : ∀ x ∈ cov, x ∈ S) (hn : cov.Nodup) :
    codeLength (.node r p ch) t0 (some E) D = some (eventBits S (.node r p ch) + bits (message S D r p ch t0 (cov.map Prod.fst)) + (corrBits E : ℝ)) ∧
      ∀ f ∈ message S D r p ch t0 (cov.map Prod.fst), Fits f :=
  ⟨(cost_message_aux S D hD r p ch hT hP t0 E hl cov hc hS hn).1, (cost_message_aux S D hD r p ch hT hP t0 E hl cov hc hS hn).2.1⟩

end Verif.Cost
