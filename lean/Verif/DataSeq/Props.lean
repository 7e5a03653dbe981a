import Verif.DataSeq.Lemmas
import Mathlib.Algebra.BigOperators.Group.List.Basic
import Mathlib.Algebra.Order.Ring.Rat
import Mathlib.Tactic.FieldSimp
import Mathlib.Tactic.Ring
import Mathlib.Tactic.NormNum

/-!
# Data sequences: properties (C51, C55)
-/

set_option autoImplicit false
set_option linter.unusedSectionVars false

namespace Verif.DataSeq

variable {α : Type*} [LinearOrder α]

/-- Internal form: the fields of the built sequence, for a dictionary without empty entries. -/
theorem ofDict_ok (tmp : List (α × List ℤ)) (hn : (tmp.map Prod.fst).Nodup) (hne : ∀ q ∈ tmp, q.2 ≠ []) :
    ∃ d, ofDict tmp = .ok d ∧ d.listEv = (tmp.map Prod.fst).insertionSort (· ≤ ·) ∧ d.mapEvNum = d.listEv.zipIdx ∧
      d.seqd = tmp.map (fun q => (d.listEv.idxOf q.1, q.2)) ∧
      d.seql = (d.seqd.flatMap (fun e => e.2.map (fun t => (t, e.1)))).insertionSort pairLe ∧
      d.evNbOccs = d.seqd.map (fun e => (e.1, e.2.length)) ∧
      d.deltaT = d.tEnd - d.tStart ∧
      (tmp ≠ [] → (∃ q ∈ tmp, d.tStart ∈ q.2) ∧ (∃ q ∈ tmp, d.tEnd ∈ q.2) ∧ ∀ q ∈ tmp, ∀ t ∈ q.2, d.tStart ≤ t ∧ t ≤ d.tEnd) := by
  obtain ⟨L, hL⟩ : ∃ L, L = (tmp.map Prod.fst).insertionSort (· ≤ ·) := ⟨_, rfl⟩
  have hmem : ∀ q ∈ tmp, q.1 ∈ L := by
    intro q hq; rw [hL, List.mem_insertionSort]; exact List.mem_map.2 ⟨q, hq, rfl⟩
  have hm : tmp.mapM (fun q => (L.zipIdx.lookup q.1).map (fun k => (k, q.2))) = some (tmp.map (fun q => (L.idxOf q.1, q.2))) := by
    apply mapM_some
    intro q hq
    rw [lookup_zipIdx _ _ _ (hmem q hq)]; simp
  obtain ⟨sd, hsd⟩ : ∃ sd, sd = tmp.map (fun q => (L.idxOf q.1, q.2)) := ⟨_, rfl⟩
  have htr : translate tmp = .ok (L, L.zipIdx, sd, (sd.flatMap (fun e => e.2.map (fun t => (t, e.1)))).insertionSort pairLe) := by
    unfold translate
    simp only [← hL]
    rw [hm, ← hsd]
  have hsne : ∀ e ∈ sd, e.2 ≠ [] := by
    intro e he
    rw [hsd] at he
    obtain ⟨q, hq, rfl⟩ := List.mem_map.1 he
    exact hne q hq
  -- pointwise minima and maxima
  obtain ⟨mn, hmn⟩ : ∃ mn : ℕ × List ℤ → ℤ, ∀ e ∈ sd, npMin e.2 = .ok (mn e) ∧ mn e ∈ e.2 ∧ ∀ x ∈ e.2, mn e ≤ x := by
    refine ⟨fun e => if h : e.2 ≠ [] then (npMin_ok e.2 h).choose else 0, fun e he => ?_⟩
    simp only [dif_pos (hsne e he)]
    obtain ⟨h1, h2, h3⟩ := (npMin_ok e.2 (hsne e he)).choose_spec
    exact ⟨h2, h1, h3⟩
  obtain ⟨mx, hmx⟩ : ∃ mx : ℕ × List ℤ → ℤ, ∀ e ∈ sd, npMax e.2 = .ok (mx e) ∧ mx e ∈ e.2 ∧ ∀ x ∈ e.2, x ≤ mx e := by
    refine ⟨fun e => if h : e.2 ≠ [] then (npMax_ok e.2 h).choose else 0, fun e he => ?_⟩
    simp only [dif_pos (hsne e he)]
    obtain ⟨h1, h2, h3⟩ := (npMax_ok e.2 (hsne e he)).choose_spec
    exact ⟨h2, h1, h3⟩
  have hs : sd.mapM (fun e => (npMin e.2).map (fun m => (e.1, m))) = .ok (sd.map (fun e => (e.1, mn e))) := by
    apply mapM_ok
    intro e he; rw [(hmn e he).1]; rfl
  have he : sd.mapM (fun e => (npMax e.2).map (fun m => (e.1, m))) = .ok (sd.map (fun e => (e.1, mx e))) := by
    apply mapM_ok
    intro e he; rw [(hmx e he).1]; rfl
  unfold ofDict
  rw [htr]
  simp only [hs, he]
  split
  · -- some occurrence
    next hpos =>
    have hsd0 : sd ≠ [] := by rintro h; rw [h] at hpos; simp at hpos
    obtain ⟨te, hte1, hte2, hte3⟩ := npMax_ok ((sd.map (fun e => (e.1, mx e))).map Prod.snd) (by simpa using hsd0)
    obtain ⟨ts, hts1, hts2, hts3⟩ := npMin_ok ((sd.map (fun e => (e.1, mn e))).map Prod.snd) (by simpa using hsd0)
    rw [hte2, hts2]
    refine ⟨_, rfl, hL, rfl, hsd, rfl, rfl, rfl, fun _ => ?_⟩
    have hin : ∀ q ∈ tmp, (L.idxOf q.1, q.2) ∈ sd := fun q hq => by rw [hsd]; exact List.mem_map.2 ⟨q, hq, rfl⟩
    refine ⟨?_, ?_, fun q hq t ht => ⟨?_, ?_⟩⟩
    · rw [List.map_map] at hts1
      obtain ⟨e, he', rfl⟩ := List.mem_map.1 hts1
      have := (hmn e he').2.1
      rw [hsd] at he'
      obtain ⟨q, hq, rfl⟩ := List.mem_map.1 he'
      exact ⟨q, hq, this⟩
    · rw [List.map_map] at hte1
      obtain ⟨e, he', rfl⟩ := List.mem_map.1 hte1
      have := (hmx e he').2.1
      rw [hsd] at he'
      obtain ⟨q, hq, rfl⟩ := List.mem_map.1 he'
      exact ⟨q, hq, this⟩
    · refine (hts3 (mn (L.idxOf q.1, q.2)) ?_).trans ((hmn _ (hin q hq)).2.2 t ht)
      rw [List.map_map]
      exact List.mem_map.2 ⟨_, hin q hq, rfl⟩
    · refine ((hmx _ (hin q hq)).2.2 t ht).trans (hte3 (mx (L.idxOf q.1, q.2)) ?_)
      rw [List.map_map]
      exact List.mem_map.2 ⟨_, hin q hq, rfl⟩
  · next hpos =>
    refine ⟨_, rfl, hL, rfl, hsd, rfl, rfl, (by simp), fun htmp => ?_⟩
    exfalso
    apply hpos
    obtain ⟨q, tmp', rfl⟩ := List.exists_cons_of_ne_nil htmp
    rw [hsd]
    simp only [List.map_cons, List.sum_cons]
    have := List.length_pos_iff.2 (hne q (by simp))
    omega

/-- C51, dictionary input: every event with a nonempty list of times.
The events are numbered by rank (the number of smaller events), the number-to-event map inverts the numbering, the times of each event are kept as
they are, the list of pairs is in chronological order and holds exactly the input pairs, and the range is the span of the times. -/
theorem dict_sequence (tmp : List (α × List ℤ)) (hn : (tmp.map Prod.fst).Nodup) (hne : ∀ q ∈ tmp, q.2 ≠ []) :
    ∃ d, ofDict tmp = .ok d ∧
      (∀ e, e ∈ d.listEv ↔ e ∈ tmp.map Prod.fst) ∧ d.listEv.Pairwise (· < ·) ∧
      (∀ q ∈ tmp, d.mapEvNum.lookup q.1 = some ((tmp.map Prod.fst).filter (· < q.1)).length ∧
        numToEv d ((tmp.map Prod.fst).filter (· < q.1)).length = some q.1 ∧
        getSequence d ((tmp.map Prod.fst).filter (· < q.1)).length = q.2) ∧
      d.seql.Pairwise (fun a b => a.1 < b.1 ∨ (a.1 = b.1 ∧ a.2 ≤ b.2)) ∧
      (d.seql.map (fun p => (p.1, numToEv d p.2))).Perm (tmp.flatMap (fun q => q.2.map (fun t => (t, some q.1)))) ∧
      (tmp ≠ [] → (∃ q ∈ tmp, d.tStart ∈ q.2) ∧ (∃ q ∈ tmp, d.tEnd ∈ q.2) ∧ ∀ q ∈ tmp, ∀ t ∈ q.2, d.tStart ≤ t ∧ t ≤ d.tEnd) := by
  obtain ⟨d, hd, hL, hM, hS, hQ, _, _, hT⟩ := ofDict_ok tmp hn hne
  have hmem : ∀ e, e ∈ d.listEv ↔ e ∈ tmp.map Prod.fst := fun e => by rw [hL, List.mem_insertionSort]
  have hsorted : d.listEv.Pairwise (· < ·) := by rw [hL]; exact sorted_keys _ hn
  have hnd : d.listEv.Nodup := hsorted.imp (fun h => ne_of_lt h)
  have hin : ∀ q ∈ tmp, q.1 ∈ d.listEv := fun q hq => (hmem _).2 (List.mem_map.2 ⟨q, hq, rfl⟩)
  have hrank : ∀ q ∈ tmp, d.listEv.idxOf q.1 = ((tmp.map Prod.fst).filter (· < q.1)).length := by
    intro q hq
    rw [idxOf_rank _ _ hsorted (hin q hq), hL]
    exact ((List.perm_insertionSort _ _).filter _).length_eq
  have hev : ∀ q ∈ tmp, numToEv d (d.listEv.idxOf q.1) = some q.1 := by
    intro q hq
    unfold numToEv
    rw [lookup_swap _ _ _ (Nat.zero_le _), Nat.sub_zero, List.getElem?_eq_getElem (List.idxOf_lt_length_of_mem (hin q hq))]
    simp
  refine ⟨d, hd, hmem, hsorted, fun q hq => ?_, ?_, ?_, hT⟩
  · rw [← hrank q hq]
    refine ⟨?_, hev q hq, ?_⟩
    · rw [hM, lookup_zipIdx _ _ _ (hin q hq), Nat.zero_add]
    · unfold getSequence
      rw [lookup_of_mem d.seqd ?_ _ q.2 (by rw [hS]; exact List.mem_map.2 ⟨q, hq, rfl⟩)]
      · rfl
      · rw [hS, List.map_map]
        have : (tmp.map (Prod.fst ∘ fun q : α × List ℤ => (d.listEv.idxOf q.1, q.2))) = (tmp.map Prod.fst).map d.listEv.idxOf := by
          rw [List.map_map]; rfl
        rw [this]
        refine List.Nodup.map_on ?_ hn
        intro a ha b hb h
        have ha' := (hmem a).2 ha
        have hb' := (hmem b).2 hb
        have h1 := List.getElem_idxOf (List.idxOf_lt_length_of_mem ha')
        have h2 := List.getElem_idxOf (List.idxOf_lt_length_of_mem hb')
        rw [← h1, ← h2]
        congr 1
  · rw [hQ]; exact List.pairwise_insertionSort pairLe _
  · rw [hQ]
    refine ((List.perm_insertionSort pairLe _).map _).trans ?_
    rw [hS, List.flatMap_map, List.map_flatMap]
    rw [List.flatMap_congr]
    intro q hq
    rw [List.map_map]
    apply List.map_congr_left
    intro t _
    simp [hev q hq]

/-- C51, dictionary input: an event with no time raises. -/
theorem dict_empty_entry (tmp : List (α × List ℤ)) (q : α × List ℤ) (hq : q ∈ tmp) (h : q.2 = []) :
    ∃ e, ofDict tmp = .error e := by
  unfold ofDict
  cases ht : translate tmp with
  | error e => exact ⟨e, rfl⟩
  | ok r =>
    obtain ⟨L, M, sd, sl⟩ := r
    have hsd : ∃ e ∈ sd, e.2 = [] := by
      unfold translate at ht
      simp only at ht
      rw [mapM_some _ (fun q => (((tmp.map Prod.fst).insertionSort (· ≤ ·)).idxOf q.1, q.2))] at ht
      · simp only [Except.ok.injEq, Prod.mk.injEq] at ht
        obtain ⟨_, _, ht, _⟩ := ht
        rw [← ht]
        exact ⟨_, List.mem_map.2 ⟨q, hq, rfl⟩, h⟩
      · intro x hx
        rw [lookup_zipIdx _ _ _ (by rw [List.mem_insertionSort]; exact List.mem_map.2 ⟨x, hx, rfl⟩)]; simp
    obtain ⟨e, he, hee⟩ := hsd
    obtain ⟨err, herr⟩ := mapM_error (fun e : ℕ × List ℤ => (npMin e.2).map (fun m => (e.1, m))) sd
      ⟨e, he, _, by simp only [hee]; rfl⟩
    exact ⟨err, by simp only [herr]⟩

/-- C51, list input: never raises. The events are numbered by rank, the number-to-event map inverts the numbering, the times of each event are those of
its pairs in input order, the list of pairs is in chronological order and is the input up to order and numbering. -/
theorem list_sequence (seq : List (ℤ × α)) :
    ∃ d, ofList seq = .ok d ∧
      (∀ e, e ∈ d.listEv ↔ e ∈ seq.map Prod.snd) ∧ d.listEv.Pairwise (· < ·) ∧
      (∀ e ∈ seq.map Prod.snd, ∃ k, d.mapEvNum.lookup e = some k ∧ k = (d.listEv.filter (· < e)).length ∧ numToEv d k = some e ∧
        getSequence d k = (seq.filter (fun x => x.2 = e)).map Prod.fst) ∧
      d.seql.Pairwise (fun a b => a.1 < b.1 ∨ (a.1 = b.1 ∧ a.2 ≤ b.2)) ∧
      (d.seql.map (fun p => (p.1, numToEv d p.2))).Perm (seq.map (fun x => (x.1, some x.2))) ∧
      (seq ≠ [] → d.tStart ∈ seq.map Prod.fst ∧ d.tEnd ∈ seq.map Prod.fst ∧ ∀ t ∈ seq.map Prod.fst, d.tStart ≤ t ∧ t ≤ d.tEnd) := by
  obtain ⟨d, hd, h1, h2, h3, h4, h5, h6⟩ := dict_sequence (group seq) (group_nodup seq) (fun q hq => (group_entry seq q.1 q.2 hq).2)
  refine ⟨d, hd, fun e => (h1 e).trans (group_keys_mem seq e), h2, fun e he => ?_, h4, h5.trans ?_, fun hne => ?_⟩
  · obtain ⟨⟨e', ts⟩, hq, rfl⟩ := List.mem_map.1 ((group_keys_mem seq e).2 he)
    obtain ⟨ha, hb, hc⟩ := h3 _ hq
    refine ⟨_, ha, ?_, hb, hc.trans (group_entry seq _ _ hq).1⟩
    have hp : ((group seq).map Prod.fst).Perm d.listEv :=
      (List.perm_ext_iff_of_nodup (group_nodup seq) (h2.imp (fun h => ne_of_lt h))).2 (fun e => (h1 e).symm)
    exact (hp.filter _).length_eq
  · have := (group_flat seq).map (fun x : ℤ × α => (x.1, some x.2))
    refine List.Perm.trans (List.Perm.of_eq ?_) this
    unfold flat
    rw [List.map_flatMap, List.flatMap_congr]
    intro q _
    rw [List.map_map]
    rfl
  · have hg : group seq ≠ [] := by
      intro h
      have := (group_flat seq)
      rw [h] at this
      exact hne (List.perm_nil.1 this.symm)
    obtain ⟨⟨q, hq, ha⟩, ⟨q', hq', hb⟩, hc⟩ := h6 hg
    have hmem : ∀ t : ℤ, t ∈ seq.map Prod.fst ↔ ∃ q ∈ group seq, t ∈ q.2 := by
      intro t
      rw [((group_flat seq).map Prod.fst).mem_iff.symm]
      simp only [flat, List.mem_map, List.mem_flatMap]
      constructor
      · rintro ⟨x, ⟨q, hq, t', ht', rfl⟩, rfl⟩; exact ⟨q, hq, ht'⟩
      · rintro ⟨q, hq, ht⟩; exact ⟨_, ⟨q, hq, t, ht, rfl⟩, rfl⟩
    exact ⟨(hmem _).2 ⟨q, hq, ha⟩, (hmem _).2 ⟨q', hq', hb⟩, fun t ht => by
      obtain ⟨q, hq, h⟩ := (hmem t).1 ht
      exact hc q hq t h⟩

/-- The docstring's input and one more pair: events `A = 65`, `B = 66`, `C = 67`. -/
example : (ofList [(1, 65), (2, 66), (3, 65), (4, 67), (2, 65)]).toOption.map (fun d => (d.listEv, d.seql, d.tStart, d.tEnd)) =
    some (([65, 66, 67] : List ℕ), [(1, 0), (2, 0), (2, 1), (3, 0), (4, 2)], 1, 4) := by decide

/-- C55. The event frequencies used as code probabilities sum to one, for every nonempty sequence. -/
theorem org_freqs_sum (nb : List (ℕ × ℕ)) (h : 0 < (nb.map Prod.snd).sum) : ((orgFreqs nb).map Prod.snd).sum = 1 := by
  have h' : (((nb.map Prod.snd).sum : ℕ) : ℚ) ≠ 0 := by exact_mod_cast h.ne'
  unfold orgFreqs
  simp only [List.map_map]
  have : ∀ (l : List (ℕ × ℕ)) (T : ℚ), (l.map (Prod.snd ∘ fun e : ℕ × ℕ => (e.1, (e.2 : ℚ) / T))).sum = ((l.map Prod.snd).sum : ℕ) / T := by
    intro l T
    induction l with
    | nil => simp
    | cons a l ih => rw [List.map_cons, List.sum_cons, ih, List.map_cons, List.sum_cons, Nat.cast_add]; simp only [Function.comp]; ring
  rw [this, div_self h']

/-- C55. With the two block delimiters, the adjusted frequencies sum to one, and each event has a third of its frequency. -/
theorem adj_freqs_sum (nb : List (ℕ × ℕ)) (h : 0 < (nb.map Prod.snd).sum) :
    ((adjFreqs nb).map Prod.snd).sum = 1 ∧
    (adjFreqs nb).drop 2 = (orgFreqs nb).map (fun e => (some e.1, e.2 / 3)) := by
  have h' : (((nb.map Prod.snd).sum : ℕ) : ℚ) ≠ 0 := by exact_mod_cast h.ne'
  have hd : (adjFreqs nb).drop 2 = (orgFreqs nb).map (fun e => (some e.1, e.2 / 3)) := by
    unfold adjFreqs orgFreqs
    simp only [List.drop_succ_cons, List.drop_zero, List.map_map]
    apply List.map_congr_left
    intro e _
    simp only [Function.comp, Prod.mk.injEq, true_and]
    field_simp
  refine ⟨?_, hd⟩
  have hs : (adjFreqs nb).map Prod.snd = (1 / 3 : ℚ) :: (1 / 3 : ℚ) :: ((adjFreqs nb).drop 2).map Prod.snd := rfl
  rw [hs, hd, List.sum_cons, List.sum_cons, List.map_map]
  have : ∀ l : List (ℕ × ℚ), (l.map (Prod.snd ∘ fun e : ℕ × ℚ => (some e.1, e.2 / 3))).sum = (l.map Prod.snd).sum / 3 := by
    intro l
    induction l with
    | nil => simp
    | cons a l ih => rw [List.map_cons, List.sum_cons, ih, List.map_cons, List.sum_cons]; simp only [Function.comp]; ring
  rw [this, org_freqs_sum nb h]
  norm_num

/-- C55 for a built sequence: the frequencies of its events are their shares of the pairs. -/
theorem sequence_freqs (seq : List (ℤ × α)) (hne : seq ≠ []) :
    ∃ d, ofList seq = .ok d ∧ (d.evNbOccs.map Prod.snd).sum = seq.length ∧ ((orgFreqs d.evNbOccs).map Prod.snd).sum = 1 ∧
      ∀ e ∈ seq.map Prod.snd, ∃ k, d.mapEvNum.lookup e = some k ∧
        (k, (((seq.filter (fun x => x.2 = e)).length : ℕ) : ℚ) / (seq.length : ℕ)) ∈ orgFreqs d.evNbOccs := by
  obtain ⟨d, hd, hL, hM, hS, _, hN, _, _⟩ := ofDict_ok (group seq) (group_nodup seq) (fun q hq => (group_entry seq q.1 q.2 hq).2)
  have hsum : (d.evNbOccs.map Prod.snd).sum = seq.length := by
    rw [hN, hS, List.map_map, List.map_map, ← (group_flat seq).length_eq, flat, List.length_flatMap]
    congr 1
    apply List.map_congr_left
    intro q _
    simp
  refine ⟨d, hd, hsum, org_freqs_sum _ (by rw [hsum]; exact List.length_pos_iff.2 hne), fun e he => ?_⟩
  obtain ⟨⟨e', ts⟩, hq, rfl⟩ := List.mem_map.1 ((group_keys_mem seq e).2 he)
  refine ⟨d.listEv.idxOf e', ?_, ?_⟩
  · rw [hM, lookup_zipIdx _ _ _ (by rw [hL, List.mem_insertionSort]; exact List.mem_map.2 ⟨_, hq, rfl⟩), Nat.zero_add]
  · unfold orgFreqs
    simp only [hsum]
    refine List.mem_map.2 ⟨(d.listEv.idxOf e', ts.length), ?_, ?_⟩
    · rw [hN, hS, List.map_map]
      exact List.mem_map.2 ⟨_, hq, rfl⟩
    · have := (group_entry seq _ _ hq).1
      rw [this, List.length_map]

example : orgFreqs [(0, 3), (1, 1)] = [(0, 3 / 4), (1, 1 / 4)] ∧
    adjFreqs [(0, 3), (1, 1)] = [(none, 1 / 3), (none, 1 / 3), (some 0, 1 / 4), (some 1, 1 / 12)] := by decide +kernel

end Verif.DataSeq
