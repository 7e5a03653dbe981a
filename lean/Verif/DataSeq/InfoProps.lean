import Verif.DataSeq.InfoModel
import Verif.DataSeq.Props
import Mathlib.Data.List.Dedup

/-!
# The description of a data sequence: properties (C164)
-/

set_option autoImplicit false
set_option linter.unusedSectionVars false

namespace Verif.DataSeq

variable {α : Type*} [LinearOrder α]

/-- Insertion sort by a key keeps the order of elements of equal key. -/
theorem keySort_lex (f : ℕ → ℕ) : ∀ l : List ℕ, l.Pairwise (· < ·) →
    (l.insertionSort (fun x y => f x ≤ f y)).Pairwise (fun a b => f a < f b ∨ (f a = f b ∧ a < b))
  | [], _ => List.Pairwise.nil
  | a :: l, h => by
    rw [List.insertionSort_cons]
    have ih := keySort_lex f l (List.pairwise_cons.1 h).2
    have hlt : ∀ x ∈ l.insertionSort (fun x y => f x ≤ f y), a < x :=
      fun x hx => (List.pairwise_cons.1 h).1 x ((List.mem_insertionSort _).1 hx)
    generalize l.insertionSort (fun x y => f x ≤ f y) = m at ih hlt
    induction m with
    | nil => simp
    | cons b m ihm =>
      rw [List.orderedInsert]
      obtain ⟨h1, h2⟩ := List.pairwise_cons.1 ih
      split
      · next hab =>
        refine List.pairwise_cons.2 ⟨fun x hx => ?_, ih⟩
        have hax := hlt x hx
        have : f a ≤ f x := by
          rcases List.mem_cons.1 hx with rfl | hx
          · exact hab
          · rcases h1 x hx with h | h <;> omega
        omega
      · next hab =>
        refine List.pairwise_cons.2 ⟨fun x hx => ?_, ihm h2 (fun x hx => hlt x (List.mem_cons_of_mem _ hx))⟩
        rcases (List.mem_orderedInsert _).1 hx with rfl | hx
        · left; omega
        · exact h1 x hx

/-- The first and last times kept for the events are the least and largest of their times. -/
theorem ofDict_spans (tmp : List (α × List ℤ)) (d : Built α) (h : ofDict tmp = .ok d) :
    d.seqd.mapM (fun e => (npMin e.2).map (fun m => (e.1, m))) = .ok d.evStarts ∧
    d.seqd.mapM (fun e => (npMax e.2).map (fun m => (e.1, m))) = .ok d.evEnds := by
  unfold ofDict at h
  split at h
  · cases h
  · split at h
    · next hs he =>
      simp only at h
      split at h
      · split at h
        · cases h; exact ⟨hs, he⟩
        · cases h
        · cases h
      · cases h; exact ⟨hs, he⟩
    · cases h
    · cases h

/-- The line of an event, for a list of pairs. -/
theorem line_of (seq : List (ℤ × α)) (d : Built α) (hd : ofList seq = .ok d) :
    d.listEv.Pairwise (· < ·) ∧ (∀ e, e ∈ d.listEv ↔ e ∈ seq.map Prod.snd) ∧ (d.evNbOccs.map Prod.snd).sum = seq.length ∧
    d.evNbOccs.length = d.listEv.length ∧ d.deltaT = d.tEnd - d.tStart ∧
    ∀ (k : ℕ) (hk : k < d.listEv.length), d.evNbOccs.lookup k = some (seq.filter (fun x => x.2 = d.listEv[k])).length ∧
      ∃ a b : ℤ, (a, d.listEv[k]) ∈ seq ∧ (b, d.listEv[k]) ∈ seq ∧ (∀ t, (t, d.listEv[k]) ∈ seq → a ≤ t ∧ t ≤ b) ∧
        infoLine d k = some ⟨d.listEv[k], k, (seq.filter (fun x => x.2 = d.listEv[k])).length,
          (((seq.filter (fun x => x.2 = d.listEv[k])).length : ℕ) : ℚ) / (seq.length : ℕ), b - a⟩ := by
  have hne : ∀ q ∈ group seq, q.2 ≠ [] := fun q hq => (group_entry seq q.1 q.2 hq).2
  obtain ⟨d', hd', hL, hM, hS, _, hN, hT, _⟩ := ofDict_ok (group seq) (group_nodup seq) hne
  have hdd : d' = d := by
    have : (Except.ok d' : Except String (Built α)) = .ok d := by rw [← hd', ← hd]; rfl
    exact Except.ok.inj this
  subst hdd
  have hmem : ∀ e, e ∈ d'.listEv ↔ e ∈ (group seq).map Prod.fst := fun e => by rw [hL, List.mem_insertionSort]
  have hsorted : d'.listEv.Pairwise (· < ·) := by rw [hL]; exact sorted_keys _ (group_nodup seq)
  have hnd : d'.listEv.Nodup := hsorted.imp (fun h => ne_of_lt h)
  have hsum : (d'.evNbOccs.map Prod.snd).sum = seq.length := by
    rw [hN, hS, List.map_map, List.map_map, ← (group_flat seq).length_eq, flat, List.length_flatMap]
    congr 1
    apply List.map_congr_left
    intro q _
    simp
  have hkeys : (d'.seqd.map Prod.fst).Nodup := by
    rw [hS, List.map_map]
    have : ((group seq).map (Prod.fst ∘ fun q : α × List ℤ => (d'.listEv.idxOf q.1, q.2))) = ((group seq).map Prod.fst).map d'.listEv.idxOf := by
      rw [List.map_map]; rfl
    rw [this]
    refine List.Nodup.map_on ?_ (group_nodup seq)
    intro a ha b hb h
    have h1 := List.getElem_idxOf (List.idxOf_lt_length_of_mem ((hmem a).2 ha))
    have h2 := List.getElem_idxOf (List.idxOf_lt_length_of_mem ((hmem b).2 hb))
    rw [← h1, ← h2]
    congr 1
  refine ⟨hsorted, fun e => (hmem e).trans (group_keys_mem seq e), hsum, ?_, hT, fun k hk => ?_⟩
  · rw [hN, hS, hL, List.length_map, List.length_map, List.length_insertionSort, List.length_map]
  obtain ⟨⟨e, ts⟩, hq, he⟩ := List.mem_map.1 ((hmem d'.listEv[k]).1 (List.getElem_mem hk))
  simp only at he
  have hk' : d'.listEv.idxOf e = k := by rw [he]; exact hnd.idxOf_getElem k hk
  obtain ⟨hts, htne⟩ := group_entry seq e ts hq
  have hqs : (k, ts) ∈ d'.seqd := by
    rw [hS]; exact List.mem_map.2 ⟨(e, ts), hq, by simp only [hk']⟩
  have hlen : ts.length = (seq.filter (fun x => x.2 = d'.listEv[k])).length := by rw [hts, List.length_map, he]
  have hts' : ∀ t, t ∈ ts ↔ (t, d'.listEv[k]) ∈ seq := by
    intro t
    rw [hts, List.mem_map, ← he]
    constructor
    · rintro ⟨x, hx, rfl⟩
      rw [List.mem_filter, decide_eq_true_eq] at hx
      rw [← hx.2]; exact hx.1
    · intro h; exact ⟨(t, e), List.mem_filter.2 ⟨h, by simp⟩, rfl⟩
  have hocc : d'.evNbOccs.lookup k = some ts.length := by
    apply lookup_of_mem
    · rw [hN, List.map_map]; exact hkeys
    · rw [hN]; exact List.mem_map.2 ⟨_, hqs, rfl⟩
  have hfr : (orgFreqs d'.evNbOccs).lookup k = some ((ts.length : ℚ) / (seq.length : ℕ)) := by
    apply lookup_of_mem
    · unfold orgFreqs
      simp only [List.map_map]
      rw [hN, List.map_map]; exact hkeys
    · unfold orgFreqs
      simp only [hsum]
      refine List.mem_map.2 ⟨(k, ts.length), ?_, rfl⟩
      rw [hN]; exact List.mem_map.2 ⟨_, hqs, rfl⟩
  have hsne : ∀ e ∈ d'.seqd, e.2 ≠ [] := by
    intro e he
    rw [hS] at he
    obtain ⟨q, hq, rfl⟩ := List.mem_map.1 he
    exact hne q hq
  obtain ⟨hst, hen⟩ := ofDict_spans _ _ hd'
  obtain ⟨mn, hmn⟩ : ∃ mn : ℕ × List ℤ → ℤ, ∀ e ∈ d'.seqd, npMin e.2 = .ok (mn e) ∧ mn e ∈ e.2 ∧ ∀ x ∈ e.2, mn e ≤ x := by
    refine ⟨fun e => if h : e.2 ≠ [] then (npMin_ok e.2 h).choose else 0, fun e he => ?_⟩
    simp only [dif_pos (hsne e he)]
    obtain ⟨h1, h2, h3⟩ := (npMin_ok e.2 (hsne e he)).choose_spec
    exact ⟨h2, h1, h3⟩
  obtain ⟨mx, hmx⟩ : ∃ mx : ℕ × List ℤ → ℤ, ∀ e ∈ d'.seqd, npMax e.2 = .ok (mx e) ∧ mx e ∈ e.2 ∧ ∀ x ∈ e.2, x ≤ mx e := by
    refine ⟨fun e => if h : e.2 ≠ [] then (npMax_ok e.2 h).choose else 0, fun e he => ?_⟩
    simp only [dif_pos (hsne e he)]
    obtain ⟨h1, h2, h3⟩ := (npMax_ok e.2 (hsne e he)).choose_spec
    exact ⟨h2, h1, h3⟩
  rw [mapM_ok _ (fun e => (e.1, mn e)) _ (fun e he => by rw [(hmn e he).1]; rfl), Except.ok.injEq] at hst
  rw [mapM_ok _ (fun e => (e.1, mx e)) _ (fun e he => by rw [(hmx e he).1]; rfl), Except.ok.injEq] at hen
  have hs1 : d'.evStarts.lookup k = some (mn (k, ts)) := by
    apply lookup_of_mem
    · rw [← hst, List.map_map]; exact hkeys
    · rw [← hst]; exact List.mem_map.2 ⟨_, hqs, rfl⟩
  have hs2 : d'.evEnds.lookup k = some (mx (k, ts)) := by
    apply lookup_of_mem
    · rw [← hen, List.map_map]; exact hkeys
    · rw [← hen]; exact List.mem_map.2 ⟨_, hqs, rfl⟩
  rw [← hlen]
  refine ⟨hocc, mn (k, ts), mx (k, ts), (hts' _).1 (hmn _ hqs).2.1, (hts' _).1 (hmx _ hqs).2.1,
    fun t ht => ⟨(hmn _ hqs).2.2 t ((hts' t).2 ht), (hmx _ hqs).2.2 t ((hts' t).2 ht)⟩, ?_⟩
  unfold infoLine
  rw [hocc, hfr, hs1, hs2, List.getElem?_eq_getElem hk]

/-- C164. The description of a nonempty sequence gives the number of different events, the number of pairs, the first and last times and
their difference. Then comes one line per event, the rarest first and events with the same count by name. The line of an event gives its name, its number
(the number of smaller events), its count, its share of the pairs, and the time between its first and last occurrences. -/
theorem info_right (seq : List (ℤ × α)) (hne : seq ≠ []) :
    ∃ (d : Built α) (first last : ℤ) (lines : List (InfoLine α)), ofList seq = .ok d ∧
      infoStr d = .ok (.data (seq.map Prod.snd).dedup.length seq.length (last - first) first last lines) ∧
      first ∈ seq.map Prod.fst ∧ last ∈ seq.map Prod.fst ∧ (∀ t ∈ seq.map Prod.fst, first ≤ t ∧ t ≤ last) ∧
      (lines.map InfoLine.name).Perm (seq.map Prod.snd).dedup ∧
      lines.Pairwise (fun a b => a.occs < b.occs ∨ (a.occs = b.occs ∧ a.name < b.name)) ∧
      ∀ l ∈ lines, l.number = ((seq.map Prod.snd).dedup.filter (· < l.name)).length ∧
        l.occs = (seq.filter (fun x => x.2 = l.name)).length ∧ l.freq = (l.occs : ℚ) / (seq.length : ℕ) ∧
        ∃ a b : ℤ, (a, l.name) ∈ seq ∧ (b, l.name) ∈ seq ∧ (∀ t, (t, l.name) ∈ seq → a ≤ t ∧ t ≤ b) ∧ l.span = b - a := by
  obtain ⟨d, hd, _, _, _, _, _, hrange⟩ := list_sequence seq
  obtain ⟨r1, r2, r3⟩ := hrange hne
  obtain ⟨hsorted, hmem, hsum, hlen, hT, hline⟩ := line_of seq d hd
  have hnd : d.listEv.Nodup := hsorted.imp (fun h => ne_of_lt h)
  have hperm : d.listEv.Perm (seq.map Prod.snd).dedup :=
    (List.perm_ext_iff_of_nodup hnd (List.nodup_dedup _)).2 (fun e => by rw [hmem, List.mem_dedup])
  have hord : ∀ k ∈ infoOrder d, k < d.listEv.length := fun k hk => List.mem_range.1 ((List.mem_insertionSort _).1 hk)
  have hordp : (infoOrder d).Perm (List.range d.listEv.length) := List.perm_insertionSort _ _
  have hordl : (infoOrder d).Pairwise (fun a b => (d.evNbOccs.lookup a).getD 0 < (d.evNbOccs.lookup b).getD 0 ∨
      ((d.evNbOccs.lookup a).getD 0 = (d.evNbOccs.lookup b).getD 0 ∧ a < b)) := keySort_lex _ _ List.pairwise_lt_range
  have hsome : ∀ k ∈ infoOrder d, (infoLine d k).isSome := fun k hk => by
    obtain ⟨_, a, b, _, _, _, h⟩ := hline k (hord k hk)
    rw [h]; rfl
  obtain ⟨g, hg⟩ : ∃ g : ℕ → InfoLine α, ∀ k ∈ infoOrder d, infoLine d k = some (g k) := by
    have : Nonempty (InfoLine α) := by
      obtain ⟨x, xs, rfl⟩ := List.exists_cons_of_ne_nil hne
      exact ⟨⟨x.2, 0, 0, 0, 0⟩⟩
    obtain ⟨l0⟩ := this
    exact ⟨fun k => (infoLine d k).getD l0, fun k hk => by
      obtain ⟨l, hl⟩ := Option.isSome_iff_exists.1 (hsome k hk)
      simp only [hl, Option.getD_some]⟩
  have hgl : ∀ k (hk : k ∈ infoOrder d), (g k).name = d.listEv[k]'(hord k hk) ∧ (g k).number = k ∧
      d.evNbOccs.lookup k = some (g k).occs ∧ (g k).occs = (seq.filter (fun x => x.2 = (g k).name)).length ∧
      (g k).freq = ((g k).occs : ℚ) / (seq.length : ℕ) ∧
      ∃ a b : ℤ, (a, (g k).name) ∈ seq ∧ (b, (g k).name) ∈ seq ∧ (∀ t, (t, (g k).name) ∈ seq → a ≤ t ∧ t ≤ b) ∧ (g k).span = b - a := by
    intro k hk
    obtain ⟨h0, a, b, h1, h2, h3, h⟩ := hline k (hord k hk)
    rw [hg k hk, Option.some.injEq] at h
    rw [h]
    exact ⟨rfl, rfl, h0, rfl, rfl, a, b, h1, h2, h3, rfl⟩
  refine ⟨d, d.tStart, d.tEnd, (infoOrder d).map g, hd, ?_, r1, r2, r3, ?_, ?_, ?_⟩
  · unfold infoStr
    simp only
    rw [if_neg (by rw [hsum]; exact (List.length_pos_iff.2 hne).ne'), mapM_some _ g _ hg, hsum, hlen, hperm.length_eq, hT]
  · refine List.Perm.trans ?_ hperm
    rw [List.map_map]
    have h1 : (infoOrder d).map (InfoLine.name ∘ g) = ((infoOrder d).map (fun k => d.listEv[k]?)).filterMap id := by
      rw [List.filterMap_map]
      symm
      rw [List.filterMap_eq_map_iff_forall_eq_some.2]
      intro k hk
      simp only [Function.comp, id]
      rw [List.getElem?_eq_getElem (hord k hk), (hgl k hk).1]
    rw [h1]
    refine ((hordp.map _).filterMap _).trans (List.Perm.of_eq ?_)
    rw [List.filterMap_map]
    apply List.ext_getElem?
    intro i
    have h2 : (List.range d.listEv.length).map (fun k => d.listEv[k]?) = d.listEv.map some := by
      apply List.ext_getElem
      · simp
      · intro i h1 h2
        simp at h1
        simp [h1]
    rw [← List.filterMap_map, h2, List.filterMap_map]
    simp
  · rw [List.pairwise_map]
    refine hordl.imp_of_mem ?_
    intro a b ha hb h
    obtain ⟨na, _, oa, _⟩ := hgl a ha
    obtain ⟨nb, _, ob, _⟩ := hgl b hb
    rw [oa, ob, Option.getD_some, Option.getD_some] at h
    rcases h with h | ⟨h, hab⟩
    · exact .inl h
    · refine .inr ⟨h, ?_⟩
      rw [na, nb]
      exact List.pairwise_iff_getElem.1 hsorted a b _ _ hab
  · intro l hl
    obtain ⟨k, hk, rfl⟩ := List.mem_map.1 hl
    obtain ⟨h1, h2, _, h4, h5, h6⟩ := hgl k hk
    refine ⟨?_, h4, h5, h6⟩
    rw [h2, ← (hperm.filter _).length_eq, ← idxOf_rank _ _ hsorted (by rw [h1]; exact List.getElem_mem _), h1]
    exact (hnd.idxOf_getElem k _).symm

/-- C164. The description of a sequence without pair says that it is empty. -/
theorem info_empty : ∃ d : Built α, ofList ([] : List (ℤ × α)) = .ok d ∧ infoStr d = .ok .empty :=
  ⟨_, rfl, rfl⟩

/-- The docstring's input and one more pair: `A = 65` has three occurrences, `B = 66` and `C = 67` one each. -/
example : (ofList [(1, 65), (2, 66), (3, 65), (4, 67), (6, 65)]).toOption.bind (fun d => (infoStr d).toOption) =
    some (.data 3 5 5 1 6 [⟨(66 : ℕ), 1, 1, 1 / 5, 0⟩, ⟨67, 2, 1, 1 / 5, 0⟩, ⟨65, 0, 3, 3 / 5, 5⟩]) := by decide +kernel

/-! ### Dictionaries -/

theorem addTime_last (t : ℤ) (e : α) (ts : List ℤ) : ∀ tmp : List (α × List ℤ), e ∉ tmp.map Prod.fst →
    addTime tmp t e = tmp ++ [(e, [t])] ∧ addTime (tmp ++ [(e, ts)]) t e = tmp ++ [(e, ts ++ [t])]
  | [], _ => by simp [addTime]
  | (e', us) :: tmp, h => by
    rw [List.map_cons, List.mem_cons, not_or] at h
    obtain ⟨h1, h2⟩ := addTime_last t e ts tmp h.2
    have hne : ¬ e' = e := fun h' => h.1 h'.symm
    exact ⟨by rw [addTime, if_neg hne, h1]; rfl, by rw [List.cons_append, addTime, if_neg hne, h2]; rfl⟩

theorem addTimes_last (e : α) (tmp : List (α × List ℤ)) (h : e ∉ tmp.map Prod.fst) : ∀ (us ts : List ℤ),
    (us.map (fun t => (t, e))).foldl (fun tmp x => addTime tmp x.1 x.2) (tmp ++ [(e, ts)]) = tmp ++ [(e, ts ++ us)]
  | [], ts => by simp
  | u :: us, ts => by
    rw [List.map_cons, List.foldl_cons, (addTime_last u e ts tmp h).2, addTimes_last e tmp h us (ts ++ [u]), List.append_assoc]
    rfl

theorem group_of_flat (tmp : List (α × List ℤ)) (hn : (tmp.map Prod.fst).Nodup) (hne : ∀ q ∈ tmp, q.2 ≠ []) : group (flat tmp) = tmp := by
  induction tmp using List.reverseRecOn with
  | nil => rfl
  | append_singleton tmp q ih =>
    rw [List.map_append, List.nodup_append] at hn
    have hq : q.1 ∉ tmp.map Prod.fst := fun h => hn.2.2 _ h _ (by simp) rfl
    have h1 := ih hn.1 (fun r hr => hne r (List.mem_append_left _ hr))
    obtain ⟨e, ts⟩ := q
    have hts : ts ≠ [] := hne (e, ts) (by simp)
    obtain ⟨t, ts, rfl⟩ := List.exists_cons_of_ne_nil hts
    have h2 : flat (tmp ++ [(e, t :: ts)]) = flat tmp ++ (t, e) :: ts.map (fun t => (t, e)) := by simp [flat]
    unfold group at h1 ⊢
    rw [h2, List.foldl_append, h1, List.foldl_cons, (addTime_last t e [] tmp hq).1, addTimes_last e tmp hq ts [t]]
    rfl

/-- C164 and C51: a dictionary of events with their times, none of them empty, is the same sequence as the list of its pairs; in particular `info_right` holds for dictionaries. -/
theorem dict_as_list (tmp : List (α × List ℤ)) (hn : (tmp.map Prod.fst).Nodup) (hne : ∀ q ∈ tmp, q.2 ≠ []) :
    ofDict tmp = ofList (tmp.flatMap (fun q => q.2.map (fun t => (t, q.1)))) := by
  have := group_of_flat tmp hn hne
  unfold flat at this
  unfold ofList
  rw [this]

/-- A dictionary with two events. -/
example : (([(7, [3, 1]), (5, [2])] : List (ℕ × List ℤ)).map Prod.fst).Nodup ∧ (∀ q ∈ ([(7, [3, 1]), (5, [2])] : List (ℕ × List ℤ)), q.2 ≠ []) ∧
    ([(7, [3, 1]), (5, [2])] : List (ℕ × List ℤ)).flatMap (fun q => q.2.map (fun t => (t, q.1))) = [(3, 7), (1, 7), (2, 5)] := by decide

end Verif.DataSeq
