import Verif.Miner.Spec
import Verif.PTree.Local
import Verif.DataSeq.Props
import Verif.TimeScale.Props

set_option autoImplicit false
set_option linter.unusedSectionVars false

namespace Verif.Miner

open Verif.PTree Verif.DataSeq Verif.TimeScale

variable {ε : Type} [LinearOrder ε]

theorem mapM_iff {β γ : Type} (f : β → Option γ) : ∀ (l : List β) (l' : List γ), l.mapM f = some l' ↔ l.map f = l'.map some
  | [], l' => by
    cases l' with
    | nil => simp
    | cons b l' => simp
  | a :: l, l' => by
    rw [List.mapM_cons]
    cases h : f a with
    | none => cases l' <;> simp [h]
    | some b =>
      cases l' with
      | nil => cases hm : l.mapM f <;> simp [h]
      | cons c l' =>
        have ih := mapM_iff f l l'
        cases hm : l.mapM f with
        | none =>
          rw [hm] at ih
          simp only [reduceCtorEq, false_iff] at ih
          simp [h, ih]
        | some m =>
          have ihm := (mapM_iff f l m).mp hm
          simp only [h, Option.bind_eq_bind, Option.bind_some, Option.pure_def, Option.some.injEq, List.map_cons, List.cons.injEq]
          rw [ihm]
          constructor
          · rintro ⟨rfl, rfl⟩; exact ⟨rfl, rfl⟩
          · rintro ⟨h1, h2⟩
            exact ⟨h1, List.map_injective_iff.mpr (Option.some_injective _) h2⟩

theorem mapM_exists {β γ : Type} (f : β → Option γ) (l : List β) (h : ∀ x ∈ l, (f x).isSome) : ∃ l', l.mapM f = some l' := by
  induction l with
  | nil => exact ⟨[], rfl⟩
  | cons a l ih =>
    obtain ⟨m, hm⟩ := ih (fun x hx => h x (by simp [hx]))
    obtain ⟨b, hb⟩ := Option.isSome_iff_exists.mp (h a (by simp))
    exact ⟨b :: m, by rw [List.mapM_cons, hb, hm]; rfl⟩

theorem mem_mapM {β γ : Type} {f : β → Option γ} {l : List β} {l' : List γ} (h : l.mapM f = some l') (c : γ) : c ∈ l' ↔ ∃ x ∈ l, f x = some c := by
  have := (mapM_iff f l l').mp h
  constructor
  · intro hc
    have : some c ∈ l.map f := by rw [this]; exact List.mem_map.mpr ⟨c, hc, rfl⟩
    obtain ⟨x, hx, he⟩ := List.mem_map.mp this
    exact ⟨x, hx, he⟩
  · rintro ⟨x, hx, he⟩
    have : some c ∈ l'.map some := by rw [← this]; exact List.mem_map.mpr ⟨x, hx, he⟩
    simpa using this

theorem mem_keepFirst {β : Type} [DecidableEq β] (seen l : List β) (x : β) : x ∈ keepFirst seen l ↔ x ∈ l ∧ x ∉ seen := by
  induction l generalizing seen with
  | nil => simp [keepFirst]
  | cons a l ih =>
    rw [keepFirst]
    split
    · rename_i h
      rw [ih]
      constructor
      · rintro ⟨h1, h2⟩; exact ⟨by simp [h1], h2⟩
      · rintro ⟨h1, h2⟩
        rcases List.mem_cons.mp h1 with rfl | h1
        · exact absurd h h2
        · exact ⟨h1, h2⟩
    · rename_i h
      rw [List.mem_cons, ih]
      by_cases hx : x = a
      · subst hx; simp [h]
      · simp [hx]

theorem nodup_keepFirst {β : Type} [DecidableEq β] (seen l : List β) : (keepFirst seen l).Nodup := by
  induction l generalizing seen with
  | nil => simp [keepFirst]
  | cons a l ih =>
    rw [keepFirst]
    split
    · exact ih _
    · rw [List.nodup_cons]
      exact ⟨by rw [mem_keepFirst]; simp, ih _⟩

/-- The removal of duplicates keeps the set of rows. -/
theorem dedupRows_spec (rows : List (ℤ × ε)) : (dedupRows rows).Nodup ∧ ∀ x, x ∈ dedupRows rows ↔ x ∈ rows := by
  unfold dedupRows
  split
  · rename_i h
    exact ⟨List.Nodup.of_map _ h, fun x => Iff.rfl⟩
  · refine ⟨?_, ?_⟩
    · rw [List.nodup_flatMap]
      refine ⟨fun t _ => nodup_keepFirst _ _, ?_⟩
      have hn : ((keepFirst [] (rows.map Prod.fst)).insertionSort (· ≤ ·)).Nodup := (List.perm_insertionSort _ _).nodup_iff.mpr (nodup_keepFirst _ _)
      refine hn.imp ?_
      intro a b hab
      simp only [Function.onFun]
      rw [List.disjoint_left]
      intro x hx hy
      rw [mem_keepFirst, List.mem_filter] at hx hy
      exact hab (by rw [← of_decide_eq_true hx.1.2, ← of_decide_eq_true hy.1.2])
    · intro x
      simp only [List.mem_flatMap, List.mem_insertionSort, mem_keepFirst, List.mem_filter, List.mem_map, decide_eq_true_eq, List.not_mem_nil, not_false_eq_true, and_true]
      constructor
      · rintro ⟨t, _, h, _⟩; exact h
      · intro h; exact ⟨x.1, ⟨x, h, rfl⟩, h, rfl⟩

theorem mem_dropDup (seen : List (ℤ × ε)) (f : Frame ε) (r : ℤ × ε) : r ∈ (dropDup seen f).map Prod.snd ↔ r ∈ f.map Prod.snd ∧ r ∉ seen := by
  induction f generalizing seen with
  | nil => simp [dropDup]
  | cons a l ih =>
    rw [dropDup]
    split
    · rename_i h
      rw [ih]
      constructor
      · rintro ⟨h1, h2⟩; exact ⟨by simp only [List.map_cons, List.mem_cons]; exact Or.inr h1, h2⟩
      · rintro ⟨h1, h2⟩
        rcases List.mem_cons.mp h1 with rfl | h1
        · exact absurd h h2
        · exact ⟨h1, h2⟩
    · rename_i h
      rw [List.map_cons, List.mem_cons, ih]
      by_cases hx : r = a.2
      · subst hx; simp [h]
      · simp [hx]

theorem nodup_dropDup (seen : List (ℤ × ε)) (f : Frame ε) : ((dropDup seen f).map Prod.snd).Nodup := by
  induction f generalizing seen with
  | nil => simp [dropDup]
  | cons a l ih =>
    rw [dropDup]
    split
    · exact ih _
    · rw [List.map_cons, List.nodup_cons]
      exact ⟨by rw [mem_dropDup]; simp, ih _⟩

theorem dropDup_sublist (seen : List (ℤ × ε)) (f : Frame ε) : (dropDup seen f).Sublist f := by
  induction f generalizing seen with
  | nil => simp [dropDup]
  | cons a l ih =>
    rw [dropDup]
    split
    · exact (ih _).cons _
    · exact (ih _).cons_cons _

/-- Without copies nothing is dropped. -/
theorem dropDup_id (seen : List (ℤ × ε)) (f : Frame ε) (h : (f.map Prod.snd).Nodup) (hs : ∀ r ∈ f.map Prod.snd, r ∉ seen) : dropDup seen f = f := by
  induction f generalizing seen with
  | nil => rfl
  | cons a l ih =>
    rw [List.map_cons, List.nodup_cons] at h
    rw [dropDup, if_neg (hs a.2 (by simp)), ih _ h.2]
    intro r hr hcon
    rcases List.mem_cons.mp hcon with rfl | hcon
    · exact h.1 hr
    · exact hs r (by simp only [List.map_cons, List.mem_cons]; exact Or.inr hr) hcon

theorem labels_zipIdx {β : Type} (l : List β) (n : ℕ) : ((l.zipIdx n).map Prod.swap).map Prod.fst = List.range' n l.length := by
  induction l generalizing n with
  | nil => rfl
  | cons a l ih =>
    rw [List.zipIdx_cons, List.map_cons, List.map_cons, ih]
    simp [List.range'_succ]

theorem rows_zipIdx {β : Type} (l : List β) (n : ℕ) : ((l.zipIdx n).map Prod.swap).map Prod.snd = l := by
  induction l generalizing n with
  | nil => rfl
  | cons a l ih => rw [List.zipIdx_cons, List.map_cons, List.map_cons, ih]; rfl

/-- The labels of a reconstruction are distinct. -/
theorem labels_nodup {srt : Frame ε → Frame ε} (hs : Sorts srt) (rows : List (ℤ × ε)) : ((dropDup [] (srt (rows.zipIdx.map Prod.swap))).map Prod.fst).Nodup := by
  refine List.Nodup.sublist ((dropDup_sublist _ _).map _) ?_
  rw [((hs _).map Prod.fst).nodup_iff, labels_zipIdx]
  exact List.nodup_range'

/-- Against itself nothing is kept. -/
theorem keptBy_self (f : Frame ε) (h : (f.map Prod.fst).Nodup) : f.filter (keptBy f) = [] := by
  rw [List.filter_eq_nil_iff]
  intro a ha
  have : f.lookup a.1 = some a.2 := lookup_of_mem f h a.1 a.2 ha
  simp [keptBy, this]

/-- The rows of a pattern are its covered occurrences, decoded. -/
theorem patternRows_eq (m : Fitted ε) (q : Patt) (cov : List (ℤ × ℕ)) (h : getCovSeq q.1 q.2.1 q.2.2 = some cov) : patternRows m q = cov.mapM (decode m) := by
  unfold getCovSeq at h
  unfold patternRows getOccs
  obtain ⟨oStar, ho⟩ : ∃ o, o = occsStar q.1 [] 0 := ⟨_, rfl⟩
  simp only [← ho] at h ⊢
  have key : ∀ (l : List (ℤ × ℕ × Path)) (cov : List (ℤ × ℕ)),
      l.mapM (fun o => (getCCorr q.1 o.2.2 (getEDict oStar q.2.2)).map (fun c => (o.1 + q.2.1 + c, o.2.1))) = some cov →
      ∃ occs, l.mapM (fun o => (getCCorr q.1 o.2.2 (getEDict oStar q.2.2)).map (fun c => o.1 + q.2.1 + c)) = some occs ∧ occs.zip (l.map (fun o => o.2.1)) = cov := by
    intro l
    induction l with
    | nil =>
      intro cov hc
      simp only [List.mapM_nil, Option.pure_def, Option.some.injEq] at hc
      exact ⟨[], rfl, by rw [← hc]; rfl⟩
    | cons a l ih =>
      intro cov hc
      rw [List.mapM_cons] at hc
      cases hg : getCCorr q.1 a.2.2 (getEDict oStar q.2.2) with
      | none => simp [hg] at hc
      | some c =>
        simp only [hg, Option.map_some, Option.bind_eq_bind, Option.bind_some] at hc
        cases hm : l.mapM (fun o => (getCCorr q.1 o.2.2 (getEDict oStar q.2.2)).map (fun c => (o.1 + q.2.1 + c, o.2.1))) with
        | none => simp [hm] at hc
        | some cov' =>
          simp only [hm, Option.bind_some, Option.pure_def, Option.some.injEq] at hc
          obtain ⟨occs, h1, h2⟩ := ih cov' hm
          refine ⟨(a.1 + q.2.1 + c) :: occs, ?_, ?_⟩
          · rw [List.mapM_cons, h1]
            simp [hg]
          · rw [← hc, List.map_cons, List.zip_cons_cons, h2]
  obtain ⟨occs, h1, h2⟩ := key oStar cov h
  rw [h1, Option.bind_some, h2]

theorem foldl_sdiff (ls : List (List (ℤ × ℕ))) (s : Finset (ℤ × ℕ)) (x : ℤ × ℕ) : x ∈ ls.foldl (fun s l => s \ l.toFinset) s ↔ x ∈ s ∧ x ∉ ls.flatten := by
  induction ls generalizing s with
  | nil => simp
  | cons l ls ih =>
    rw [List.foldl_cons, ih]
    simp only [Finset.mem_sdiff, List.mem_toFinset, List.flatten_cons, List.mem_append]
    tauto

/-- The lists of occurrences of patterns from the data. -/
theorem occLists_ok {seql : List (ℤ × ℕ)} {ps : List Patt} (h : FromData seql ps) :
    ∃ ls, occLists ps = some ls ∧ ls.length = ps.length ∧ (∀ l ∈ ls, l ≠ []) ∧ (∀ x ∈ ls.flatten, x ∈ seql) ∧ (∀ i : ℕ, ls[i]? = (ps[i]?).bind (fun q => getCovSeq q.1 q.2.1 q.2.2)) := by
  obtain ⟨ls, hls⟩ := mapM_exists (fun q : Patt => getCovSeq q.1 q.2.1 q.2.2) ps (by
    intro q hq
    obtain ⟨cov, hc, _⟩ := h q hq
    rw [hc]; rfl)
  have hmap := (mapM_iff _ _ _).mp hls
  refine ⟨ls, hls, ?_, ?_, ?_, ?_⟩
  · have := congrArg List.length hmap
    simpa using this.symm
  · intro l hl
    obtain ⟨q, hq, he⟩ := (mem_mapM hls l).mp hl
    obtain ⟨cov, hc, hne, _⟩ := h q hq
    rw [hc] at he
    rw [← Option.some.inj he]; exact hne
  · intro x hx
    obtain ⟨l, hl, hxl⟩ := List.mem_flatten.mp hx
    obtain ⟨q, hq, he⟩ := (mem_mapM hls l).mp hl
    obtain ⟨cov, hc, _, hin⟩ := h q hq
    rw [hc] at he
    rw [← Option.some.inj he] at hxl
    exact hin x hxl
  · intro i
    have : (ps.map (fun q : Patt => getCovSeq q.1 q.2.1 q.2.2))[i]? = (ls.map some)[i]? := by rw [hmap]
    rw [List.getElem?_map, List.getElem?_map] at this
    cases hi : ps[i]? with
    | none =>
      rw [hi] at this
      simp only [Option.map_none] at this
      cases hl : ls[i]? with
      | none => rfl
      | some l => rw [hl] at this; simp at this
    | some q =>
      rw [hi] at this
      simp only [Option.map_some] at this
      cases hl : ls[i]? with
      | none => rw [hl] at this; simp at this
      | some l =>
        rw [hl] at this
        simp only [Option.map_some, Option.some.injEq] at this
        simp [this]

/-- What the fitted data satisfies: its occurrences are distinct and decode exactly to the distinct rows of the series. -/
theorem fitData_ok (auto : Bool) (rows : List (ℤ × ε)) :
    ∃ m, fitData auto rows = .ok m ∧ m.data.seql.Nodup ∧ (∀ x ∈ m.data.seql, (decode m x).isSome) ∧
      (∀ x ∈ m.data.seql, ∀ y ∈ m.data.seql, decode m x = decode m y → x = y) ∧ ∀ r, r ∈ rows ↔ ∃ x ∈ m.data.seql, decode m x = some r := by
  obtain ⟨hnd, hmem⟩ := dedupRows_spec rows
  obtain ⟨s, hs⟩ : ∃ s, s = dedupRows rows := ⟨_, rfl⟩
  rw [← hs] at hnd hmem
  -- the converted rows
  have main : ∀ (conv : List ℤ) (n d : ℕ), conv.map (restore n d) = s.map Prod.fst → ∃ b, ofList (conv.zip (s.map Prod.snd)) = .ok b ∧ b.seql.Nodup ∧ (∀ x ∈ b.seql, (decode ⟨b, n, d⟩ x).isSome) ∧
      (∀ x ∈ b.seql, ∀ y ∈ b.seql, decode ⟨b, n, d⟩ x = decode ⟨b, n, d⟩ y → x = y) ∧ ∀ r, r ∈ rows ↔ ∃ x ∈ b.seql, decode ⟨b, n, d⟩ x = some r := by
    intro conv n d hconv
    obtain ⟨b, hb, _, _, _, _, hperm, _⟩ := list_sequence (conv.zip (s.map Prod.snd))
    have hlen : conv.length = s.length := by
      have := congrArg List.length hconv
      simpa using this
    have hrest : (conv.zip (s.map Prod.snd)).map (fun x => (restore n d x.1, x.2)) = s := by
      rw [show (fun x : ℤ × ε => (restore n d x.1, x.2)) = Prod.map (restore n d) id from rfl, ← List.zip_map_left, hconv]
      have : ∀ l : List (ℤ × ε), (l.map Prod.fst).zip (l.map Prod.snd) = l := by
        intro l
        induction l with
        | nil => rfl
        | cons a l ih => simp [ih]
      exact this s
    have hdec : (b.seql.map (decode ⟨b, n, d⟩)).Perm (s.map some) := by
      have h1 := hperm.map (fun x : ℤ × Option ε => x.2.map (fun e => (restore n d x.1, e)))
      rw [List.map_map, List.map_map] at h1
      have e1 : ((fun x : ℤ × Option ε => x.2.map (fun e => (restore n d x.1, e))) ∘ fun p : ℤ × ℕ => (p.1, numToEv b p.2)) = decode ⟨b, n, d⟩ := rfl
      have e2 : ((fun x : ℤ × Option ε => x.2.map (fun e => (restore n d x.1, e))) ∘ fun x : ℤ × ε => (x.1, some x.2)) = some ∘ fun x : ℤ × ε => (restore n d x.1, x.2) := rfl
      rw [e1, e2, ← List.map_map, hrest] at h1
      exact h1
    have hn2 : (b.seql.map (decode ⟨b, n, d⟩)).Nodup := hdec.nodup_iff.mpr (hnd.map (Option.some_injective _))
    refine ⟨b, hb, List.Nodup.of_map _ hn2, ?_, ?_, ?_⟩
    · intro x hx
      have : decode ⟨b, n, d⟩ x ∈ s.map some := hdec.mem_iff.mp (List.mem_map.mpr ⟨x, hx, rfl⟩)
      obtain ⟨r, _, hr⟩ := List.mem_map.mp this
      rw [← hr]; rfl
    · intro x hx y hy h
      exact List.inj_on_of_nodup_map hn2 hx hy h
    · intro r
      rw [← hmem]
      have : r ∈ s ↔ some r ∈ s.map some := by simp
      rw [this, ← hdec.mem_iff, List.mem_map]
  unfold fitData
  simp only [← hs]
  cases auto with
  | true =>
    obtain ⟨conv, n, d, u, ha, _, _, _, hconv, _⟩ := autoscale_exact (s.map Prod.fst)
    obtain ⟨b, hb, h⟩ := main conv n d hconv
    refine ⟨⟨b, n, d⟩, ?_, h⟩
    simp only [if_true, ha, hb]
    rfl
  | false =>
    obtain ⟨b, hb, h⟩ := main (s.map Prod.fst) 0 1 (by simp [restore])
    refine ⟨⟨b, 0, 1⟩, ?_, h⟩
    have : (s.map Prod.fst).zip (s.map Prod.snd) = s := by
      have : ∀ l : List (ℤ × ε), (l.map Prod.fst).zip (l.map Prod.snd) = l := by
        intro l
        induction l with
        | nil => rfl
        | cons a l ih => simp [ih]
      exact this s
    rw [this] at hb
    simp [hb, Except.map]

theorem mapM_flatten {β γ : Type} (f : β → Option γ) : ∀ (ls : List (List β)) (rs : List (List γ)), ls.mapM (fun l => l.mapM f) = some rs → ls.flatten.mapM f = some rs.flatten := by
  intro ls rs h
  rw [mapM_iff] at h ⊢
  induction ls generalizing rs with
  | nil =>
    cases rs with
    | nil => rfl
    | cons r rs => simp at h
  | cons l ls ih =>
    cases rs with
    | nil => simp at h
    | cons r rs =>
      simp only [List.map_cons, List.cons.injEq] at h
      rw [List.flatten_cons, List.flatten_cons, List.map_append, List.map_append, ih rs h.2, (mapM_iff f l r).mp h.1]

/-- Reconstruction of patterns of the data: the rows of the chosen patterns, in order. -/
theorem reconstruct_ok (srt : Frame ε → Frame ε) (m : Fitted ε) (ps : List Patt) (hf : FromData m.data.seql ps) (hd : ∀ x ∈ m.data.seql, (decode m x).isSome) (ls : List (List (ℤ × ℕ))) (hls : occLists ps = some ls)
    (ids : List ℕ) (hids : ∀ i ∈ ids, i < ps.length) (hne : ids ≠ []) :
    ∃ rows, (ids.flatMap (fun i => (ls[i]?).getD [])).mapM (decode m) = some rows ∧ rows ≠ [] ∧
      reconstruct srt m ps ids = some (dropDup [] (srt (rows.zipIdx.map Prod.swap))) := by
  obtain ⟨ls', hls', hlen, hnel, hin, hget⟩ := occLists_ok hf
  rw [hls] at hls'
  obtain rfl := Option.some.inj hls'
  have hi : ∀ i ∈ ids, ∃ l, ls[i]? = some l ∧ l ≠ [] ∧ (∀ x ∈ l, x ∈ m.data.seql) ∧ (ps[i]?).bind (patternRows m) = l.mapM (decode m) := by
    intro i h
    have hil : i < ls.length := by rw [hlen]; exact hids i h
    refine ⟨ls[i], List.getElem?_eq_getElem hil, hnel _ (List.getElem_mem hil), ?_, ?_⟩
    · intro x hx
      exact hin x (List.mem_flatten.mpr ⟨_, List.getElem_mem hil, hx⟩)
    · have hg := hget i
      rw [List.getElem?_eq_getElem hil] at hg
      cases hq : ps[i]? with
      | none => rw [hq] at hg; simp at hg
      | some q =>
        rw [hq, Option.bind_some] at hg
        rw [Option.bind_some]
        exact patternRows_eq m q _ hg.symm
  obtain ⟨rs, hrs⟩ := mapM_exists (fun l : List (ℤ × ℕ) => l.mapM (decode m)) (ids.map (fun i => (ls[i]?).getD [])) (by
    intro l hl
    obtain ⟨i, h, rfl⟩ := List.mem_map.mp hl
    obtain ⟨l, h1, _, h3, _⟩ := hi i h
    rw [h1, Option.getD_some]
    obtain ⟨l', hl'⟩ := mapM_exists (decode m) l (fun x hx => hd x (h3 x hx))
    rw [hl']; rfl)
  have hflat := mapM_flatten _ _ _ hrs
  have hrows : rs.flatten ≠ [] := by
    intro h0
    rw [h0, mapM_iff] at hflat
    simp only [List.map_nil, List.map_eq_nil_iff, List.flatten_eq_nil_iff] at hflat
    obtain ⟨i, l, rfl⟩ := List.exists_cons_of_ne_nil hne
    obtain ⟨l', h1, h2, _⟩ := hi i (by simp)
    have := hflat ((ls[i]?).getD []) (by simp)
    rw [h1] at this
    exact h2 this
  refine ⟨rs.flatten, ?_, hrows, ?_⟩
  · rw [List.flatMap]; exact hflat
  · unfold reconstruct
    have : ids.mapM (fun i => (ps[i]?).bind (patternRows m)) = some rs := by
      rw [mapM_iff] at hrs ⊢
      rw [← hrs, List.map_map]
      apply List.map_congr_left
      intro i h
      obtain ⟨l, h1, _, _, h4⟩ := hi i h
      simp only [Function.comp_apply, h1, Option.getD_some, h4]
    rw [this, Option.bind_some, if_neg hrows]

theorem range_flatMap_get {β : Type} (ls : List (List β)) : (List.range ls.length).flatMap (fun i => (ls[i]?).getD []) = ls.flatten := by
  rw [List.flatMap]
  congr 1
  apply List.ext_getElem
  · simp
  · intro i h1 h2
    simp only [List.getElem_map, List.getElem_range]
    rw [List.getElem?_eq_getElem h2]; rfl

end Verif.Miner
