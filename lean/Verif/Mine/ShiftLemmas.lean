import Verif.Mine.Fit
import Verif.Fold.Props

/-!
# Times moved by a constant: the initial candidates (C116)
-/

set_option autoImplicit false
set_option linter.unusedSectionVars false

namespace Verif.Mine

/-- All times moved by `c`. -/
def sh (c : ℤ) (l : List ℤ) : List ℤ := l.map (· + c)

@[simp] theorem sh_length (c : ℤ) (l : List ℤ) : (sh c l).length = l.length := List.length_map _

theorem sh_inj (c : ℤ) : Function.Injective (fun t : ℤ => t + c) := fun _ _ h => by simpa using h

theorem diff_sh (c : ℤ) : ∀ l : List ℤ, diff (sh c l) = diff l
  | [] => rfl
  | [_] => rfl
  | a :: b :: l => by
    have := diff_sh c (b :: l)
    simp only [sh, List.map_cons, diff] at this ⊢
    rw [this]
    congr 1
    ring

theorem computePeriod_sh (c : ℤ) (l : List ℤ) : computePeriod (sh c l) = computePeriod l := by
  rw [computePeriod, diff_sh]; rfl

theorem segment_sh (c : ℤ) (l : List ℤ) (s : ℕ × ℕ) : Cycles.segment (sh c l) s = sh c (Cycles.segment l s) := by
  simp only [Cycles.segment, sh, List.map_drop, List.map_take]

theorem sh_sorted {c : ℤ} {l : List ℤ} (h : l.Pairwise (· < ·)) : (sh c l).Pairwise (· < ·) := by
  rw [sh, List.pairwise_map]; exact h.imp (fun h => by omega)

section Dyn

variable {C : Type} [AddCommGroup C] [LinearOrder C] [IsOrderedAddMonoid C]

theorem blockSplits_sh (c : ℤ) (cyc cyc' : List ℤ → C) (res : C) (h : ∀ l, cyc' (sh c l) = cyc l) (l : List ℤ) : Cycles.blockSplits cyc' res (sh c l) = Cycles.blockSplits cyc res l := by
  unfold Cycles.blockSplits
  simp only [segment_sh, h, sh_length]

theorem blockLoop_sh (c : ℤ) (cyc cyc' : List ℤ → C) (res : C) (h : ∀ l, cyc' (sh c l) = cyc l) (l : List ℤ) : ∀ (f p : ℕ) (sp : List (ℕ × ℕ)),
    Cycles.blockLoop cyc' res (sh c l) f p sp = Cycles.blockLoop cyc res l f p sp := by
  intro f
  induction f with
  | zero => intro p sp; rfl
  | succ f ih =>
    intro p sp
    have e : ((sh c l).drop p).take 100 = sh c ((l.drop p).take 100) := by simp only [sh, List.map_drop, List.map_take]
    rw [Cycles.blockLoop, Cycles.blockLoop, e, blockSplits_sh c cyc cyc' res h, sh_length]
    simp only [ih]

theorem dynSplits_sh (c : ℤ) (cyc cyc' : List ℤ → C) (res : C) (h : ∀ l, cyc' (sh c l) = cyc l) (l : List ℤ) : Cycles.dynSplits cyc' res (sh c l) = Cycles.dynSplits cyc res l := by
  unfold Cycles.dynSplits
  rw [blockLoop_sh c cyc cyc' res h, blockSplits_sh c cyc cyc' res h, sh_length]

theorem sh_flatten (c : ℤ) (ls : List (List ℤ)) : (ls.map (sh c)).flatten = sh c ls.flatten := by
  unfold sh; rw [List.map_flatten]

theorem mem_sh {c : ℤ} {l : List ℤ} {x : ℤ} : x + c ∈ sh c l ↔ x ∈ l := List.mem_map_of_injective (sh_inj c)

theorem sorted_sh (c : ℤ) (l : List ℤ) : (sh c l).insertionSort (· ≤ ·) = sh c (l.insertionSort (· ≤ ·)) := by
  rw [sh, sh, List.map_insertionSort (r := (· ≤ ·)) (s := (· ≤ ·))]
  intro a _ b _
  simp

theorem without_sh (c : ℤ) (l m : List ℤ) : ((sh c l).dedup.filter (fun o => decide (o ∉ sh c m))).insertionSort (· ≤ ·) = sh c ((l.dedup.filter (fun o => decide (o ∉ m))).insertionSort (· ≤ ·)) := by
  rw [← sorted_sh]
  congr 1
  have e : (sh c l).dedup = sh c l.dedup := List.dedup_map_of_injective (sh_inj c) l
  rw [e, sh, sh, List.filter_map]
  congr 1
  refine List.filter_congr ?_
  intro o _
  exact decide_eq_decide.2 (not_congr (mem_sh (c := c) (l := m) (x := o)))

theorem computeCycles_sh (c : ℤ) (cyc cyc' : List ℤ → C) (res : C) (h : ∀ l, cyc' (sh c l) = cyc l) (l : List ℤ) :
    Cycles.computeCycles cyc' res (sh c l) = (Cycles.computeCycles cyc res l).map (fun d => (d.1.map (sh c), sh c d.2)) := by
  unfold Cycles.computeCycles
  rw [dynSplits_sh c cyc cyc' res h]
  obtain ⟨sp, hsp, hc, hb⟩ := Cycles.dynSplits_ok cyc res l
  rw [hsp]
  simp only [Option.map_some]
  have key : ((sp.filter (fun s => s.1 + 1 < s.2)).map (Cycles.segment (sh c l))).insertionSort (fun a b => a.headD 0 ≤ b.headD 0) =
      (((sp.filter (fun s => s.1 + 1 < s.2)).map (Cycles.segment l)).insertionSort (fun a b => a.headD 0 ≤ b.headD 0)).map (sh c) := by
    rw [List.map_insertionSort (r := fun a b : List ℤ => a.headD 0 ≤ b.headD 0) (s := fun a b : List ℤ => a.headD 0 ≤ b.headD 0), List.map_map]
    · congr 1
      exact List.map_congr_left (fun s _ => segment_sh c l s)
    · have hne : ∀ a ∈ (sp.filter (fun s => s.1 + 1 < s.2)).map (Cycles.segment l), (sh c a).headD 0 = a.headD 0 + c := by
        intro a ha
        obtain ⟨s, hs, rfl⟩ := List.mem_map.1 ha
        have h1 := hb s (List.mem_filter.1 hs).1
        have h2 := hc.2 s (List.mem_filter.1 hs).1
        cases e : Cycles.segment l s with
        | nil =>
          have := congrArg List.length e
          simp only [Cycles.segment, List.length_take, List.length_drop, List.length_nil] at this
          omega
        | cons x xs => simp [sh]
      intro a ha b hb
      rw [hne a ha, hne b hb]
      simp
  rw [key, sh_flatten, without_sh]

end Dyn

/-! ### The search of chains -/

/-- The comparisons of the fold search do not see the origin of times. -/
structure ParShift (c : ℤ) (P P' : Fold.Par) : Prop where
  small : P'.small = P.small
  effTrip : P'.effTrip = P.effTrip
  effChain : ∀ l, P'.effChain (sh c l) = P.effChain l
  maxP : P'.maxP = P.maxP

theorem getD_sh (c : ℤ) (l : List ℤ) (i : ℕ) (h : i < l.length) : (sh c l).getD i 0 = l.getD i 0 + c := by
  simp [sh, List.getD_eq_getElem?_getD, List.getElem?_eq_getElem h]

theorem aft_sh {c : ℤ} {P P' : Fold.Par} (h : ParShift c P P') (l : List ℤ) (i : ℕ) (hi : i < l.length) : Fold.aft P' (sh c l) i = Fold.aft P l i := by
  have e : ((sh c l).drop (i + 1)).map (fun o => o - (sh c l).getD i 0) = (l.drop (i + 1)).map (fun o => o - l.getD i 0) := by
    rw [getD_sh c l i hi, sh, ← List.map_drop, List.map_map]
    refine List.map_congr_left ?_
    intro o _
    simp only [Function.comp]
    ring
  unfold Fold.aft
  rw [e, h.maxP]

theorem bef_sh {c : ℤ} {P P' : Fold.Par} (h : ParShift c P P') (l : List ℤ) (i : ℕ) (hi : i < l.length) : Fold.bef P' (sh c l) i = Fold.bef P l i := by
  have e : ((sh c l).take i).reverse.map (fun o => o - (sh c l).getD i 0) = (l.take i).reverse.map (fun o => o - l.getD i 0) := by
    rw [getD_sh c l i hi, sh, ← List.map_take, ← List.map_reverse, List.map_map]
    refine List.map_congr_left ?_
    intro o _
    simp only [Function.comp]
    ring
  unfold Fold.bef
  rw [e, h.maxP]

theorem scan_sh {c : ℤ} {P P' : Fold.Par} (h : ParShift c P P') (fuel : ℕ) (a b : List ℤ) : ∀ (g ia ib : ℕ) (seen : List ℤ), Fold.scan P' fuel a b g ia ib seen = Fold.scan P fuel a b g ia ib seen := by
  intro g
  induction g with
  | zero => intro ia ib seen; rfl
  | succ g ih =>
    intro ia ib seen
    rw [Fold.scan, Fold.scan]
    simp only [ih, h.small]

theorem center_sh {c : ℤ} {P P' : Fold.Par} (h : ParShift c P P') (fuel : ℕ) (l : List ℤ) (s : Fold.St) (i : ℕ) (hi : i < l.length) : Fold.center P' fuel (sh c l) s i = Fold.center P fuel l s i := by
  unfold Fold.center
  rw [aft_sh h l i hi, bef_sh h l i hi, scan_sh h]

theorem foldlM_congr_mem {β σ : Type} (f g : σ → β → Option σ) : ∀ (l : List β) (s : σ), (∀ x ∈ l, ∀ s, f s x = g s x) → l.foldlM f s = l.foldlM g s := by
  intro l
  induction l with
  | nil => intro s _; rfl
  | cons a l ih =>
    intro s h
    rw [List.foldlM_cons, List.foldlM_cons, h a List.mem_cons_self]
    cases g s a with
    | none => rfl
    | some t => exact ih t (fun x hx => h x (List.mem_cons_of_mem _ hx))

theorem centers_sh {c : ℤ} {P P' : Fold.Par} (h : ParShift c P P') (fuel : ℕ) (l : List ℤ) : Fold.centers P' fuel (sh c l) = Fold.centers P fuel l := by
  unfold Fold.centers
  rw [sh_length, foldlM_congr_mem _ (Fold.center P fuel l)]
  intro i hi s
  rw [List.mem_range'_1] at hi
  exact center_sh h fuel l s i (by omega)

/-- What the search returns, moved. -/
def shFold (c : ℤ) (r : List Fold.Chain × List Fold.Triple) : List Fold.Chain × List Fold.Triple := (r.1.map (fun x => (sh c x.1, x.2)), r.2)

theorem foldSub_sh {c : ℤ} {P P' : Fold.Par} (h : ParShift c P P') (fuel : ℕ) (l : List ℤ) (off : ℕ) (hs : l.Pairwise (· < ·)) (hf : l.length + 2 ≤ fuel) :
    Fold.foldSub P' fuel (sh c l) off = (Fold.foldSub P fuel l off).map (shFold c) := by
  obtain ⟨s, hs1, -, g2, g3, g4, g5⟩ := Fold.centers_ok (P := P) (fuel := fuel) hs hf
  obtain ⟨cs, trip, hc, -, hcs, -⟩ := Fold.chainLoop_ok s.bck g3 s.fwd.length s.fwd s.trip le_rfl g2 g4 g5
  unfold Fold.foldSub
  rw [centers_sh h, hs1, Option.bind_some, Option.bind_some, hc, h.effTrip]
  simp only [Option.map_some, shFold]
  congr 2
  have e : cs.map (fun pos => (pos.map (fun k => (sh c l).getD k 0), pos)) = (cs.map (fun pos => (pos.map (fun k => l.getD k 0), pos))).map (fun x => (sh c x.1, x.2)) := by
    rw [List.map_map]
    refine List.map_congr_left ?_
    intro pos hp
    obtain ⟨k1, k2, -⟩ := hcs pos hp
    have k3 := (Fold.nearChain_pairwise (by omega) k2).2
    simp only [Function.comp, Prod.mk.injEq, and_true]
    refine Eq.trans ?_ (List.map_map (f := fun k => l.getD k 0) (g := (· + c)) (l := pos)).symm
    exact List.map_congr_left (fun k hk => getD_sh c l k (k3 k hk))
  rw [e, List.filter_map]
  congr 1
  refine List.filter_congr ?_
  intro x _
  exact h.effChain x.1

theorem blocks_sh {c : ℤ} {P P' : Fold.Par} (h : ParShift c P P') (fuel B : ℕ) (l : List ℤ) (hs : l.Pairwise (· < ·)) (hf : l.length + 2 ≤ fuel) : ∀ is : List ℕ,
    Fold.blocks P' fuel B (sh c l) is = (Fold.blocks P fuel B l is).map (shFold c) := by
  intro is
  induction is with
  | nil => rfl
  | cons i is ih =>
    have e : ((sh c l).drop (i * B)).take B = sh c ((l.drop (i * B)).take B) := by simp only [sh, List.map_drop, List.map_take]
    have hl : ((l.drop (i * B)).take B).length + 2 ≤ fuel := by simp only [List.length_take, List.length_drop]; omega
    rw [Fold.blocks, Fold.blocks, e, foldSub_sh h fuel _ _ (hs.drop.take) hl, ih]
    cases Fold.foldSub P fuel ((l.drop (i * B)).take B) (i * B) with
    | none => rfl
    | some x =>
      cases Fold.blocks P fuel B l is with
      | none => rfl
      | some y => simp [shFold]

theorem extractFold_sh {c : ℤ} {P P' : Fold.Par} (h : ParShift c P P') (fuel : ℕ) (l : List ℤ) (hs : l.Pairwise (· < ·)) (hf : l.length + 2 ≤ fuel) :
    Fold.extractFold P' fuel (sh c l) = (Fold.extractFold P fuel l).map (shFold c) := by
  unfold Fold.extractFold Fold.foldWith
  rw [sh_length]
  by_cases hb : l.length < 2000
  · rw [if_pos hb, if_pos hb, foldSub_sh h fuel l 0 hs hf]
  · have e : (sh c l).take 1500 = sh c (l.take 1500) := by simp only [sh, List.map_take]
    have hl : (l.take 1500).length + 2 ≤ fuel := by simp only [List.length_take]; omega
    rw [if_neg hb, if_neg hb, e, foldSub_sh h fuel _ _ hs.take hl, blocks_sh h fuel 1500 l hs hf]
    cases Fold.foldSub P fuel (l.take 1500) 0 with
    | none => rfl
    | some x =>
      cases Fold.blocks P fuel 1500 l (List.range' 1 (l.length / 1500 - 1)) with
      | none => rfl
      | some y => simp [shFold]

/-! ### Cycles -/

section Cyc

variable {K : Type}

/-- A cycle moved. -/
def shCyc (c : ℤ) (x : Cyc K) : Cyc K := ⟨sh c x.occs, x.p, x.cost⟩

/-- A key moved. -/
def shKey (c : ℤ) (k : ℤ ×ₗ (ℕ ×ₗ ℤ)) : ℤ ×ₗ (ℕ ×ₗ ℤ) := toLex ((ofLex k).1 + c, (ofLex k).2)

theorem shKey_inj (c : ℤ) {a b : ℤ ×ₗ (ℕ ×ₗ ℤ)} : shKey c a = shKey c b ↔ a = b := by
  constructor
  · intro h
    have := congrArg ofLex h
    simp only [shKey, ofLex_toLex, Prod.mk.injEq, add_left_inj] at this
    exact ofLex.injective (Prod.ext this.1 this.2)
  · rintro rfl; rfl

/-- An entry moved. -/
def shEntry (c : ℤ) (e : Entry K) : Entry K := ⟨shKey c e.k, e.ki, e.ci, shCyc c e.c⟩

theorem shEntry_le (c : ℤ) (a b : Entry K) : (shEntry c a).tup ≤ (shEntry c b).tup ↔ a.tup ≤ b.tup := by
  simp only [Entry.tup, shEntry, Prod.Lex.toLex_le_toLex, shKey_inj]
  have : shKey c a.k < shKey c b.k ↔ a.k < b.k := by
    rw [Prod.Lex.lt_iff (x := a.k), Prod.Lex.lt_iff (x := shKey c a.k)]
    simp only [shKey, ofLex_toLex, add_lt_add_iff_right, add_left_inj]
  rw [this]

theorem key_sh (c : ℤ) (x : Cyc K) : key (shCyc c x) = (key x).map (shKey c) := by
  cases h : x.occs with
  | nil => simp [key, shCyc, sh, h]
  | cons a l => simp [key, shCyc, sh, h, shKey]

theorem mapM_map' {α β γ δ : Type} (f : α → Option β) (g : γ → Option δ) (u : α → γ) (v : β → δ) (h : ∀ a, g (u a) = (f a).map v) : ∀ l : List α, (l.map u).mapM g = (l.mapM f).map (List.map v) := by
  intro l
  induction l with
  | nil => rfl
  | cons a l ih =>
    rw [List.map_cons, List.mapM_cons, List.mapM_cons, ih, h]
    cases f a with
    | none => rfl
    | some b =>
      cases l.mapM f with
      | none => rfl
      | some bs => rfl

theorem entries_sh (c : ℤ) (ls : List (List (Cyc K))) : entries (ls.map (List.map (shCyc c))) = (entries ls).map (List.map (shEntry c)) := by
  unfold entries
  have e : (ls.map (List.map (shCyc c))).zipIdx.flatMap (fun l => l.1.zipIdx.map (fun x => (x.1, x.2, l.2))) =
      (ls.zipIdx.flatMap (fun l => l.1.zipIdx.map (fun x => (x.1, x.2, l.2)))).map (fun x => (shCyc c x.1, x.2)) := by
    rw [List.zipIdx_map, List.flatMap_map, List.map_flatMap]
    refine List.flatMap_congr ?_
    intro l _
    simp only [Prod.map_fst, Prod.map_snd, id]
    rw [List.zipIdx_map, List.map_map, List.map_map]
    rfl
  rw [e]
  refine mapM_map' _ _ _ _ ?_ _
  rintro ⟨x, i, j⟩
  simp only [key_sh, Option.map_map]
  rfl

variable [LinearOrder K]

theorem mergeLoop_sh (c : ℤ) : ∀ (l : List (Entry K)) (k : ℤ ×ₗ (ℕ ×ₗ ℤ)) (x : Cyc K), mergeLoop (shKey c k) (shCyc c x) (l.map (shEntry c)) = (mergeLoop k x l).map (shCyc c) := by
  intro l
  induction l with
  | nil => intro k x; rfl
  | cons e l ih =>
    intro k x
    rw [List.map_cons, mergeLoop, mergeLoop]
    have e1 : ((shEntry c e).k ≠ shKey c k) = (e.k ≠ k) := by simp only [shEntry, ne_eq, shKey_inj]
    have e2 : ((shEntry c e).c.cost < (shCyc c x).cost) = (e.c.cost < x.cost) := rfl
    have e3 : mergeLoop (shEntry c e).k (shEntry c e).c (l.map (shEntry c)) = (mergeLoop e.k e.c l).map (shCyc c) := ih e.k e.c
    have e4 : mergeLoop (shEntry c e).k (shCyc c x) (l.map (shEntry c)) = (mergeLoop e.k x l).map (shCyc c) := ih e.k x
    rw [e3, e4]
    simp only [e1, e2]
    split_ifs <;> rfl

theorem mergeLists_sh (c : ℤ) (ls : List (List (Cyc K))) : mergeLists (ls.map (List.map (shCyc c))) = (mergeLists ls).map (List.map (shCyc c)) := by
  unfold mergeLists
  rw [entries_sh]
  cases entries ls with
  | none => rfl
  | some es =>
    simp only [Option.map_some]
    have e : (es.map (shEntry c)).insertionSort (fun a b => a.tup ≤ b.tup) = (es.insertionSort (fun a b => a.tup ≤ b.tup)).map (shEntry c) := by
      rw [List.map_insertionSort (r := fun a b : Entry K => a.tup ≤ b.tup) (s := fun a b : Entry K => a.tup ≤ b.tup)]
      intro a _ b _
      exact (shEntry_le c a b).symm
    rw [e]
    cases es.insertionSort (fun a b => a.tup ≤ b.tup) with
    | nil => rfl
    | cons x xs =>
      simp only [List.map_cons]
      exact congrArg some (mergeLoop_sh c xs x.k x.c)

end Cyc

section Top

variable {K ω : Type} [LinearOrder K] [DecidableEq ω]

theorem topLoop_sh (f : ω → ω) (hf : Function.Injective f) (occs occs' : ℕ → List ω) (ho : ∀ i, occs' i = (occs i).map f) (k : ℕ) : ∀ (l : List ℕ) (cnt cnt' : ω → ℕ), (∀ x, cnt' (f x) = cnt x) →
    topLoop occs' k cnt' l = topLoop occs k cnt l := by
  intro l
  induction l with
  | nil => intro cnt cnt' _; rfl
  | cons i l ih =>
    intro cnt cnt' hc
    rw [topLoop, topLoop, ho i]
    have e : ((occs i).map f).any (fun x => decide (cnt' x ≤ k)) = (occs i).any (fun x => decide (cnt x ≤ k)) := by
      rw [List.any_map]
      congr 1
      funext x
      simp [hc]
    rw [e, ih cnt cnt' hc, ih (fun x => cnt x + (occs i).count x)]
    intro x
    rw [hc, List.count_map_of_injective _ _ hf]

theorem topKeach_sh (f : ω → ω) (hf : Function.Injective f) (ratio : ℕ → K) (occs occs' : ℕ → List ω) (ho : ∀ i, occs' i = (occs i).map f) (k n : ℕ) :
    topKeach ratio occs' k n = topKeach ratio occs k n := by
  unfold topKeach
  rw [topLoop_sh f hf occs occs' ho k _ (fun _ => 0) (fun _ => 0) (fun _ => rfl)]

end Top

/-! ### One event -/

variable {K : Type} [Field K] [LinearOrder K] [IsStrictOrderedRing K]

/-- Costs that do not see the origin of times: `W'` after the move prices as `W` before it. -/
structure CostsShift (c : ℤ) (W W' : Costs K) : Prop where
  cyc : ∀ l, W'.cyc (sh c l) = W.cyc l
  res : W'.res = W.res
  trip : W'.trip = W.trip
  par : ParShift c W.par W'.par

theorem dropOccs_sh (c : ℤ) (dyn : List (List ℤ)) : dropOccs (dyn.map (sh c)) = sh c (dropOccs dyn) := by
  unfold dropOccs
  rw [List.flatMap_map, sh, List.map_flatMap]
  refine List.flatMap_congr ?_
  intro l _
  rw [sh_length]
  by_cases h : 10 < l.length
  · rw [if_pos h, if_pos h, sh, List.map_take, List.map_drop]
  · rw [if_neg h, if_neg h]; rfl

theorem tmpOccs_sh (c : ℤ) (l : List ℤ) (dyn : List (List ℤ)) : tmpOccs (sh c l) (dyn.map (sh c)) = sh c (tmpOccs l dyn) := by
  unfold tmpOccs
  rw [dropOccs_sh, sh_length, without_sh]
  split <;> rfl

theorem withPeriod_sh (c : ℤ) (cyc cyc' : List ℤ → K) (h : ∀ l, cyc' (sh c l) = cyc l) (l : List ℤ) : withPeriod cyc' (sh c l) = (withPeriod cyc l).map (shCyc c) := by
  unfold withPeriod
  rw [computePeriod_sh, h, Option.map_map]
  rfl

theorem tripleCyc_sh (c : ℤ) (trip : ℤ → ℤ → K) (l : List ℤ) (t : Fold.Triple) : tripleCyc trip (sh c l) t = (tripleCyc trip l t).map (shCyc c) := by
  unfold tripleCyc
  have e : t.2.2.mapM (fun k => (sh c l)[k]?) = (t.2.2.mapM (fun k => l[k]?)).map (sh c) := by
    have := mapM_map' (fun k : ℕ => l[k]?) (fun k : ℕ => (sh c l)[k]?) id (· + c) (fun k => by simp [sh]) t.2.2
    rw [List.map_id] at this
    exact this
  rw [e]
  cases t.2.2.mapM (fun k => l[k]?) with
  | none => rfl
  | some O =>
    simp only [Option.map_some, Option.bind_some, computePeriod_sh, Option.map_map]
    rfl

theorem mergedAlpha_sh {c : ℤ} {W W' : Costs K} (h : CostsShift c W W') (fuel : ℕ) (l : List ℤ) (hs : l.Pairwise (· < ·)) (hf : l.length + 2 ≤ fuel) :
    mergedAlpha W' fuel (sh c l) = (mergedAlpha W fuel l).map (List.map (shCyc c)) := by
  unfold mergedAlpha
  rw [h.res, computeCycles_sh c W.cyc W'.cyc W.res h.cyc]
  cases Cycles.computeCycles W.cyc W.res l with
  | none => rfl
  | some d =>
    simp only [Option.map_some, Option.bind_some]
    have hsub := tmpOccs_spec l d.1 hs
    rw [tmpOccs_sh, extractFold_sh h.par fuel _ (hs.sublist hsub) (by have := hsub.length_le; omega)]
    cases Fold.extractFold W.par fuel (tmpOccs l d.1) with
    | none => rfl
    | some r =>
      simp only [Option.map_some, Option.bind_some, shFold]
      rw [mapM_map' (withPeriod W.cyc) (withPeriod W'.cyc) (sh c) (shCyc c) (withPeriod_sh c _ _ h.cyc),
        show (r.1.map (fun x => (sh c x.1, x.2))).map Prod.fst = (r.1.map Prod.fst).map (sh c) by rw [List.map_map, List.map_map]; rfl,
        mapM_map' (withPeriod W.cyc) (withPeriod W'.cyc) (sh c) (shCyc c) (withPeriod_sh c _ _ h.cyc), h.trip]
      have e3 := mapM_map' (tripleCyc W.trip (tmpOccs l d.1)) (tripleCyc W.trip (sh c (tmpOccs l d.1))) id (shCyc c) (tripleCyc_sh c W.trip _) r.2
      rw [List.map_id] at e3
      rw [e3]
      cases d.1.mapM (withPeriod W.cyc) with
      | none => rfl
      | some dyn =>
        cases (r.1.map Prod.fst).mapM (withPeriod W.cyc) with
        | none => rfl
        | some chains =>
          cases r.2.mapM (tripleCyc W.trip (tmpOccs l d.1)) with
          | none => rfl
          | some triples => exact mergeLists_sh c [dyn, chains, triples]

theorem selectAlpha_sh (c : ℤ) (alpha : ℕ) (cs : List (Cyc K)) : selectAlpha alpha (cs.map (shCyc c)) = (selectAlpha alpha cs).map (shCyc c) := by
  unfold selectAlpha
  rw [topKeach_sh (fun x : ℤ × ℕ => (x.1 + c, x.2)) (fun a b h => by
      simp only [Prod.mk.injEq, add_left_inj] at h
      exact Prod.ext h.1 h.2) _ (fun i => (cs[i]?.map (fun x => x.occs.map (fun t => (t, alpha)))).getD []), List.length_map]
  · have e : (fun i : ℕ => ((cs.map (shCyc c))[i]?.map (fun x => x.cost / (x.occs.length : K))).getD 0) = (fun i : ℕ => (cs[i]?.map (fun x => x.cost / (x.occs.length : K))).getD 0) := by
      funext i
      rw [List.getElem?_map, Option.map_map]
      congr 1
      simp [Function.comp_def, shCyc]
    rw [e, List.map_filterMap]
    congr 1
    funext i
    rw [List.getElem?_map]
  · intro i
    rw [List.getElem?_map]
    cases cs[i]? with
    | none => rfl
    | some x => simp [shCyc, sh]

theorem mineAlpha_sh {c : ℤ} {W W' : Costs K} (h : CostsShift c W W') (fuel alpha : ℕ) (l : List ℤ) (hs : l.Pairwise (· < ·)) (hf : l.length + 2 ≤ fuel) :
    mineAlpha W' fuel alpha (sh c l) = (mineAlpha W fuel alpha l).map (List.map (shCyc c)) := by
  unfold mineAlpha
  rw [mergedAlpha_sh h fuel l hs hf, Option.map_map, Option.map_map]
  congr 1
  funext cs
  exact selectAlpha_sh c alpha cs

end Verif.Mine
