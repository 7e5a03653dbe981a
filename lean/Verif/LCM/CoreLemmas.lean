import Verif.LCM.FitLemmas
import Mathlib.Data.Finset.Max

/-! Lemmas on the recursion of `LCM._inner` and `LCMMax._inner`, at the level of item indices. -/

set_option autoImplicit false

set_option linter.unusedSectionVars false

namespace Verif.LCM

variable {α : Type*} [LinearOrder α]

/-- Indices of the items shared by all of `tids`. -/
def cl (F : Fitted α) (tids : Finset ℕ) : Finset ℕ :=
  (Finset.range F.tids.length).filter (fun i => tids ⊆ F.ids i)

theorem mem_cl (F : Fitted α) (tids : Finset ℕ) (i : ℕ) :
    i ∈ cl F tids ↔ i < F.tids.length ∧ tids ⊆ F.ids i := by
  unfold cl; rw [Finset.mem_filter, Finset.mem_range]

theorem mem_cpList (F : Fitted α) (p tids : Finset ℕ) (i : ℕ) :
    i ∈ cpList F p tids ↔ i ∈ cl F tids ∧ i ∉ p := by
  unfold cpList
  rw [List.mem_filter, List.mem_reverse, List.mem_range, mem_cl]
  simp [and_assoc]

theorem pairwise_cpList (F : Fitted α) (p tids : Finset ℕ) :
    (cpList F p tids).Pairwise (fun a b => b < a) := by
  unfold cpList
  apply List.Pairwise.filter
  rw [List.pairwise_reverse]
  exact List.pairwise_lt_range

theorem mem_candidates (F : Fitted α) (p' : Finset ℕ) (limit i : ℕ) :
    i ∈ candidates F p' limit ↔ i < F.tids.length ∧ i ∉ p' ∧ i < limit := by
  unfold candidates
  rw [List.mem_filter, List.mem_filter, List.mem_range]
  simp [and_assoc]

theorem nodup_candidates (F : Fitted α) (p' : Finset ℕ) (limit : ℕ) : (candidates F p' limit).Nodup := by
  unfold candidates
  exact (List.nodup_range.filter _).filter _

/-- The test `max_k == limit`. -/
def Ok (F : Fitted α) (p tids : Finset ℕ) (limit : ℕ) : Prop :=
  limit ∈ cl F tids ∧ limit ∉ p ∧ ∀ i ∈ cl F tids, i ∉ p → i ≤ limit

instance (F : Fitted α) (p tids : Finset ℕ) (limit : ℕ) : Decidable (Ok F p tids limit) := by
  unfold Ok; infer_instance

theorem head?_desc (l : List ℕ) (h : l.Pairwise (fun a b => b < a)) (a : ℕ) :
    l.head? = some a ↔ a ∈ l ∧ ∀ b ∈ l, b ≤ a := by
  cases l with
  | nil => simp
  | cons x l =>
    rw [List.pairwise_cons] at h
    simp only [List.head?_cons, Option.some.injEq, List.mem_cons]
    constructor
    · rintro rfl
      exact ⟨Or.inl rfl, fun b hb => hb.elim (fun e => e.le) (fun hb => (h.1 b hb).le)⟩
    · rintro ⟨ha | ha, hb⟩
      · exact ha.symm
      · exact absurd (hb x (Or.inl rfl)) (not_le.2 (h.1 a ha))

theorem head?_cpList (F : Fitted α) (p tids : Finset ℕ) (limit : ℕ) :
    (cpList F p tids).head? = some limit ↔ Ok F p tids limit := by
  rw [head?_desc _ (pairwise_cpList F p tids)]
  simp only [mem_cpList, Ok, and_imp, and_assoc]

theorem head?_takeWhile (l : List ℕ) (limit : ℕ) :
    (l.takeWhile (fun e => limit ≤ e)).head? = some limit ↔ l.head? = some limit := by
  cases l with
  | nil => simp
  | cons x l =>
    rw [List.takeWhile_cons]
    by_cases h : limit ≤ x
    · simp [h]
    · simp only [h, decide_false, Bool.false_eq_true, if_false, List.head?_nil, List.head?_cons, Option.some.injEq]
      constructor
      · intro h; simp at h
      · rintro rfl; exact absurd le_rfl h

theorem pPrime_eq (F : Fitted α) (p tids : Finset ℕ) (limit : ℕ) (h : Ok F p tids limit) :
    p ∪ (cpList F p tids).tail.toFinset ∪ {limit} = p ∪ cl F tids := by
  have hh := (head?_cpList F p tids limit).2 h
  have hcons : cpList F p tids = limit :: (cpList F p tids).tail := by
    cases hc : cpList F p tids with
    | nil => rw [hc] at hh; simp at hh
    | cons a l => rw [hc] at hh; simp only [List.head?_cons, Option.some.injEq] at hh; simp [hh]
  ext i
  have : i ∈ cpList F p tids ↔ i = limit ∨ i ∈ (cpList F p tids).tail := by
    conv_lhs => rw [hcons]
    exact List.mem_cons
  rw [mem_cpList] at this
  simp only [Finset.mem_union, List.mem_toFinset, Finset.mem_singleton]
  tauto

/-- `inner` before rendering: the sets of indices with their transaction ids. -/
def core (F : Fitted α) (m : ℚ) : ℕ → Finset ℕ → Finset ℕ → ℕ → List (Finset ℕ × Finset ℕ)
  | 0, _, _, _ => []
  | fuel + 1, p, tids, limit =>
    if Ok F p tids limit then
      (p ∪ cl F tids, tids) :: (candidates F (p ∪ cl F tids) limit).flatMap (fun l =>
        if m ≤ ((tids ∩ F.ids l).card : ℚ) then core F m fuel (p ∪ cl F tids) (tids ∩ F.ids l) l else [])
    else []

theorem inner_eq_core (F : Fitted α) (m : ℚ) (o : Opts) (fuel : ℕ) (p tids : Finset ℕ) (limit : ℕ) :
    inner F m o fuel p tids limit =
      ((core F m fuel p tids limit).map (fun c => mkRow F o c.1 c.2)).filter (lengthOk o) := by
  induction fuel generalizing p tids limit with
  | zero => rfl
  | succ fuel ih =>
    unfold inner core
    by_cases hok : Ok F p tids limit
    · have h1 := (head?_takeWhile _ limit).2 ((head?_cpList F p tids limit).2 hok)
      simp only [h1, if_true, pPrime_eq F p tids limit hok, if_pos hok]
      rw [List.map_cons, List.filter_cons, List.map_flatMap, List.filter_flatMap]
      have hch : ∀ l, (if m ≤ ((tids ∩ F.ids l).card : ℚ)
            then inner F m o fuel (p ∪ cl F tids) (tids ∩ F.ids l) l else []) =
          ((if m ≤ ((tids ∩ F.ids l).card : ℚ)
            then core F m fuel (p ∪ cl F tids) (tids ∩ F.ids l) l else []).map
              (fun c => mkRow F o c.1 c.2)).filter (lengthOk o) := by
        intro l
        split
        · exact ih _ _ _
        · rfl
      simp only [hch]
      split <;> rfl
    · rw [if_neg hok]
      cases hm : (List.takeWhile (fun e => decide (limit ≤ e)) (cpList F p tids)).head? with
      | none => simp only [hm]; rfl
      | some k =>
        have hk : k ≠ limit := by
          rintro rfl
          exact hok ((head?_cpList F p tids _).1 ((head?_takeWhile _ _).1 hm))
        simp only [hm, if_neg hk]; rfl

/-- `t` is the set of transaction ids shared by all the indices of `C`. -/
def IsSupp (F : Fitted α) (C t : Finset ℕ) : Prop := ∀ x, x ∈ t ↔ ∀ i ∈ C, x ∈ F.ids i

/-- `C` with transaction ids `t` is a closed frequent set of indices. -/
def ClosedIdx (F : Fitted α) (m : ℚ) (C t : Finset ℕ) : Prop :=
  IsSupp F C t ∧ C = cl F t ∧ m ≤ (t.card : ℚ)

/-- Hypotheses under which `_inner` is called. -/
structure Pre (F : Fitted α) (m : ℚ) (p S : Finset ℕ) (limit : ℕ) : Prop where
  lt : limit < F.tids.length
  sub : ∀ i ∈ p, i < F.tids.length
  notMem : limit ∉ p
  supp : IsSupp F (insert limit p) S
  freq : m ≤ (S.card : ℚ)

theorem Pre.cl_sub {F : Fitted α} {m : ℚ} {p S : Finset ℕ} {limit : ℕ} (h : Pre F m p S limit) :
    p ⊆ cl F S := by
  intro i hi
  refine (mem_cl _ _ _).2 ⟨h.sub i hi, fun x hx => (h.supp x).1 hx i (Finset.mem_insert_of_mem hi)⟩

theorem Pre.union {F : Fitted α} {m : ℚ} {p S : Finset ℕ} {limit : ℕ} (h : Pre F m p S limit) :
    p ∪ cl F S = cl F S := Finset.union_eq_right.2 h.cl_sub

theorem Pre.limit_cl {F : Fitted α} {m : ℚ} {p S : Finset ℕ} {limit : ℕ} (h : Pre F m p S limit) :
    limit ∈ cl F S :=
  (mem_cl _ _ _).2 ⟨h.lt, fun x hx => (h.supp x).1 hx limit (Finset.mem_insert_self _ _)⟩

theorem Pre.cl_isSupp {F : Fitted α} {m : ℚ} {p S : Finset ℕ} {limit : ℕ} (h : Pre F m p S limit) :
    IsSupp F (cl F S) S := by
  intro x
  constructor
  · intro hx i hi; exact ((mem_cl _ _ _).1 hi).2 hx
  · intro hx
    refine (h.supp x).2 (fun i hi => hx i ?_)
    rcases Finset.mem_insert.1 hi with rfl | hi
    · exact h.limit_cl
    · exact h.cl_sub hi

theorem Pre.child {F : Fitted α} {m : ℚ} {p S : Finset ℕ} {limit l : ℕ} (h : Pre F m p S limit)
    (hl : l < F.tids.length) (hlp : l ∉ cl F S) (hf : m ≤ ((S ∩ F.ids l).card : ℚ)) :
    Pre F m (cl F S) (S ∩ F.ids l) l where
  lt := hl
  sub := fun i hi => ((mem_cl _ _ _).1 hi).1
  notMem := hlp
  supp := by
    intro x
    rw [Finset.mem_inter, h.cl_isSupp x]
    simp [and_comm]
  freq := hf

/-- The closed sets below a node: those containing `p` and `limit` and, outside `p`, nothing above `limit`. -/
def Below (F : Fitted α) (m : ℚ) (p : Finset ℕ) (limit : ℕ) (C t : Finset ℕ) : Prop :=
  ClosedIdx F m C t ∧ p ⊆ C ∧ limit ∈ C ∧ ∀ i ∈ C, i ∉ p → i ≤ limit

theorem Below.sub_supp {F : Fitted α} {m : ℚ} {p S : Finset ℕ} {limit : ℕ} (h : Pre F m p S limit)
    {C t : Finset ℕ} (hb : Below F m p limit C t) : t ⊆ S := by
  intro x hx
  refine (h.supp x).2 (fun i hi => (hb.1.1 x).1 hx i ?_)
  rcases Finset.mem_insert.1 hi with rfl | hi
  · exact hb.2.2.1
  · exact hb.2.1 hi

theorem Below.cl_sub {F : Fitted α} {m : ℚ} {p S : Finset ℕ} {limit : ℕ} (h : Pre F m p S limit)
    {C t : Finset ℕ} (hb : Below F m p limit C t) : cl F S ⊆ C := by
  intro i hi
  rw [hb.1.2.1]
  have := (mem_cl _ _ _).1 hi
  exact (mem_cl _ _ _).2 ⟨this.1, (hb.sub_supp h).trans this.2⟩

/-- If the test `max_k == limit` fails, there is nothing below. -/
theorem Below.ok {F : Fitted α} {m : ℚ} {p S : Finset ℕ} {limit : ℕ} (h : Pre F m p S limit)
    {C t : Finset ℕ} (hb : Below F m p limit C t) : Ok F p S limit :=
  ⟨h.limit_cl, h.notMem, fun i hi hip => hb.2.2.2 i (hb.cl_sub h hi) hip⟩

theorem below_self {F : Fitted α} {m : ℚ} {p S : Finset ℕ} {limit : ℕ} (h : Pre F m p S limit)
    (hok : Ok F p S limit) : Below F m p limit (cl F S) S :=
  ⟨⟨h.cl_isSupp, rfl, h.freq⟩, h.cl_sub, h.limit_cl, hok.2.2⟩

theorem below_of_child {F : Fitted α} {m : ℚ} {p S : Finset ℕ} {limit l : ℕ} (h : Pre F m p S limit)
    (hok : Ok F p S limit) (hl : l < limit) {C t : Finset ℕ} (hb : Below F m (cl F S) l C t) :
    Below F m p limit C t := by
  refine ⟨hb.1, h.cl_sub.trans hb.2.1, hb.2.1 h.limit_cl, fun i hi hip => ?_⟩
  by_cases hic : i ∈ cl F S
  · exact hok.2.2 i hic hip
  · exact (hb.2.2.2 i hi hic).trans hl.le

/-- A closed set below a node is the node itself or lies below exactly one frequent candidate. -/
theorem below_cases {F : Fitted α} {m : ℚ} {p S : Finset ℕ} {limit : ℕ} (h : Pre F m p S limit)
    {C t : Finset ℕ} (hb : Below F m p limit C t) :
    (C = cl F S ∧ t = S) ∨ ∃ l, l < F.tids.length ∧ l ∉ cl F S ∧ l < limit ∧
      m ≤ ((S ∩ F.ids l).card : ℚ) ∧ Below F m (cl F S) l C t := by
  have hsub := hb.cl_sub h
  by_cases hC : C ⊆ cl F S
  · left
    have hCe : C = cl F S := Finset.Subset.antisymm hC hsub
    refine ⟨hCe, ?_⟩
    ext x
    rw [hb.1.1 x, h.cl_isSupp x, hCe]
  · right
    have hne : (C \ cl F S).Nonempty := by
      obtain ⟨i, hi, hn⟩ := Finset.not_subset.1 hC
      exact ⟨i, Finset.mem_sdiff.2 ⟨hi, hn⟩⟩
    have hmax := Finset.max'_mem _ hne
    set l := (C \ cl F S).max' hne with hl
    rw [Finset.mem_sdiff] at hmax
    have hlt : l < F.tids.length := by
      have := hmax.1
      rw [hb.1.2.1] at this
      exact ((mem_cl _ _ _).1 this).1
    have hle : l ≤ limit := hb.2.2.2 l hmax.1 (fun hp => hmax.2 (h.cl_sub hp))
    have hne' : l ≠ limit := fun e => hmax.2 (e ▸ h.limit_cl)
    refine ⟨l, hlt, hmax.2, lt_of_le_of_ne hle hne', ?_, hb.1, hsub, hmax.1, ?_⟩
    · refine le_trans hb.1.2.2 ?_
      have : t ⊆ S ∩ F.ids l := fun x hx =>
        Finset.mem_inter.2 ⟨hb.sub_supp h hx, (hb.1.1 x).1 hx l hmax.1⟩
      exact_mod_cast Finset.card_le_card this
    · intro i hi hic
      exact Finset.le_max' _ i (Finset.mem_sdiff.2 ⟨hi, hic⟩)

/-- Exactness of the recursion. -/
theorem mem_core (F : Fitted α) (m : ℚ) (fuel : ℕ) (p S : Finset ℕ) (limit : ℕ) (h : Pre F m p S limit)
    (hfuel : limit < fuel) (C t : Finset ℕ) :
    (C, t) ∈ core F m fuel p S limit ↔ Below F m p limit C t := by
  induction fuel generalizing p S limit with
  | zero => exact absurd hfuel (Nat.not_lt_zero _)
  | succ fuel ih =>
    unfold core
    by_cases hok : Ok F p S limit
    · rw [if_pos hok, h.union, List.mem_cons, List.mem_flatMap]
      have hchild : ∀ l, l ∈ candidates F (cl F S) limit → m ≤ ((S ∩ F.ids l).card : ℚ) →
          ((C, t) ∈ core F m fuel (cl F S) (S ∩ F.ids l) l ↔ Below F m (cl F S) l C t) := by
        intro l hl hf
        have hl := (mem_candidates _ _ _ _).1 hl
        exact ih _ _ _ (h.child hl.1 hl.2.1 hf) (by omega)
      constructor
      · rintro (he | ⟨l, hl, hm⟩)
        · rw [Prod.mk.injEq] at he
          rw [he.1, he.2]
          exact below_self h hok
        · split at hm
          next hf =>
            exact below_of_child h hok ((mem_candidates _ _ _ _).1 hl).2.2 ((hchild l hl hf).1 hm)
          next => simp at hm
      · intro hb
        rcases below_cases h hb with ⟨h1, h2⟩ | ⟨l, h1, h2, h3, h4, h5⟩
        · left; rw [h1, h2]
        · right
          have hl := (mem_candidates F (cl F S) limit l).2 ⟨h1, h2, h3⟩
          exact ⟨l, hl, by rw [if_pos h4]; exact (hchild l hl h4).2 h5⟩
    · rw [if_neg hok]
      constructor
      · intro h; simp at h
      · intro hb; exact absurd (hb.ok h) hok

theorem below_unique {F : Fitted α} {m : ℚ} {q : Finset ℕ} {l1 l2 : ℕ} {C t1 t2 : Finset ℕ}
    (hl1 : l1 ∉ q) (hl2 : l2 ∉ q) (h1 : Below F m q l1 C t1) (h2 : Below F m q l2 C t2) : l1 = l2 :=
  le_antisymm (h2.2.2.2 l1 h1.2.2.1 hl1) (h1.2.2.2 l2 h2.2.2.1 hl2)

/-- No set of indices is produced twice. -/
theorem nodup_core (F : Fitted α) (m : ℚ) (fuel : ℕ) (p S : Finset ℕ) (limit : ℕ) (h : Pre F m p S limit)
    (hfuel : limit < fuel) : ((core F m fuel p S limit).map Prod.fst).Nodup := by
  induction fuel generalizing p S limit with
  | zero => exact absurd hfuel (Nat.not_lt_zero _)
  | succ fuel ih =>
    unfold core
    by_cases hok : Ok F p S limit
    · rw [if_pos hok, h.union, List.map_cons, List.map_flatMap, List.nodup_cons, List.mem_flatMap]
      have hchild : ∀ l, l ∈ candidates F (cl F S) limit → m ≤ ((S ∩ F.ids l).card : ℚ) →
          ∀ C, C ∈ (core F m fuel (cl F S) (S ∩ F.ids l) l).map Prod.fst → ∃ t, Below F m (cl F S) l C t := by
        intro l hl hf C hC
        have hl := (mem_candidates _ _ _ _).1 hl
        obtain ⟨⟨C', t⟩, hc, rfl⟩ := List.mem_map.1 hC
        exact ⟨t, (mem_core F m fuel _ _ _ (h.child hl.1 hl.2.1 hf) (by omega) C' t).1 hc⟩
      refine ⟨?_, ?_⟩
      · rintro ⟨l, hl, hm⟩
        split at hm
        next hf =>
          obtain ⟨t, hb⟩ := hchild l hl hf _ hm
          exact ((mem_candidates _ _ _ _).1 hl).2.1 hb.2.2.1
        next => simp at hm
      · rw [List.nodup_flatMap]
        refine ⟨?_, ?_⟩
        · intro l hl
          split
          next hf =>
            have hl := (mem_candidates _ _ _ _).1 hl
            exact ih _ _ _ (h.child hl.1 hl.2.1 hf) (by omega)
          next => simp
        · have hnd := nodup_candidates F (cl F S) limit
          refine List.Pairwise.imp_of_mem ?_ (hnd : List.Pairwise (· ≠ ·) _)
          intro a b ha hb hab
          simp only [Function.onFun, List.disjoint_left]
          intro C hCa hCb
          split at hCa
          next hfa =>
            split at hCb
            next hfb =>
              obtain ⟨ta, hta⟩ := hchild a ha hfa C hCa
              obtain ⟨tb, htb⟩ := hchild b hb hfb C hCb
              exact hab (below_unique ((mem_candidates _ _ _ _).1 ha).2.1 ((mem_candidates _ _ _ _).1 hb).2.1 hta htb)
            next => simp at hCb
          next => simp at hCa
    · rw [if_neg hok]; simp

/-- All roots. -/
def coreAll (F : Fitted α) (m : ℚ) : List (Finset ℕ × Finset ℕ) :=
  (List.range F.tids.length).flatMap (fun i => core F m (i + 1) ∅ (F.ids i) i)

/-- Every index passed the minimum support. -/
def AllFrequent (F : Fitted α) (m : ℚ) : Prop := ∀ i < F.tids.length, m ≤ ((F.ids i).card : ℚ)

theorem pre_root {F : Fitted α} {m : ℚ} (hF : AllFrequent F m) {i : ℕ} (hi : i < F.tids.length) :
    Pre F m ∅ (F.ids i) i where
  lt := hi
  sub := by simp
  notMem := by simp
  supp := by intro x; simp
  freq := hF i hi

theorem mem_coreAll {F : Fitted α} {m : ℚ} (hF : AllFrequent F m) (C t : Finset ℕ) :
    (C, t) ∈ coreAll F m ↔ C.Nonempty ∧ ClosedIdx F m C t := by
  unfold coreAll
  rw [List.mem_flatMap]
  constructor
  · rintro ⟨i, hi, hm⟩
    rw [List.mem_range] at hi
    have := (mem_core F m _ _ _ _ (pre_root hF hi) (Nat.lt_succ_self i) C t).1 hm
    exact ⟨⟨i, this.2.2.1⟩, this.1⟩
  · rintro ⟨hne, hc⟩
    have hmem := Finset.max'_mem C hne
    have hi : C.max' hne < F.tids.length := ((mem_cl _ _ _).1 (hc.2.1.subset hmem)).1
    refine ⟨C.max' hne, List.mem_range.2 hi, ?_⟩
    rw [mem_core F m _ _ _ _ (pre_root hF hi) (Nat.lt_succ_self _) C t]
    exact ⟨hc, by simp, hmem, fun i hi _ => Finset.le_max' _ _ hi⟩

theorem nodup_coreAll {F : Fitted α} {m : ℚ} (hF : AllFrequent F m) :
    ((coreAll F m).map Prod.fst).Nodup := by
  unfold coreAll
  rw [List.map_flatMap, List.nodup_flatMap]
  have hmem : ∀ i < F.tids.length, ∀ C, C ∈ (core F m (i + 1) ∅ (F.ids i) i).map Prod.fst →
      ∃ t, Below F m ∅ i C t := by
    intro i hi C hC
    obtain ⟨⟨C', t⟩, hc, rfl⟩ := List.mem_map.1 hC
    exact ⟨t, (mem_core F m _ _ _ _ (pre_root hF hi) (Nat.lt_succ_self i) C' t).1 hc⟩
  refine ⟨?_, ?_⟩
  · intro i hi
    exact nodup_core F m _ _ _ _ (pre_root hF (List.mem_range.1 hi)) (Nat.lt_succ_self i)
  · refine List.Pairwise.imp_of_mem ?_ (List.nodup_range : List.Pairwise (· ≠ ·) _)
    intro a b ha hb hab
    simp only [Function.onFun, List.disjoint_left]
    intro C hCa hCb
    obtain ⟨ta, hta⟩ := hmem a (List.mem_range.1 ha) C hCa
    obtain ⟨tb, htb⟩ := hmem b (List.mem_range.1 hb) C hCb
    exact hab (below_unique (by simp) (by simp) hta htb)

theorem transform_eq_core (F : Fitted α) (m : ℚ) (o : Opts) :
    transform F m o = ((coreAll F m).map (fun c => mkRow F o c.1 c.2)).filter (lengthOk o) := by
  unfold transform coreAll exploreRoot
  rw [List.map_flatMap, List.filter_flatMap]
  congr 1
  funext i
  exact inner_eq_core F m o _ _ _ _

end Verif.LCM
