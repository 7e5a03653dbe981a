import Verif.Complex.Pairs
import Verif.Clique.Props
import Verif.CandPool.Props
import Verif.Mine.Fit

/-!
# Horizontal combination
-/

set_option autoImplicit false
set_option linter.unusedSectionVars false

namespace Verif.Complex

open Verif.PTree Verif.Concat Verif.PattKey

variable {K : Type} [Field K] [LinearOrder K]

/-- No common occurrence. -/
def Disj (a b : Cand ℤ) : Prop := ∀ x ∈ pairs a, x ∉ pairs b

theorem Disj.symm {a b : Cand ℤ} (h : Disj a b) : Disj b a := fun x hx hx' => h x hx' hx

/-- What is known of the candidates of the pool, of the candidates made of several of them side by side, and of those made by nesting. -/
structure Closed (W : World K) (P H V : Cand ℤ → Prop) : Prop where
  shape : ∀ c, P c → Shape c
  cost : ∀ c, P c → ∀ x ∈ pairs c, (W.dcosts.lookup x.2).isSome
  concat : ∀ (cs : List (Cand ℤ × ℕ)) (p0 : ℤ) (r0 : ℕ) (c' : Cand ℤ), 2 ≤ cs.length → 3 ≤ r0 → (∀ c ∈ cs, P c.1 ∧ c.2 + r0 ≤ c.1.r) → (cs.map Prod.fst).Pairwise Disj →
    (∃ c ∈ cs, p0 = c.1.p) → concat cs p0 r0 = some c' → H c'
  nest : ∀ (l : List (PC K)) (F : Forest ℤ) (r : List (Cand ℤ) × Finset ℕ), (∀ c ∈ l, P c.cand.toCand ∧ c.cand.toCand.ch = F) → Nest.nestCmplx l.length (W.env l) (l.map (fun c => c.cand.toCand)) = .ok r → ∀ c ∈ r.1, V c
  factShape : ∀ c, H c → Shape c
  fact : ∀ (c f : Cand ℤ) (fuel : ℕ) (fs : List (Cand ℤ)), H c → inner c.tree ≤ fuel → factorizePattern fuel c = some fs → f ∈ fs → H f

/-- A row stands for a candidate of the pool, from one of its repetitions on; three repetitions at least are left. -/
def RowOk (P : Cand ℤ → Prop) (cs : List (ℕ × PC K)) (row : Row) : Prop :=
  ∃ c, cs.lookup row.cid = some c ∧ P c.cand.toCand ∧ row.r = c.cand.toCand.r ∧ row.p = c.cand.toCand.p ∧ row.off + 3 ≤ row.r

/-- The candidates of two rows have no common occurrence. -/
def DisjRows (cs : List (ℕ × PC K)) (i j : Row) : Prop := ∀ ci cj, cs.lookup i.cid = some ci → cs.lookup j.cid = some cj → Disj ci.cand.toCand cj.cand.toCand

theorem DisjRows.symm {cs : List (ℕ × PC K)} {i j : Row} (h : DisjRows cs i j) : DisjRows cs j i := fun ci cj hi hj => (h cj ci hj hi).symm

/-- What is kept for a pair of rows. -/
def KeepOk (H : Cand ℤ → Prop) (cs : List (ℕ × PC K)) (props : List Row) (e : List ℕ × PC K) : Prop :=
  H e.2.cand.toCand ∧ ∃ i j : PR, e.1 = [i.1, j.1] ∧ i.1 ≠ j.1 ∧ props[i.1]? = some i.2 ∧ props[j.1]? = some j.2 ∧ DisjRows cs i.2 j.2

/-! ### One pair -/

theorem rmin_le (i j : Row) : rmin i j ≤ i.r - i.off ∧ rmin i j ≤ j.r - j.off := ⟨min_le_left _ _, min_le_right _ _⟩

theorem rmin_comm (i j : Row) : rmin i j = rmin j i := min_comm _ _

theorem concat2 {W : World K} {P H V : Cand ℤ → Prop} (hC : Closed W P H V) (ci cj : PC K) (i j : Row) (hi : P ci.cand.toCand) (hj : P cj.cand.toCand) (hri : i.r = ci.cand.toCand.r) (hrj : j.r = cj.cand.toCand.r)
    (hpi : i.p = ci.cand.toCand.p) (hoi : i.off + 3 ≤ i.r) (hoj : j.off + 3 ≤ j.r) (hd : Disj ci.cand.toCand cj.cand.toCand) :
    ∃ c', concat [(ci.cand.toCand, i.off), (cj.cand.toCand, j.off)] i.p (rmin i j) = some c' ∧ H c' := by
  have h3 : 3 ≤ rmin i j := by unfold rmin; omega
  have hm := rmin_le i j
  have hrep : ∀ c ∈ [(ci.cand.toCand, i.off), (cj.cand.toCand, j.off)], P c.1 ∧ c.2 + rmin i j ≤ c.1.r := by
    intro c hc
    simp only [List.mem_cons, List.not_mem_nil, or_false] at hc
    rcases hc with rfl | rfl
    · exact ⟨hi, by simp only; omega⟩
    · exact ⟨hj, by simp only; omega⟩
  obtain ⟨c', h1, -⟩ := concat_shape [(ci.cand.toCand, i.off), (cj.cand.toCand, j.off)] (by simp) i.p (rmin i j) (by omega) (fun c hc => hC.shape _ (hrep c hc).1) (fun c hc => (hrep c hc).2)
  exact ⟨c', h1, hC.concat _ _ _ _ (by simp) h3 hrep (by simpa using hd) ⟨_, List.mem_cons_self, hpi⟩ h1⟩

theorem makePair_spec {W : World K} {P H V : Cand ℤ → Prop} (hC : Closed W P H V) (ci cj : PC K) (i j : PR) (hi : P ci.cand.toCand) (hj : P cj.cand.toCand) (hri : i.2.r = ci.cand.toCand.r) (hrj : j.2.r = cj.cand.toCand.r)
    (hpi : i.2.p = ci.cand.toCand.p) (hpj : j.2.p = cj.cand.toCand.p) (hoi : i.2.off + 3 ≤ i.2.r) (hoj : j.2.off + 3 ≤ j.2.r) (hd : Disj ci.cand.toCand cj.cand.toCand) :
    ∃ k c, makePair W ci cj i j = some (k, c) ∧ (k = [i.1, j.1] ∨ k = [j.1, i.1]) ∧ H c.cand.toCand := by
  obtain ⟨c, h1, h2⟩ := concat2 hC ci cj i.2 j.2 hi hj hri hrj hpi hoi hoj hd
  obtain ⟨x, h3, h4⟩ := concat2 hC cj ci j.2 i.2 hj hi hrj hri hpj hoj hoi hd.symm
  rw [rmin_comm] at h3
  unfold makePair
  rw [h1]
  simp only
  split
  · rw [h3]
    simp only
    split
    · exact ⟨_, _, rfl, Or.inr rfl, h4⟩
    · exact ⟨_, _, rfl, Or.inl rfl, h2⟩
  · exact ⟨_, _, rfl, Or.inl rfl, h2⟩

theorem worth_some {W : World K} {P H V : Cand ℤ → Prop} (hC : Closed W P H V) (ci cj new : PC K) (hi : P ci.cand.toCand) (hj : P cj.cand.toCand) : ∃ b, worth W ci cj new = some b := by
  unfold worth
  split
  · have : ∀ o ∈ (evOccs ci.cand ++ evOccs cj.cand).toFinset \ (evOccs new.cand).toFinset, (W.dcosts.lookup (Prod.snd o)).isSome := by
      intro o ho
      have ho := (Finset.mem_sdiff.1 ho).1
      rw [List.mem_toFinset, List.mem_append, evOccs_pairs, evOccs_pairs] at ho
      rcases ho with ho | ho
      · exact hC.cost _ hi o ho
      · exact hC.cost _ hj o ho
    simp only [Select.sumCosts, if_pos this]
    exact ⟨_, rfl⟩
  · exact ⟨_, rfl⟩

theorem tryPair_spec {W : World K} {P H V : Cand ℤ → Prop} (hC : Closed W P H V) (cs : List (ℕ × PC K)) (props : List Row) (hrows : ∀ row ∈ props, RowOk P cs row) (i j : PR)
    (hi : props[i.1]? = some i.2) (hj : props[j.1]? = some j.2) (hne : j.2.cid ≠ i.2.cid) :
    ∃ l o, tryPair W cs i j = some (l, o) ∧ ∀ e, o = some e → KeepOk H cs props e := by
  obtain ⟨ci, li, pi, ri, qi, oi⟩ := hrows i.2 (List.mem_of_getElem? hi)
  obtain ⟨cj, lj, pj, rj, qj, oj⟩ := hrows j.2 (List.mem_of_getElem? hj)
  unfold tryPair
  rw [li, lj]
  simp only
  split
  · exact ⟨_, _, rfl, by intro e h; cases h⟩
  · split
    · exact ⟨_, _, rfl, by intro e h; cases h⟩
    · rename_i hany
      have hd : Disj ci.cand.toCand cj.cand.toCand := by
        intro x hx hx'
        apply hany
        rw [List.any_eq_true]
        exact ⟨x, by rw [evOccs_pairs]; exact hx, by rw [decide_eq_true_eq, evOccs_pairs]; exact hx'⟩
      obtain ⟨k, c, m1, m2, m3⟩ := makePair_spec hC ci cj i j pi pj ri rj qi qj oi oj hd
      obtain ⟨b, hb⟩ := worth_some hC ci cj c pi pj
      rw [m1]
      simp only [Option.bind_some, hb, Option.map_some]
      refine ⟨_, _, rfl, ?_⟩
      intro e he
      cases b with
      | false => simp at he
      | true =>
        simp only [if_true, Option.some.injEq] at he
        subst he
        have hij : i.1 ≠ j.1 := by
          intro h
          rw [h, hj] at hi
          exact hne (by rw [Option.some.inj hi])
        have hdr : DisjRows cs i.2 j.2 := by
          intro a b ha hb
          rw [li] at ha
          rw [lj] at hb
          cases ha; cases hb
          exact hd
        rcases m2 with rfl | rfl
        · exact ⟨m3, i, j, rfl, hij, hi, hj, hdr⟩
        · exact ⟨m3, j, i, rfl, hij.symm, hj, hi, hdr.symm⟩

/-! ### The main loop -/

/-- Invariant of the main loop. -/
structure HInv (H : Cand ℤ → Prop) (cs : List (ℕ × PC K)) (props : List Row) (num : ℕ) (s : HState K) : Prop where
  valid : ∀ q ∈ s.pids, props[q.1]? = some q.2
  sorted : s.pids.Pairwise (fun a b => a.2.t0 ≤ b.2.t0)
  news : ∀ ns, s.news = some ns → ns = s.pids.filter (fun q => decide (q.2.new = num))
  empty : s.news = some [] → s.pids = []
  keep : ∀ e ∈ s.keep, KeepOk H cs props e
  last : s.keep ≠ [] → s.last.isSome

theorem advance_spec {props : List Row} {num : ℕ} {pids : List PR} {news : Option (List PR)} (hne : pids ≠ []) (hv : ∀ q ∈ pids, props[q.1]? = some q.2)
    (hn : ∀ ns, news = some ns → ns = pids.filter (fun q => decide (q.2.new = num))) (he : news = some [] → pids = []) :
    ∃ i rest news', advance pids news = some (i :: rest, news') ∧ (i :: rest).Sublist pids ∧ (∀ ns, news' = some ns → ns = rest.filter (fun q => decide (q.2.new = num))) ∧
      (news' = some [] → rest = []) := by
  cases news with
  | none =>
    cases pids with
    | nil => exact absurd rfl hne
    | cons i rest => exact ⟨i, rest, none, rfl, List.Sublist.refl _, by simp, by simp⟩
  | some ns =>
    cases ns with
    | nil => exact absurd (he rfl) hne
    | cons n0 ns =>
      have hf := hn _ rfl
      obtain ⟨pr, hpr⟩ : ∃ pr : PR → Bool, pr = fun q => decide (q.1 ≠ n0.1) && decide (q.2.t0 + q.2.p < n0.2.t0) := ⟨_, rfl⟩
      obtain ⟨pre, hpre⟩ : ∃ pre, pre = pids.takeWhile pr := ⟨_, rfl⟩
      have hn0 : n0 ∈ pids := (List.mem_filter.1 (by rw [← hf]; exact List.mem_cons_self)).1
      -- nothing new before
      have hold : pre.filter (fun q => decide (q.2.new = num)) = [] := by
        cases hp : pre.filter (fun q => decide (q.2.new = num)) with
        | nil => rfl
        | cons a l =>
          exfalso
          have hsplit : pids = pre ++ pids.dropWhile pr := by rw [hpre]; exact (List.takeWhile_append_dropWhile).symm
          rw [hsplit, List.filter_append, hp, List.cons_append] at hf
          have ha : a = n0 := (List.cons.inj hf).1.symm
          have : a ∈ pre := (List.mem_filter.1 (by rw [hp]; exact List.mem_cons_self)).1
          rw [hpre] at this
          have := (List.all_eq_true.1 (List.all_takeWhile (p := pr) (l := pids))) a this
          rw [hpr, ha] at this
          simp at this
      have hsplit : pids = pre ++ pids.dropWhile pr := by rw [hpre]; exact (List.takeWhile_append_dropWhile).symm
      cases hd : pids.dropWhile pr with
      | nil =>
        exfalso
        rw [hd, List.append_nil] at hsplit
        rw [← hsplit] at hold
        rw [hold] at hf
        cases hf
      | cons q rest =>
        have hsub : (q :: rest).Sublist pids := by rw [← hd]; exact List.dropWhile_sublist _
        have hf' : (q :: rest).filter (fun q => decide (q.2.new = num)) = n0 :: ns := by
          rw [hsplit, List.filter_append, hold, List.nil_append, hd] at hf
          exact hf.symm
        simp only [advance]
        rw [← hpr, hd]
        simp only
        by_cases hq : q.1 = n0.1
        · have hqq : q = n0 := by
            have h1 := hv q (hsub.subset List.mem_cons_self)
            have h2 := hv n0 hn0
            rw [hq, h2] at h1
            exact Prod.ext hq (Option.some.inj h1).symm
          have hnew : decide (q.2.new = num) = true := by
            have : n0 ∈ pids.filter (fun q => decide (q.2.new = num)) := by rw [← hf]; exact List.mem_cons_self
            rw [hqq]
            exact (List.mem_filter.1 this).2
          rw [List.filter_cons_of_pos (p := fun q : PR => decide (q.2.new = num)) hnew] at hf'
          have hrest := (List.cons.inj hf').2
          rw [if_pos hq]
          by_cases hns : ns = []
          · rw [if_pos hns]
            exact ⟨q, [], some [], rfl, (List.Sublist.cons_cons _ (List.nil_sublist _)).trans hsub, by rintro _ h; cases h; rfl, fun _ => rfl⟩
          · rw [if_neg hns]
            exact ⟨q, rest, some ns, rfl, hsub, by rintro _ h; cases h; exact hrest.symm, fun h => absurd (Option.some.inj h) hns⟩
        · rw [if_neg hq]
          have hnew : ¬ decide (q.2.new = num) = true := by
            intro h
            rw [List.filter_cons_of_pos (p := fun q : PR => decide (q.2.new = num)) h] at hf'
            exact hq (by rw [(List.cons.inj hf').1])
          rw [List.filter_cons_of_neg (p := fun q : PR => decide (q.2.new = num)) hnew] at hf'
          exact ⟨q, rest, some (n0 :: ns), rfl, hsub, by rintro _ h; cases h; exact hf'.symm, by simp⟩

theorem slice_spec {pids : List PR} (hne : pids ≠ []) (hs : pids.Pairwise (fun a b => a.2.t0 ≤ b.2.t0)) (next : ℤ) : ∃ l, slice pids next = some l ∧ l.Sublist pids := by
  obtain ⟨k, h1, -⟩ := CandPool.pidsSlice_exact (pids.map (fun q => q.2.t0)) 500 next (by omega) (by simpa using hne) (by rw [List.pairwise_map]; exact hs)
  exact ⟨pids.take k, by rw [slice, h1]; rfl, List.take_sublist _ _⟩

theorem selIds_spec {num : ℕ} {i : PR} {pids : List PR} {news : Option (List PR)} (hne : pids ≠ []) (hs : pids.Pairwise (fun a b => a.2.t0 ≤ b.2.t0))
    (hn : ∀ ns, news = some ns → ns = pids.filter (fun q => decide (q.2.new = num))) (he : news = some [] → pids = []) :
    ∃ js, selIds num i pids news = some js ∧ ∀ j ∈ js, j ∈ pids ∧ j.2.cid ≠ i.2.cid := by
  obtain ⟨sl, h1, h2⟩ := slice_spec hne hs (i.2.t0 + i.2.p)
  obtain ⟨l, hl, hsub⟩ : ∃ l, cmpIds num i pids news = some l ∧ ∀ j ∈ l, j ∈ pids := by
    unfold cmpIds
    split
    · exact ⟨sl, h1, fun j hj => h2.subset hj⟩
    · cases news with
      | none => exact ⟨_, by rw [h1]; rfl, fun j hj => h2.subset (List.mem_filter.1 hj).1⟩
      | some ns =>
        cases ns with
        | nil => exact absurd (he rfl) hne
        | cons n ns =>
          refine ⟨_, rfl, fun j hj => ?_⟩
          have := (List.mem_filter.1 hj).1
          rw [hn _ rfl] at this
          exact (List.mem_filter.1 this).1
  refine ⟨_, by rw [selIds, hl]; rfl, fun j hj => ?_⟩
  obtain ⟨a, b⟩ := List.mem_filter.1 hj
  rw [Bool.and_eq_true, decide_eq_true_eq] at b
  exact ⟨hsub j a, b.1⟩

theorem mem_dset {β γ : Type} [DecidableEq β] {k : β} {v : γ} : ∀ {l : List (β × γ)} {e : β × γ}, e ∈ CandPool.dset k v l → e = (k, v) ∨ e ∈ l
  | [], e, h => by
    simp only [CandPool.dset, List.mem_singleton] at h
    exact Or.inl h
  | (k', v') :: l, e, h => by
    rw [CandPool.dset] at h
    split at h
    · rename_i hk
      rcases List.mem_cons.1 h with h | h
      · exact Or.inl (by rw [h, hk])
      · exact Or.inr (List.mem_cons_of_mem _ h)
    · rcases List.mem_cons.1 h with h | h
      · exact Or.inr (by rw [h]; exact List.mem_cons_self)
      · rcases mem_dset h with h | h
        · exact Or.inl h
        · exact Or.inr (List.mem_cons_of_mem _ h)

theorem pairLoop_spec {W : World K} {P H V : Cand ℤ → Prop} (hC : Closed W P H V) (cs : List (ℕ × PC K)) (props : List Row) (hrows : ∀ row ∈ props, RowOk P cs row) (num : ℕ) (i : PR)
    (hi : props[i.1]? = some i.2) : ∀ (js : List PR) (s : HState K), HInv H cs props num s → (∀ j ∈ js, props[j.1]? = some j.2 ∧ j.2.cid ≠ i.2.cid) →
    ∃ s', pairLoop W cs i js s = some s' ∧ HInv H cs props num s' ∧ s'.pids.length ≤ s.pids.length
  | [], s, h, _ => ⟨s, rfl, h, le_refl _⟩
  | j :: js, s, h, hj => by
    have hjs : ∀ j ∈ js, props[j.1]? = some j.2 ∧ j.2.cid ≠ i.2.cid := fun x hx => hj x (List.mem_cons_of_mem _ hx)
    obtain ⟨l, o, t1, t2⟩ := tryPair_spec hC cs props hrows i j hi (hj j List.mem_cons_self).1 (hj j List.mem_cons_self).2
    cases o with
    | none =>
      obtain ⟨s', r1, r2, r3⟩ := pairLoop_spec hC cs props hrows num i hi js { s with last := some l } ⟨h.valid, h.sorted, h.news, h.empty, h.keep, fun _ => rfl⟩ hjs
      exact ⟨s', by rw [pairLoop, t1]; exact r1, r2, r3⟩
    | some e =>
      obtain ⟨k, c⟩ := e
      have hk := t2 _ rfl
      obtain ⟨news, hnews⟩ : ∃ news, news = s.news.map (fun ns => ns.filter (fun q => decide (q.2.cid ≠ i.2.cid))) := ⟨_, rfl⟩
      obtain ⟨pids, hpids⟩ : ∃ pids, pids = s.pids.filter (fun q => decide (q.2.cid ≠ i.2.cid)) := ⟨_, rfl⟩
      have hsub : pids.Sublist s.pids := by rw [hpids]; exact List.filter_sublist
      have hkeep : ∀ e ∈ CandPool.dset k c s.keep, KeepOk H cs props e := by
        intro e he
        rcases mem_dset he with rfl | he
        · exact hk
        · exact h.keep e he
      have hInv : HInv H cs props num ⟨if news = some [] then [] else pids, news, CandPool.dset k c s.keep, some l⟩ := by
        by_cases hn : news = some []
        · rw [if_pos hn]
          exact ⟨by simp, by simp, by intro ns e; simp only at e; rw [hn] at e; cases e; rfl, fun _ => rfl, hkeep, fun _ => rfl⟩
        · rw [if_neg hn]
          refine ⟨fun q hq => h.valid q (hsub.subset hq), h.sorted.sublist hsub, ?_, fun e => absurd e hn, hkeep, fun _ => rfl⟩
          intro ns e
          simp only at e ⊢
          rw [hnews, Option.map_eq_some_iff] at e
          obtain ⟨ns0, e0, rfl⟩ := e
          rw [h.news ns0 e0, hpids, List.filter_filter, List.filter_filter]
          congr 1
          funext q
          rw [Bool.and_comm]
      obtain ⟨s', r1, r2, r3⟩ := pairLoop_spec hC cs props hrows num i hi js _ hInv hjs
      refine ⟨s', ?_, r2, r3.trans ?_⟩
      · rw [pairLoop, t1]
        simp only
        rw [← hnews, ← hpids]
        exact r1
      · simp only
        split
        · simp
        · exact hsub.length_le

theorem hLoop_spec {W : World K} {P H V : Cand ℤ → Prop} (hC : Closed W P H V) (cs : List (ℕ × PC K)) (props : List Row) (hrows : ∀ row ∈ props, RowOk P cs row) (num : ℕ) :
    ∀ (n : ℕ) (s : HState K), s.pids.length ≤ n → HInv H cs props num s → ∃ s', hLoop W cs num n s = some s' ∧ HInv H cs props num s'
  | 0, s, hl, h => ⟨s, by rw [hLoop, if_pos (by omega)], h⟩
  | n + 1, s, hl, h => by
    by_cases h1 : s.pids.length ≤ 1
    · exact ⟨s, by rw [hLoop, if_pos h1], h⟩
    · obtain ⟨i, rest, news, a1, a2, a3, a4⟩ := advance_spec (num := num) (by intro e; rw [e] at h1; simp at h1) h.valid h.news h.empty
      have hlen := a2.length_le
      rw [List.length_cons] at hlen
      have hi := h.valid i (a2.subset List.mem_cons_self)
      have hrest : rest.Sublist s.pids := (List.sublist_cons_self _ _).trans a2
      have hI : HInv H cs props num { s with pids := rest, news := news } := ⟨fun q hq => h.valid q (hrest.subset hq), h.sorted.sublist hrest, a3, a4, h.keep, h.last⟩
      rw [hLoop, if_neg h1, a1]
      simp only
      by_cases hr : rest = []
      · rw [if_pos hr]
        subst hr
        exact hLoop_spec hC cs props hrows num n _ (by simp) hI
      · rw [if_neg hr]
        obtain ⟨js, j1, j2⟩ := selIds_spec (i := i) hr hI.sorted a3 a4
        obtain ⟨s', p1, p2, p3⟩ := pairLoop_spec hC cs props hrows num i hi js _ hI (fun j hj => ⟨h.valid j (hrest.subset (j2 j hj).1), (j2 j hj).2⟩)
        rw [j1]
        simp only [p1]
        exact hLoop_spec hC cs props hrows num n s' (by simp only at p3; omega) p2

/-! ### Cliques -/

theorem topKeys_mem (keep : List (List ℕ × PC K)) : ∀ k ∈ topKeys keep, k ∈ keep.map Prod.fst := by
  intro k hk
  unfold topKeys at hk
  split at hk
  · exact hk
  · obtain ⟨i, -, hi⟩ := List.mem_filterMap.1 hk
    rw [Option.map_eq_some_iff] at hi
    obtain ⟨e, he, rfl⟩ := hi
    exact List.mem_map.2 ⟨e, List.mem_of_getElem? he, rfl⟩

theorem other_eq {u v : ℕ} {k : List ℕ} (h : other u k = some v) : k = [u, v] ∨ k = [v, u] := by
  unfold other at h
  split at h
  · rename_i a b
    split at h
    · rename_i ha
      cases h
      exact Or.inl (by rw [ha])
    · split at h
      · rename_i hb
        cases h
        exact Or.inr (by rw [hb])
      · cases h
  · cases h

theorem other_of {u v : ℕ} : other u [u, v] = some v ∧ (u ≠ v → other u [v, u] = some v) := by
  constructor
  · simp [other]
  · intro h
    simp [other, h.symm]

/-- The orders taken from sets list their elements. -/
structure OrdersOk (Q : Orders) : Prop where
  keys : ∀ l, (Q.keys l).Perm l
  enum : Clique.EnumOk Q.enum
  clique : ∀ R, (Q.clique R).Nodup ∧ ∀ v, v ∈ Q.clique R ↔ v ∈ R

/-- The rows of a clique. -/
structure ItemsOk (P : Cand ℤ → Prop) (l : List (Item K)) : Prop where
  ok : ∀ x ∈ l, P x.c.cand.toCand ∧ x.row.r = x.c.cand.toCand.r ∧ x.row.p = x.c.cand.toCand.p ∧ x.row.off + 3 ≤ x.row.r
  disj : l.Pairwise (fun x y => Disj x.c.cand.toCand y.c.cand.toCand)

theorem ItemsOk.perm {P : Cand ℤ → Prop} {l l' : List (Item K)} (h : ItemsOk P l) (hp : l'.Perm l) : ItemsOk P l' :=
  ⟨fun x hx => h.ok x (hp.mem_iff.1 hx), (hp.pairwise_iff (fun h => h.symm)).2 h.disj⟩

theorem foldl_min : ∀ (l : List (Item K)) (m : ℕ), (l.foldl (fun m y => min m (y.row.r - y.row.off)) m ≤ m) ∧ (∀ y ∈ l, l.foldl (fun m y => min m (y.row.r - y.row.off)) m ≤ y.row.r - y.row.off) ∧
    (3 ≤ m → (∀ y ∈ l, y.row.off + 3 ≤ y.row.r) → 3 ≤ l.foldl (fun m y => min m (y.row.r - y.row.off)) m)
  | [], m => ⟨le_refl _, by simp, fun h _ => h⟩
  | x :: l, m => by
    obtain ⟨a, b, c⟩ := foldl_min l (min m (x.row.r - x.row.off))
    refine ⟨a.trans (min_le_left _ _), ?_, ?_⟩
    · intro y hy
      rcases List.mem_cons.1 hy with rfl | hy
      · exact a.trans (min_le_right _ _)
      · exact b y hy
    · intro h h'
      have := h' x List.mem_cons_self
      exact c (by omega) (fun y hy => h' y (List.mem_cons_of_mem _ hy))

theorem makeOn_spec {W : World K} {P H V : Cand ℤ → Prop} (hC : Closed W P H V) (l : List (Item K)) (hne : 2 ≤ l.length) (h : ItemsOk P l) : ∃ c, makeOn W l = some c ∧ H c.cand.toCand := by
  cases l with
  | nil => simp at hne
  | cons x l =>
    obtain ⟨m, hm⟩ : ∃ m, m = l.foldl (fun m y => min m (y.row.r - y.row.off)) (x.row.r - x.row.off) := ⟨_, rfl⟩
    obtain ⟨a, b, c⟩ := foldl_min l (x.row.r - x.row.off)
    rw [← hm] at a c
    have b : ∀ y ∈ l, m ≤ y.row.r - y.row.off := by rw [hm]; exact b
    have hx := h.ok x List.mem_cons_self
    have h3 : 3 ≤ m := c (by omega) (fun y hy => (h.ok y (List.mem_cons_of_mem _ hy)).2.2.2)
    obtain ⟨cs, hcs⟩ : ∃ cs, cs = (x :: l).map (fun y => (y.c.cand.toCand, y.row.off)) := ⟨_, rfl⟩
    have hok : ∀ c ∈ cs, P c.1 ∧ c.2 + m ≤ c.1.r := by
      intro c hc
      rw [hcs] at hc
      obtain ⟨y, hy, rfl⟩ := List.mem_map.1 hc
      obtain ⟨y1, y2, y3, y4⟩ := h.ok y hy
      refine ⟨y1, ?_⟩
      have : m ≤ y.row.r - y.row.off := by
        rcases List.mem_cons.1 hy with rfl | hy
        · exact a
        · exact b y hy
      simp only
      omega
    obtain ⟨c', h1, -⟩ := concat_shape cs (by rw [hcs]; simp) x.row.p m (by omega) (fun c hc => hC.shape _ (hok c hc).1) (fun c hc => (hok c hc).2)
    refine ⟨W.mk' c', by rw [makeOn, ← hm, ← hcs, h1]; rfl, ?_⟩
    refine hC.concat cs x.row.p m c' (by rw [hcs, List.length_map]; exact hne) h3 hok ?_ ⟨(x.c.cand.toCand, x.row.off), by rw [hcs]; simp, hx.2.2.1⟩ h1
    rw [hcs, List.map_map, List.pairwise_map]
    exact h.disj

theorem better_spec {W : World K} {P H V : Cand ℤ → Prop} (hC : Closed W P H V) (l : List (Item K)) (hne : 2 ≤ l.length) (h : ItemsOk P l) (cur : List ℕ × PC K) (hc : H cur.2.cand.toCand) :
    ∃ e, better W l cur = some e ∧ H e.2.cand.toCand := by
  unfold better
  split
  · exact ⟨cur, rfl, hc⟩
  · obtain ⟨c, h1, h2⟩ := makeOn_spec hC l hne h
    rw [h1]
    simp only [Option.map_some]
    refine ⟨_, rfl, ?_⟩
    split
    · exact h2
    · exact hc

theorem items_spec {P : Cand ℤ → Prop} (cs : List (ℕ × PC K)) (props : List Row) (hrows : ∀ row ∈ props, RowOk P cs row) :
    ∀ l : List ℕ, (∀ v ∈ l, ∃ row, props[v]? = some row) → (l.Pairwise (fun u v => ∀ i j, props[u]? = some i → props[v]? = some j → DisjRows cs i j)) →
    ∃ its, items cs props l = some its ∧ ItemsOk P its ∧ its.map (fun x => x.pid) = l ∧ ∀ x ∈ its, props[x.pid]? = some x.row ∧ cs.lookup x.row.cid = some x.c
  | [], _, _ => ⟨[], rfl, ⟨by simp, by simp⟩, rfl, by simp⟩
  | v :: l, hv, hp => by
    rw [List.pairwise_cons] at hp
    obtain ⟨its, h1, h2, h3, h4⟩ := items_spec cs props hrows l (fun u hu => hv u (List.mem_cons_of_mem _ hu)) hp.2
    obtain ⟨row, hrow⟩ := hv v List.mem_cons_self
    obtain ⟨c, c1, c2, c3, c4, c5⟩ := hrows row (List.mem_of_getElem? hrow)
    refine ⟨⟨v, row, c⟩ :: its, ?_, ⟨?_, ?_⟩, by rw [List.map_cons, h3], ?_⟩
    · unfold items at h1 ⊢
      rw [List.mapM_cons, h1, hrow]
      simp only [Option.bind_some, c1, Option.map_some]
      rfl
    · intro x hx
      rcases List.mem_cons.1 hx with rfl | hx
      · exact ⟨c2, c3, c4, c5⟩
      · exact h2.ok x hx
    · rw [List.pairwise_cons]
      refine ⟨fun x hx => ?_, h2.disj⟩
      obtain ⟨x1, x2⟩ := h4 x hx
      exact hp.1 x.pid (by rw [← h3]; exact List.mem_map.2 ⟨x, hx, rfl⟩) row x.row hrow x1 c x.c c1 x2
    · intro x hx
      rcases List.mem_cons.1 hx with rfl | hx
      · exact ⟨hrow, c1⟩
      · exact h4 x hx

theorem cliqueCand_spec {W : World K} {P H V : Cand ℤ → Prop} (hC : Closed W P H V) (Q : Orders) (hQ : OrdersOk Q) (cs : List (ℕ × PC K)) (props : List Row) (hrows : ∀ row ∈ props, RowOk P cs row)
    (sel : List (List ℕ)) (R : Finset ℕ) (hcard : 2 < R.card) (hv : ∀ v ∈ R, ∃ row, props[v]? = some row)
    (hp : ∀ u ∈ R, ∀ v ∈ R, u ≠ v → ∀ i j, props[u]? = some i → props[v]? = some j → DisjRows cs i j) : ∃ e, cliqueCand W Q cs props sel R = some e ∧ H e.2.cand.toCand := by
  obtain ⟨q1, q2⟩ := hQ.clique R
  obtain ⟨its, h1, h2, h3, -⟩ := items_spec cs props hrows (Q.clique R) (fun v h => hv v ((q2 v).1 h)) (List.Pairwise.imp_of_mem (fun {u v} hu hv' huv => hp u ((q2 u).1 hu) v ((q2 v).1 hv') huv) q1)
  have hne : 2 ≤ its.length := by
    have h4 : (Q.clique R).toFinset = R := by
      ext v
      rw [List.mem_toFinset, q2]
    have h5 := List.toFinset_card_of_nodup q1
    have h6 := congrArg List.length h3
    rw [List.length_map] at h6
    rw [h4] at h5
    omega
  have hb : (orderBase its).Perm its := List.perm_insertionSort _ _
  have hbne : 2 ≤ (orderBase its).length := by rw [hb.length_eq]; exact hne
  obtain ⟨c, m1, m2⟩ := makeOn_spec hC (orderBase its) hbne (h2.perm hb)
  have hx : (orderX sel R (orderBase its)).Perm its := (List.perm_insertionSort _ _).trans hb
  have hxne : 2 ≤ (orderX sel R (orderBase its)).length := by rw [hx.length_eq]; exact hne
  have hy : (orderY its).Perm its := List.perm_insertionSort _ _
  have hyne : 2 ≤ (orderY its).length := by rw [hy.length_eq]; exact hne
  unfold cliqueCand
  rw [h1]
  simp only [Option.bind_some, m1]
  obtain ⟨e, e1, e2⟩ : ∃ e, (if ((orderBase its).map (fun x => x.row.t0)).Nodup then some ((orderBase its).map (fun x => x.pid), c) else
      better W (orderX sel R (orderBase its)) ((orderBase its).map (fun x => x.pid), c)) = some e ∧ H e.2.cand.toCand := by
    split
    · exact ⟨_, rfl, m2⟩
    · exact better_spec hC _ hxne (h2.perm hx) _ m2
  rw [e1]
  exact better_spec hC _ hyne (h2.perm hy) e e2

theorem cliqueLoop_spec {W : World K} {P H V : Cand ℤ → Prop} (hC : Closed W P H V) (Q : Orders) (hQ : OrdersOk Q) (cs : List (ℕ × PC K)) (props : List Row) (hrows : ∀ row ∈ props, RowOk P cs row)
    (sel : List (List ℕ)) (last : Option (PC K × PC K)) : ∀ (Rs : List (Finset ℕ)) (keep : List (List ℕ × PC K)), (Rs ≠ [] → last.isSome) →
    (∀ R ∈ Rs, 2 < R.card ∧ (∀ v ∈ R, ∃ row, props[v]? = some row) ∧ ∀ u ∈ R, ∀ v ∈ R, u ≠ v → ∀ i j, props[u]? = some i → props[v]? = some j → DisjRows cs i j) →
    (∀ e ∈ keep, H e.2.cand.toCand) → ∃ keep', cliqueLoop W Q cs props sel last Rs keep = some keep' ∧ ∀ e ∈ keep', H e.2.cand.toCand
  | [], keep, _, _, h => ⟨keep, rfl, h⟩
  | R :: Rs, keep, hl, hR, h => by
    obtain ⟨l, hl'⟩ := Option.isSome_iff_exists.1 (hl (by simp))
    obtain ⟨r1, r2, r3⟩ := hR R List.mem_cons_self
    obtain ⟨e, e1, e2⟩ := cliqueCand_spec hC Q hQ cs props hrows sel R r1 r2 r3
    subst hl'
    simp only [cliqueLoop, e1]
    apply cliqueLoop_spec hC Q hQ cs props hrows sel (some l) Rs _ (fun _ => rfl) (fun R' h' => hR R' (List.mem_cons_of_mem _ h'))
    intro x hx
    split at hx
    · rcases mem_dset hx with rfl | hx
      · exact e2
      · exact h x hx
    · exact h x hx

mutual
theorem inner_cyclePs {α : Type} : ∀ t : PTree.Tree α, inner t = (Nest.cyclePs t).length
  | .leaf _ => rfl
  | .node _ _ ch => by rw [inner, Nest.cyclePs, List.length_cons, innerF_cyclePs ch, Nat.add_comm]
theorem innerF_cyclePs {α : Type} : ∀ F : Forest α, innerF F = (Nest.cyclePsF F).length
  | .nil => rfl
  | .cons _ t rest => by rw [innerF, Nest.cyclePsF, List.length_append, inner_cyclePs t, innerF_cyclePs rest]
end

theorem substitute_spec {W : World K} {P H V : Cand ℤ → Prop} (hC : Closed W P H V) (c : PC K) (hc : H c.cand.toCand) : ∃ c', substitute W c = some c' ∧ H c'.cand.toCand := by
  obtain ⟨cand, cost⟩ := c
  cases cand with
  | cycle a p O E => exact ⟨_, rfl, hc⟩
  | pattern d =>
    obtain ⟨fs, h1, h2⟩ := factorize_sound d (hC.factShape _ hc) (Nest.cyclePs d.tree).length (le_of_eq (inner_cyclePs _))
    have hfs : ∀ f ∈ fs, H f := fun f hf => hC.fact d f _ fs hc (le_of_eq (inner_cyclePs _)) h1 hf
    have hfold : ∀ (l : List (PC K)) (b : PC K), H b.cand.toCand → (∀ x ∈ l, H x.cand.toCand) → H (l.foldl (fun best e => if e.cost < best.cost then e else best) b).cand.toCand := by
      intro l
      induction l with
      | nil => intro b hb _; exact hb
      | cons x l ih =>
        intro b hb hl
        rw [List.foldl_cons]
        apply ih
        · split
          · exact hl x List.mem_cons_self
          · exact hb
        · exact fun y hy => hl y (List.mem_cons_of_mem _ hy)
    refine ⟨_, by simp only [substitute, substitute.inner', h1, Option.map_some]; rfl, hfold _ _ hc ?_⟩
    intro x hx
    obtain ⟨f, hf, rfl⟩ := List.mem_map.1 hx
    exact hfs f hf

/-- The cliques found are sets of at least three rows, and the candidates of any two of them have no common occurrence. -/
theorem cliques_ok (Q : Orders) (hQ : OrdersOk Q) (cs : List (ℕ × PC K)) (props : List Row) (keep : List (List ℕ × PC K))
    (hkeep : ∀ e ∈ keep, ∃ i j : PR, e.1 = [i.1, j.1] ∧ i.1 ≠ j.1 ∧ props[i.1]? = some i.2 ∧ props[j.1]? = some j.2 ∧ DisjRows cs i.2 j.2) (sel : List (List ℕ)) (hsel : sel = topKeys keep) :
    ∃ collect, Clique.bronKerbosch3Plus (neighbours sel) Q.enum (sel.flatten.toFinset.card + 1) [] sel.flatten.toFinset ∅ ∅ = some collect ∧ (collect ≠ [] → keep ≠ []) ∧
      ∀ R ∈ collect, 2 < R.card ∧ (∀ v ∈ R, ∃ row, props[v]? = some row) ∧ ∀ u ∈ R, ∀ v ∈ R, u ≠ v → ∀ i j, props[u]? = some i → props[v]? = some j → DisjRows cs i j := by
  have hk : ∀ k ∈ sel, ∃ c, (k, c) ∈ keep := by
    intro k hk
    rw [hsel] at hk
    obtain ⟨e, he, rfl⟩ := List.mem_map.1 (topKeys_mem keep k hk)
    exact ⟨e.2, he⟩
  have hpair : ∀ k ∈ sel, ∃ i j : PR, k = [i.1, j.1] ∧ i.1 ≠ j.1 ∧ props[i.1]? = some i.2 ∧ props[j.1]? = some j.2 ∧ DisjRows cs i.2 j.2 := by
    intro k hk'
    obtain ⟨c, hc⟩ := hk k hk'
    exact hkeep _ hc
  have hvs : ∀ v ∈ sel.flatten.toFinset, ∃ row, props[v]? = some row := by
    intro v hv
    rw [List.mem_toFinset, List.mem_flatten] at hv
    obtain ⟨k, hk', hv⟩ := hv
    obtain ⟨i, j, rfl, -, hi, hj, -⟩ := hpair k hk'
    simp only [List.mem_cons, List.not_mem_nil, or_false] at hv
    rcases hv with rfl | rfl
    · exact ⟨_, hi⟩
    · exact ⟨_, hj⟩
  have hadj : ∀ u v, v ∈ neighbours sel u → u ≠ v ∧ u ∈ neighbours sel v ∧ ∀ i j, props[u]? = some i → props[v]? = some j → DisjRows cs i j := by
    intro u v hv
    unfold neighbours at hv
    rw [List.mem_toFinset, List.mem_filterMap] at hv
    obtain ⟨k, hk', ho⟩ := hv
    obtain ⟨i, j, rfl, hne, hi, hj, hd⟩ := hpair k hk'
    have hback : ∀ w, other v [i.1, j.1] = some w → w ∈ neighbours sel v := by
      intro w hw
      unfold neighbours
      rw [List.mem_toFinset, List.mem_filterMap]
      exact ⟨_, hk', hw⟩
    rcases other_eq ho with e | e
    · simp only [List.cons.injEq, and_true] at e
      obtain ⟨rfl, rfl⟩ := e
      refine ⟨hne, hback _ (other_of.2 hne.symm), ?_⟩
      intro a b ha hb
      rw [hi] at ha; rw [hj] at hb
      cases ha; cases hb
      exact hd
    · simp only [List.cons.injEq, and_true] at e
      obtain ⟨rfl, rfl⟩ := e
      refine ⟨hne.symm, hback _ other_of.1, ?_⟩
      intro a b ha hb
      rw [hj] at ha; rw [hi] at hb
      cases ha; cases hb
      exact hd.symm
  obtain ⟨collect, b1, -, b3⟩ := Clique.bronKerbosch3Plus_correct sel.flatten.toFinset (neighbours sel) ⟨fun u _ v _ huv => (hadj u v huv).2.1, fun u _ huu => (hadj u u huu).1 rfl⟩ Q.enum hQ.enum
    (sel.flatten.toFinset.card + 1) (by omega)
  refine ⟨collect, b1, ?_, ?_⟩
  · intro hne hke
    obtain ⟨R, hR⟩ := List.exists_mem_of_ne_nil _ hne
    have hR := (b3 R).1 hR
    obtain ⟨v, hv⟩ := Finset.card_pos.1 (by omega : 0 < R.card)
    have := hR.1.1.1 hv
    rw [List.mem_toFinset, List.mem_flatten] at this
    obtain ⟨k, hk', -⟩ := this
    obtain ⟨c, hc⟩ := hk k hk'
    rw [hke] at hc
    simp at hc
  · intro R hR
    have hR := (b3 R).1 hR
    exact ⟨hR.2, fun v hv => hvs v (hR.1.1.1 hv), fun u hu v hv huv => (hadj u v (hR.1.1.2 u hu v hv huv)).2.2⟩

theorem hFinish_spec {W : World K} {P H V : Cand ℤ → Prop} (hC : Closed W P H V) (Q : Orders) (hQ : OrdersOk Q) (cs : List (ℕ × PC K)) (props : List Row) (hrows : ∀ row ∈ props, RowOk P cs row) (num : ℕ)
    (s : HState K) (h : HInv H cs props num s) : ∃ out, hFinish W Q cs props s = some out ∧ ∀ c ∈ out, H c.cand.toCand := by
  obtain ⟨sel, hsel⟩ : ∃ sel, sel = topKeys s.keep := ⟨_, rfl⟩
  obtain ⟨collect, b1, b2, b3⟩ := cliques_ok Q hQ cs props s.keep (fun e he => (h.keep e he).2) sel hsel
  obtain ⟨keep', k1, k2⟩ := cliqueLoop_spec hC Q hQ cs props hrows sel s.last collect (sel.filterMap (fun k => (s.keep.lookup k).map (fun c => (k, c)))) (fun hne => h.last (b2 hne)) b3 (by
    intro e he
    obtain ⟨k, hk', he⟩ := List.mem_filterMap.1 he
    rw [Option.map_eq_some_iff] at he
    obtain ⟨c, hc, rfl⟩ := he
    exact (h.keep (k, c) (Mine.lookup_mem' hc)).1)
  obtain ⟨out, o1⟩ := Miner.mapM_exists (substitute W) (keep'.map Prod.snd) (by
    intro c hc
    obtain ⟨e, he, rfl⟩ := List.mem_map.1 hc
    obtain ⟨c', hc', -⟩ := substitute_spec hC e.2 (k2 e he)
    rw [hc']; rfl)
  refine ⟨out, ?_, ?_⟩
  · unfold hFinish
    simp only
    rw [← hsel, b1, Option.bind_some, k1, Option.bind_some, o1]
  · intro c hc
    obtain ⟨c0, hc0, e⟩ := (Miner.mem_mapM o1 c).1 hc
    obtain ⟨x, hx, rfl⟩ := List.mem_map.1 hc0
    obtain ⟨c', e', hp⟩ := substitute_spec hC x.2 (k2 x hx)
    rw [e] at e'
    cases e'
    exact hp

end Verif.Complex
