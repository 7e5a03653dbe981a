import Verif.Complex.Props
import Mathlib.Data.List.Perm.Basic
import Mathlib.Data.List.Perm.Subperm

/-!
# Joining patterns side by side saves bits: property C143

Source: `/repo/skmine/periodic/run_mine.py:489-674`.
-/

set_option autoImplicit false
set_option linter.unusedSectionVars false

namespace Verif.Complex

open Verif.PTree Verif.Concat Verif.PattKey Verif.CandPool Verif.DataSeq Verif.Miner

section

variable {K : Type} [Field K] [LinearOrder K]

/-! ### What is claimed -/

/-- The occurrences of several candidates, with their events. -/
def allOccs (parts : List (PC K)) : Finset (ℤ × ℤ) := (parts.flatMap (fun a => pairs a.cand.toCand)).toFinset

/-- The cost of occurrences sent one by one. -/
def alone (W : World K) (S : Finset (ℤ × ℤ)) : K := ∑ x ∈ S, (W.dcosts.lookup x.2).getD 0

/-- A candidate, together with the occurrences of the parts that it leaves out sent one by one, is cheaper than the parts. -/
def Saves (W : World K) (parts : List (PC K)) (c : PC K) : Prop := c.cost + alone W (allOccs parts \ (pairs c.cand.toCand).toFinset) < (parts.map (fun a => a.cost)).sum

/-- A candidate is made of occurrences of candidates of the pool that have no occurrence in common; no occurrence is used more often than it is there. -/
structure MadeOf (cs : List (ℕ × PC K)) (parts : List (PC K)) (c : Cand ℤ) : Prop where
  mem : ∀ a ∈ parts, a ∈ cs.map Prod.snd
  disj : parts.Pairwise (fun a b => Disj a.cand.toCand b.cand.toCand)
  sub : (pairs c).Subperm (parts.flatMap (fun a => pairs a.cand.toCand))

/-! ### Occurrences of a concatenation -/

theorem reps_sublist (c : Cand ℤ) (h : Shape c) (off r0 : ℕ) (hr : off + r0 ≤ c.r) : ((List.range r0).flatMap (fun i => repPairs c (off + i))).Sublist (pairs c) := by
  rw [pairs_reps h]
  obtain ⟨d, hd⟩ := Nat.exists_eq_add_of_le hr
  rw [hd, List.range_add, List.range_add, List.flatMap_append, List.flatMap_append]
  have e : (List.map (fun x => off + x) (List.range r0)).flatMap (repPairs c) = (List.range r0).flatMap (fun i => repPairs c (off + i)) := by rw [List.flatMap_map]
  rw [e]
  exact (List.sublist_append_right _ _).trans (List.sublist_append_left _ _)

theorem swap_subperm (r0 : ℕ) : ∀ cs : List (Cand ℤ × ℕ), (∀ c ∈ cs, Shape c.1) → (∀ c ∈ cs, c.2 + r0 ≤ c.1.r) →
    ((List.range r0).flatMap (fun i => cs.flatMap (fun c => repPairs c.1 (c.2 + i)))).Subperm (cs.flatMap (fun c => pairs c.1))
  | [], _, _ => by simp
  | c :: cs, hs, hr => by
    have ih := swap_subperm r0 cs (fun x hx => hs x (List.mem_cons_of_mem _ hx)) (fun x hx => hr x (List.mem_cons_of_mem _ hx))
    simp only [List.flatMap_cons]
    refine (List.flatMap_append_perm (List.range r0) (fun i => repPairs c.1 (c.2 + i)) (fun i => cs.flatMap (fun c => repPairs c.1 (c.2 + i)))).symm.subperm.trans ?_
    exact List.Subperm.append (reps_sublist c.1 (hs c List.mem_cons_self) _ _ (hr c List.mem_cons_self)).subperm ih

theorem concat_subperm (cs : List (Cand ℤ × ℕ)) (hne : cs ≠ []) (p0 : ℤ) (r0 : ℕ) (hr0 : 1 ≤ r0) (hs : ∀ c ∈ cs, Shape c.1) (hrep : ∀ c ∈ cs, c.2 + r0 ≤ c.1.r) (c' : Cand ℤ)
    (h : Concat.concat cs p0 r0 = some c') : Shape c' ∧ (pairs c').Subperm (cs.flatMap (fun c => pairs c.1)) := by
  obtain ⟨d, h1, h2, -, -, -, h3⟩ := concat_pairs cs hne p0 r0 hr0 hs hrep
  rw [h] at h1
  obtain rfl := Option.some.inj h1
  exact ⟨h2, by rw [h3]; exact swap_subperm r0 cs hs hrep⟩

/-! ### The test -/

theorem pairs_ne {c : Cand ℤ} (h : Shape c) : 0 < (pairs c).length := by
  rw [length_pairs h]
  have := h.2.2
  omega

theorem left_le {l m : List (ℤ × ℤ)} (h : l.Subperm m) : l.length + (m.toFinset \ l.toFinset).card ≤ m.length := by
  obtain ⟨l', hp, hs⟩ := h
  obtain ⟨rest, hr⟩ := hs.exists_perm_append
  rw [hr.length_eq, List.length_append, hp.length_eq]
  have : m.toFinset \ l.toFinset ⊆ rest.toFinset := by
    intro x hx
    rw [Finset.mem_sdiff, List.mem_toFinset, List.mem_toFinset, hr.mem_iff, List.mem_append, hp.mem_iff] at hx
    rw [List.mem_toFinset]
    exact hx.1.resolve_left hx.2
  have := (Finset.card_le_card this).trans (List.toFinset_card_le rest)
  omega

theorem worth_saves [IsStrictOrderedRing K] (W : World K) (a b new : PC K) (ha : Shape a.cand.toCand) (hb : Shape b.cand.toCand) (hn : Shape new.cand.toCand) (hsub : (pairs new.cand.toCand).Subperm (pairs a.cand.toCand ++ pairs b.cand.toCand))
    (hpos : 0 ≤ a.cost + b.cost) (h : worth W a b new = some true) : Saves W [a, b] new := by
  unfold worth at h
  split at h
  · obtain ⟨res, hres⟩ : ∃ res, res = (evOccs a.cand ++ evOccs b.cand).toFinset \ (evOccs new.cand).toFinset := ⟨_, rfl⟩
    simp only [← hres] at h
    rw [Option.map_eq_some_iff] at h
    obtain ⟨cr, h1, h2⟩ := h
    rw [decide_eq_true_eq] at h2
    have e1 : cr = alone W res := by
      unfold Select.sumCosts at h1
      split at h1
      · exact (Option.some.inj h1).symm
      · cases h1
    have e2 : res = allOccs [a, b] \ (pairs new.cand.toCand).toFinset := by
      rw [hres, evOccs_pairs, evOccs_pairs, evOccs_pairs]
      simp [allOccs]
    have hle := left_le hsub
    have hle : (nbOccsA new.cand + res.card : ℕ) ≤ (nbOccsA a.cand + nbOccsA b.cand : ℕ) := by
      rw [nbOccsA_eq _ hn, nbOccsA_eq _ ha, nbOccsA_eq _ hb, hres, evOccs_pairs, evOccs_pairs, evOccs_pairs, ← List.length_append]
      exact hle
    have hN : 0 < nbOccsA new.cand + res.card := by
      have := pairs_ne hn
      rw [nbOccsA_eq _ hn]
      omega
    unfold Saves
    rw [← e2, ← e1]
    simp only [List.map_cons, List.map_nil, List.sum_cons, List.sum_nil, add_zero]
    unfold meanCost at h2
    obtain ⟨N, hN'⟩ : ∃ N, N = nbOccsA new.cand + res.card := ⟨_, rfl⟩
    obtain ⟨M, hM'⟩ : ∃ M, M = nbOccsA a.cand + nbOccsA b.cand := ⟨_, rfl⟩
    rw [← hN', ← hM'] at h2 hle
    rw [← hN'] at hN
    have hN0 : (0 : K) < N := by exact_mod_cast hN
    have hM0 : (0 : K) < M := by exact_mod_cast lt_of_lt_of_le hN hle
    have hNM : (N : K) ≤ M := by exact_mod_cast hle
    rw [div_lt_div_iff₀ hN0 hM0] at h2
    by_contra hc
    rw [not_lt] at hc
    have h3 : (a.cost + b.cost) * N ≤ (a.cost + b.cost) * M := mul_le_mul_of_nonneg_left hNM hpos
    have h4 := mul_le_mul_of_nonneg_right hc hM0.le
    exact absurd (lt_of_lt_of_le h2 (h3.trans h4)) (lt_irrefl _)
  · cases h

/-! ### Pairs -/

theorem makePair_made {W : World K} {ci cj : PC K} {i j : PR} {e : List ℕ × PC K} (hi : Shape ci.cand.toCand) (hj : Shape cj.cand.toCand) (hri : i.2.r = ci.cand.toCand.r) (hrj : j.2.r = cj.cand.toCand.r)
    (hoi : i.2.off + 3 ≤ i.2.r) (hoj : j.2.off + 3 ≤ j.2.r) (h : makePair W ci cj i j = some e) :
    Shape e.2.cand.toCand ∧ (∃ d, e.2 = W.mk' d) ∧ (pairs e.2.cand.toCand).Subperm (pairs ci.cand.toCand ++ pairs cj.cand.toCand) := by
  have hm := rmin_le i.2 j.2
  have h3 : 3 ≤ rmin i.2 j.2 := by unfold rmin; omega
  have k1 : ∀ c, Concat.concat [(ci.cand.toCand, i.2.off), (cj.cand.toCand, j.2.off)] i.2.p (rmin i.2 j.2) = some c → Shape c ∧ (pairs c).Subperm (pairs ci.cand.toCand ++ pairs cj.cand.toCand) := by
    intro c hc
    have := concat_subperm _ (by simp) _ _ (by omega) (by simp [hi, hj]) (by simp only [List.mem_cons, List.not_mem_nil, or_false, forall_eq_or_imp, forall_eq]; omega) c hc
    simpa using this
  have k2 : ∀ c, Concat.concat [(cj.cand.toCand, j.2.off), (ci.cand.toCand, i.2.off)] j.2.p (rmin i.2 j.2) = some c → Shape c ∧ (pairs c).Subperm (pairs ci.cand.toCand ++ pairs cj.cand.toCand) := by
    intro c hc
    have := concat_subperm _ (by simp) _ _ (by omega) (by simp [hi, hj]) (by simp only [List.mem_cons, List.not_mem_nil, or_false, forall_eq_or_imp, forall_eq]; omega) c hc
    simp only [List.flatMap_cons, List.flatMap_nil, List.append_nil] at this
    exact ⟨this.1, this.2.trans List.perm_append_comm.subperm⟩
  unfold makePair at h
  split at h
  · cases h
  · rename_i c hc
    have a := k1 c hc
    split at h
    · split at h
      · cases h
      · rename_i x hx
        have b := k2 x hx
        split at h <;> cases h
        · exact ⟨b.1, ⟨x, rfl⟩, b.2⟩
        · exact ⟨a.1, ⟨c, rfl⟩, a.2⟩
    · cases h
      exact ⟨a.1, ⟨c, rfl⟩, a.2⟩

theorem mem_of_lookup {cs : List (ℕ × PC K)} {i : ℕ} {c : PC K} (h : cs.lookup i = some c) : c ∈ cs.map Prod.snd := List.mem_map.2 ⟨_, Mine.lookup_mem' h, rfl⟩

/-- What is known of a kept pair. -/
def PairOk (W : World K) (cs : List (ℕ × PC K)) (c : PC K) : Prop :=
  Shape c.cand.toCand ∧ (∃ d, c = W.mk' d) ∧ ∃ a b, MadeOf cs [a, b] c.cand.toCand ∧ Saves W [a, b] c

/-- What is known of the last pair looked at. -/
def LastOk (cs : List (ℕ × PC K)) (l : PC K × PC K) : Prop := l.1 ∈ cs.map Prod.snd ∧ l.2 ∈ cs.map Prod.snd

theorem tryPair_pays [IsStrictOrderedRing K] {W : World K} {P : Cand ℤ → Prop} (hP : ∀ c, P c → Shape c) (cs : List (ℕ × PC K)) (hpos : ∀ e ∈ cs, 0 ≤ e.2.cost) (i j : PR) (hi : RowOk P cs i.2) (hj : RowOk P cs j.2) {l : PC K × PC K}
    {o : Option (List ℕ × PC K)} (h : tryPair W cs i j = some (l, o)) : LastOk cs l ∧ ∀ e, o = some e → PairOk W cs e.2 := by
  obtain ⟨ci, li, pi, ri, -, oi⟩ := hi
  obtain ⟨cj, lj, pj, rj, -, oj⟩ := hj
  have hL : LastOk cs (ci, cj) := ⟨mem_of_lookup li, mem_of_lookup lj⟩
  unfold tryPair at h
  rw [li, lj] at h
  simp only at h
  split at h
  · cases h; exact ⟨hL, by simp⟩
  · split at h
    · cases h; exact ⟨hL, by simp⟩
    · rename_i hany
      rw [Option.bind_eq_some_iff] at h
      obtain ⟨x, h1, h2⟩ := h
      rw [Option.map_eq_some_iff] at h2
      obtain ⟨b, h2, h3⟩ := h2
      simp only [Prod.mk.injEq] at h3
      obtain ⟨rfl, rfl⟩ := h3
      refine ⟨hL, ?_⟩
      intro e he
      cases b with
      | false => simp at he
      | true =>
        simp only [if_true, Option.some.injEq] at he
        subst he
        have hd : Disj ci.cand.toCand cj.cand.toCand := by
          intro x hx hx'
          apply hany
          rw [List.any_eq_true]
          exact ⟨x, by rw [evOccs_pairs]; exact hx, by rw [decide_eq_true_eq, evOccs_pairs]; exact hx'⟩
        obtain ⟨m1, m2, m3⟩ := makePair_made (hP _ pi) (hP _ pj) ri rj oi oj h1
        refine ⟨m1, m2, ci, cj, ⟨?_, by simpa using hd, by simpa using m3⟩, worth_saves W ci cj x.2 (hP _ pi) (hP _ pj) m1 m3 ?_ h2⟩
        · intro a ha
          simp only [List.mem_cons, List.not_mem_nil, or_false] at ha
          rcases ha with rfl | rfl
          · exact hL.1
          · exact hL.2
        · exact add_nonneg (hpos _ (Mine.lookup_mem' li)) (hpos _ (Mine.lookup_mem' lj))

/-- Invariant of the loops. -/
def Pays (W : World K) (cs : List (ℕ × PC K)) (s : HState K) : Prop := (∀ e ∈ s.keep, PairOk W cs e.2) ∧ ∀ l, s.last = some l → LastOk cs l

theorem pairLoop_pays [IsStrictOrderedRing K] {W : World K} {P : Cand ℤ → Prop} (hP : ∀ c, P c → Shape c) (cs : List (ℕ × PC K)) (hpos : ∀ e ∈ cs, 0 ≤ e.2.cost) (i : PR) (hi : RowOk P cs i.2) :
    ∀ (js : List PR) (s s' : HState K), (∀ j ∈ js, RowOk P cs j.2) → Pays W cs s → pairLoop W cs i js s = some s' → Pays W cs s'
  | [], s, s', _, h, he => by
    rw [pairLoop] at he
    rwa [← Option.some.inj he]
  | j :: js, s, s', hj, h, he => by
    rw [pairLoop] at he
    have hjs : ∀ j ∈ js, RowOk P cs j.2 := fun x hx => hj x (List.mem_cons_of_mem _ hx)
    split at he
    · cases he
    · rename_i l ht
      obtain ⟨t1, -⟩ := tryPair_pays hP cs hpos i j hi (hj j List.mem_cons_self) ht
      exact pairLoop_pays hP cs hpos i hi js { s with last := some l } s' hjs ⟨h.1, fun l' hl' => by rw [← Option.some.inj hl']; exact t1⟩ he
    · rename_i l k c ht
      obtain ⟨t1, t2⟩ := tryPair_pays hP cs hpos i j hi (hj j List.mem_cons_self) ht
      refine pairLoop_pays hP cs hpos i hi js _ s' hjs ⟨?_, fun l' hl' => by cases hl'; exact t1⟩ he
      intro e he'
      rcases mem_dset he' with rfl | he'
      · exact t2 _ rfl
      · exact h.1 e he'

theorem hLoop_pays [IsStrictOrderedRing K] {W : World K} {P H V : Cand ℤ → Prop} (hC : Closed W P H V) (cs : List (ℕ × PC K)) (hpos : ∀ e ∈ cs, 0 ≤ e.2.cost) (props : List Row) (hrows : ∀ row ∈ props, RowOk P cs row) (num : ℕ) :
    ∀ (n : ℕ) (s s' : HState K), HInv H cs props num s → Pays W cs s → hLoop W cs num n s = some s' → Pays W cs s'
  | 0, s, s', _, h, he => by
    rw [hLoop] at he
    split at he
    · rwa [← Option.some.inj he]
    · cases he
  | n + 1, s, s', hI, h, he => by
    rw [hLoop] at he
    split at he
    · rwa [← Option.some.inj he]
    · rename_i h1
      obtain ⟨i, rest, news, a1, a2, a3, a4⟩ := advance_spec (num := num) (by intro e; rw [e] at h1; simp at h1) hI.valid hI.news hI.empty
      have hrow : ∀ q ∈ s.pids, RowOk P cs q.2 := fun q hq => hrows _ (List.mem_of_getElem? (hI.valid q hq))
      have hrest : rest.Sublist s.pids := (List.sublist_cons_self _ _).trans a2
      have hi := hI.valid i (a2.subset List.mem_cons_self)
      have hI' : HInv H cs props num { s with pids := rest, news := news } := ⟨fun q hq => hI.valid q (hrest.subset hq), hI.sorted.sublist hrest, a3, a4, hI.keep, hI.last⟩
      rw [a1] at he
      simp only at he
      split at he
      · rename_i hr
        subst hr
        exact hLoop_pays hC cs hpos props hrows num n _ s' hI' h he
      · rename_i hr
        obtain ⟨js, j1, j2⟩ := selIds_spec (i := i) hr hI'.sorted a3 a4
        obtain ⟨s1, p1, p2, -⟩ := pairLoop_spec hC cs props hrows num i hi js _ hI' (fun j hj => ⟨hI.valid j (hrest.subset (j2 j hj).1), (j2 j hj).2⟩)
        rw [j1] at he
        simp only [p1] at he
        exact hLoop_pays hC cs hpos props hrows num n s1 s' p2
          (pairLoop_pays hC.shape cs hpos i (hrow i (a2.subset List.mem_cons_self)) js { s with pids := rest, news := news } s1 (fun j hj => hrow j (hrest.subset (j2 j hj).1)) h p1) he

/-! ### Cliques -/

/-- What is known of a candidate made of a clique. -/
def CliqueOk (W : World K) (cs : List (ℕ × PC K)) (c : PC K) : Prop :=
  Shape c.cand.toCand ∧ (∃ d, c = W.mk' d) ∧ ∃ parts, 3 ≤ parts.length ∧ MadeOf cs parts c.cand.toCand

theorem makeOn_made {W : World K} {P : Cand ℤ → Prop} (hP : ∀ c, P c → Shape c) (cs : List (ℕ × PC K)) (its l : List (Item K)) (hp : l.Perm its) (h : ItemsOk P its) (hlk : ∀ x ∈ its, cs.lookup x.row.cid = some x.c) (h3 : 3 ≤ its.length)
    (c : PC K) (hc : makeOn W l = some c) : CliqueOk W cs c := by
  have hl := h.perm hp
  cases l with
  | nil => cases hc
  | cons x l =>
    obtain ⟨m, hm⟩ : ∃ m, m = l.foldl (fun m y => min m (y.row.r - y.row.off)) (x.row.r - x.row.off) := ⟨_, rfl⟩
    obtain ⟨a, b, c3⟩ := foldl_min l (x.row.r - x.row.off)
    rw [← hm] at a c3
    have b : ∀ y ∈ l, m ≤ y.row.r - y.row.off := by rw [hm]; exact b
    have hx := hl.ok x List.mem_cons_self
    have hm3 : 3 ≤ m := c3 (by omega) (fun y hy => (hl.ok y (List.mem_cons_of_mem _ hy)).2.2.2)
    rw [makeOn, ← hm, Option.map_eq_some_iff] at hc
    obtain ⟨d, hd, rfl⟩ := hc
    have hs : ∀ c ∈ (x :: l).map (fun y => (y.c.cand.toCand, y.row.off)), Shape c.1 ∧ c.2 + m ≤ c.1.r := by
      intro c hc
      obtain ⟨y, hy, rfl⟩ := List.mem_map.1 hc
      obtain ⟨y1, y2, y3, y4⟩ := hl.ok y hy
      have : m ≤ y.row.r - y.row.off := by
        rcases List.mem_cons.1 hy with rfl | hy
        · exact a
        · exact b y hy
      exact ⟨hP _ y1, by simp only; omega⟩
    obtain ⟨s1, s2⟩ := concat_subperm _ (by simp) x.row.p m (by omega) (fun c hc => (hs c hc).1) (fun c hc => (hs c hc).2) d hd
    refine ⟨s1, ⟨d, rfl⟩, (x :: l).map (fun y => y.c), by rw [List.length_map, hp.length_eq]; exact h3, ⟨?_, ?_, ?_⟩⟩
    · intro y hy
      obtain ⟨z, hz, rfl⟩ := List.mem_map.1 hy
      exact mem_of_lookup (hlk z (hp.mem_iff.1 hz))
    · rw [List.pairwise_map]; exact hl.disj
    · rw [List.flatMap_map] at s2 ⊢
      exact s2

theorem better_made {W : World K} {P : Cand ℤ → Prop} (hP : ∀ c, P c → Shape c) (cs : List (ℕ × PC K)) (its l : List (Item K)) (hp : l.Perm its) (h : ItemsOk P its) (hlk : ∀ x ∈ its, cs.lookup x.row.cid = some x.c) (h3 : 3 ≤ its.length)
    (cur e : List ℕ × PC K) (hcur : CliqueOk W cs cur.2) (he : better W l cur = some e) : CliqueOk W cs e.2 := by
  unfold better at he
  split at he
  · rwa [← Option.some.inj he]
  · rw [Option.map_eq_some_iff] at he
    obtain ⟨c, hc, rfl⟩ := he
    split
    · exact makeOn_made hP cs its l hp h hlk h3 c hc
    · exact hcur

theorem cliqueCand_made {W : World K} {P : Cand ℤ → Prop} (hP : ∀ c, P c → Shape c) (Q : Orders) (hQ : OrdersOk Q) (cs : List (ℕ × PC K)) (props : List Row) (hrows : ∀ row ∈ props, RowOk P cs row)
    (sel : List (List ℕ)) (R : Finset ℕ) (hcard : 2 < R.card) (hv : ∀ v ∈ R, ∃ row, props[v]? = some row)
    (hp : ∀ u ∈ R, ∀ v ∈ R, u ≠ v → ∀ i j, props[u]? = some i → props[v]? = some j → DisjRows cs i j) (e : List ℕ × PC K) (he : cliqueCand W Q cs props sel R = some e) : CliqueOk W cs e.2 := by
  obtain ⟨q1, q2⟩ := hQ.clique R
  obtain ⟨its, h1, h2, h3, h4⟩ := items_spec cs props hrows (Q.clique R) (fun v h => hv v ((q2 v).1 h)) (List.Pairwise.imp_of_mem (fun {u v} hu hv' huv => hp u ((q2 u).1 hu) v ((q2 v).1 hv') huv) q1)
  have hne : 3 ≤ its.length := by
    have h4 : (Q.clique R).toFinset = R := by
      ext v
      rw [List.mem_toFinset, q2]
    have h5 := List.toFinset_card_of_nodup q1
    have h6 := congrArg List.length h3
    rw [List.length_map] at h6
    rw [h4] at h5
    omega
  have hlk : ∀ x ∈ its, cs.lookup x.row.cid = some x.c := fun x hx => (h4 x hx).2
  have hb : (orderBase its).Perm its := List.perm_insertionSort _ _
  have hx : (orderX sel R (orderBase its)).Perm its := (List.perm_insertionSort _ _).trans hb
  have hy : (orderY its).Perm its := List.perm_insertionSort _ _
  unfold cliqueCand at he
  rw [h1] at he
  simp only [Option.bind_some] at he
  rw [Option.bind_eq_some_iff] at he
  obtain ⟨c, hc, he⟩ := he
  have hcb := makeOn_made hP cs its _ hb h2 hlk hne c hc
  rw [Option.bind_eq_some_iff] at he
  obtain ⟨x, he1, he2⟩ := he
  refine better_made hP cs its _ hy h2 hlk hne x e ?_ he2
  split at he1
  · rw [← Option.some.inj he1]; exact hcb
  · exact better_made hP cs its _ hx h2 hlk hne (_, c) x hcb he1

/-- What is known of a candidate before it is factorised. -/
def Kept (W : World K) (cs : List (ℕ × PC K)) (c : PC K) : Prop :=
  PairOk W cs c ∨ (CliqueOk W cs c ∧ ∃ l, LastOk cs l ∧ ratio c < meanCost l.1 l.2)

theorem cliqueLoop_kept {W : World K} {P : Cand ℤ → Prop} (hP : ∀ c, P c → Shape c) (Q : Orders) (hQ : OrdersOk Q) (cs : List (ℕ × PC K)) (props : List Row) (hrows : ∀ row ∈ props, RowOk P cs row)
    (sel : List (List ℕ)) (last : Option (PC K × PC K)) (hlast : ∀ l, last = some l → LastOk cs l) : ∀ (Rs : List (Finset ℕ)) (keep keep' : List (List ℕ × PC K)),
    (∀ R ∈ Rs, 2 < R.card ∧ (∀ v ∈ R, ∃ row, props[v]? = some row) ∧ ∀ u ∈ R, ∀ v ∈ R, u ≠ v → ∀ i j, props[u]? = some i → props[v]? = some j → DisjRows cs i j) →
    (∀ e ∈ keep, Kept W cs e.2) → cliqueLoop W Q cs props sel last Rs keep = some keep' → ∀ e ∈ keep', Kept W cs e.2
  | [], keep, keep', _, h, he => by
    rw [cliqueLoop] at he
    rwa [← Option.some.inj he]
  | R :: Rs, keep, keep', hR, h, he => by
    rw [cliqueLoop.eq_def] at he
    simp only at he
    split at he
    · rename_i x l hx
      obtain ⟨r1, r2, r3⟩ := hR R List.mem_cons_self
      have hm := cliqueCand_made hP Q hQ cs props hrows sel R r1 r2 r3 x hx
      refine cliqueLoop_kept hP Q hQ cs props hrows sel _ hlast Rs _ keep' (fun R' h' => hR R' (List.mem_cons_of_mem _ h')) ?_ he
      intro e he'
      split at he'
      · rename_i hlt
        rcases mem_dset he' with rfl | he'
        · exact Or.inr ⟨hm, l, hlast l rfl, hlt⟩
        · exact h e he'
      · exact h e he'
    · cases he

/-- Factorisation does not change the occurrences and does not make a candidate dearer. -/
theorem substitute_cost {W : World K} {c c' : PC K} (d : Cand ℤ) (hd : c = W.mk' d) (hs : Shape c.cand.toCand) (h : substitute W c = some c') :
    c'.cost ≤ c.cost ∧ (pairs c'.cand.toCand).Perm (pairs c.cand.toCand) ∧ ∃ d', c' = W.mk' d' := by
  subst hd
  obtain ⟨fs, h1, h2⟩ := factorize_sound d hs (Nest.cyclePs d.tree).length (le_of_eq (inner_cyclePs _))
  simp only [substitute, substitute.inner', World.mk', h1, Option.map_some, Option.some.injEq] at h
  have hfold : ∀ (l : List (PC K)) (b : PC K), (∀ x ∈ l, (pairs x.cand.toCand).Perm (pairs d) ∧ ∃ d', x = W.mk' d') → (b.cost ≤ (W.mk' d).cost ∧ (pairs b.cand.toCand).Perm (pairs d) ∧ ∃ d', b = W.mk' d') →
      ((l.foldl (fun best e => if e.cost < best.cost then e else best) b).cost ≤ (W.mk' d).cost ∧ (pairs (l.foldl (fun best e => if e.cost < best.cost then e else best) b).cand.toCand).Perm (pairs d) ∧
        ∃ d', l.foldl (fun best e => if e.cost < best.cost then e else best) b = W.mk' d') := by
    intro l
    induction l with
    | nil => intro b _ hb; exact hb
    | cons x l ih =>
      intro b hl hb
      rw [List.foldl_cons]
      apply ih _ (fun y hy => hl y (List.mem_cons_of_mem _ hy))
      split
      · rename_i hlt
        obtain ⟨x1, x2⟩ := hl x List.mem_cons_self
        exact ⟨hlt.le.trans hb.1, x1, x2⟩
      · exact hb
  rw [← h]
  refine hfold _ _ ?_ ⟨le_refl _, List.Perm.refl _, d, rfl⟩
  intro x hx
  obtain ⟨f, hf, rfl⟩ := List.mem_map.1 hx
  exact ⟨(h2 f hf).2.1, f, rfl⟩

/-- What is claimed of a candidate made by joining candidates of the pool. -/
def JoinOk (W : World K) (cs : List (ℕ × PC K)) (c : PC K) : Prop :=
  ∃ parts, MadeOf cs parts c.cand.toCand ∧ 2 ≤ parts.length ∧ (parts.length = 2 → Saves W parts c) ∧
    ∃ a ∈ cs.map Prod.snd, ∃ b ∈ cs.map Prod.snd, parts.length = 2 ∨ c.cost / ((pairs c.cand.toCand).toFinset.card : K) < (a.cost + b.cost) / ((nbOccsA a.cand + nbOccsA b.cand : ℕ) : K)

theorem Kept.join [IsStrictOrderedRing K] {W : World K} {cs : List (ℕ × PC K)} {c c' : PC K} (h : Kept W cs c) (hs : substitute W c = some c') : JoinOk W cs c' := by
  rcases h with ⟨h1, ⟨d, hd⟩, a, b, h2, h3⟩ | ⟨⟨h1, ⟨d, hd⟩, parts, h2, h3⟩, l, hl, hr⟩
  · obtain ⟨s1, s2, -⟩ := substitute_cost d hd h1 hs
    refine ⟨[a, b], ⟨h2.mem, h2.disj, s2.subperm.trans h2.sub⟩, by simp, fun _ => ?_, a, h2.mem a (by simp), b, h2.mem b (by simp), Or.inl rfl⟩
    unfold Saves at h3 ⊢
    rw [List.toFinset_eq_of_perm _ _ s2]
    exact lt_of_le_of_lt (add_le_add_left s1 _) h3
  · obtain ⟨s1, s2, -⟩ := substitute_cost d hd h1 hs
    refine ⟨parts, ⟨h3.mem, h3.disj, s2.subperm.trans h3.sub⟩, by omega, fun h => by omega, l.1, hl.1, l.2, hl.2, Or.inr ?_⟩
    rw [List.toFinset_eq_of_perm _ _ s2]
    refine lt_of_le_of_lt (div_le_div_of_nonneg_right s1 (Nat.cast_nonneg _)) ?_
    unfold ratio at hr
    rw [hd] at hr ⊢
    have e : nbUOccs (W.mk' d).cand = (pairs (W.mk' d).cand.toCand).toFinset.card := by
      rw [← evOccs_pairs]; rfl
    rw [e] at hr
    exact hr

theorem horizontal_pays [IsStrictOrderedRing K] {W : World K} {P H V : Cand ℤ → Prop} (hC : Closed W P H V) (Q : Orders) (hQ : OrdersOk Q) (s : CPool K) (h : PoolInv W P s) (hpos : ∀ e ∈ s.candidates, 0 ≤ e.2.cost) (nkey : NKey)
    (out : List (PC K)) (ho : horizontal W Q s nkey = some out) : ∀ c ∈ out, JoinOk W s.candidates c := by
  cases hs : s.props with
  | none =>
    unfold horizontal at ho
    rw [hs] at ho
    split at ho
    · cases ho; simp
    · cases ho
  | some p =>
    rcases horizontal_start H Q s h (by rw [hs]; rfl) nkey with e | ⟨props, n, s0, hrows, hI, hk, hl, hn, e⟩
    · rw [e] at ho
      cases ho; simp
    · obtain ⟨st, l1, l2⟩ := hLoop_spec hC s.candidates props hrows _ n s0 hn hI
      have l3 := hLoop_pays hC s.candidates hpos props hrows _ n s0 st hI ⟨by rw [hk]; simp, by rw [hl]; simp⟩ l1
      rw [e, l1, Option.bind_some] at ho
      unfold hFinish at ho
      simp only at ho
      obtain ⟨collect, b1, -, b3⟩ := cliques_ok Q hQ s.candidates props st.keep (fun e he => (l2.keep e he).2) _ rfl
      rw [b1, Option.bind_some, Option.bind_eq_some_iff] at ho
      obtain ⟨keep', k1, k2⟩ := ho
      have hkept := cliqueLoop_kept hC.shape Q hQ s.candidates props hrows _ st.last l3.2 collect _ keep' b3 (by
        intro e he
        obtain ⟨k, -, he⟩ := List.mem_filterMap.1 he
        rw [Option.map_eq_some_iff] at he
        obtain ⟨c, hc, rfl⟩ := he
        exact Or.inl (l3.1 (k, c) (Mine.lookup_mem' hc))) k1
      intro c hc
      obtain ⟨c0, hc0, e⟩ := (Miner.mem_mapM k2 c).1 hc
      obtain ⟨x, hx, rfl⟩ := List.mem_map.1 hc0
      exact (hkept x hx).join e

end

/-- C143. For every series in the order of time, whatever the iteration orders, the number of rounds before and the costs, as long as they are not negative: a candidate made by joining candidates side by side consists of occurrences of at
least two candidates of the pool without common occurrences. If it joins two, it is cheaper than the two, even with all their occurrences that it leaves out sent one by one.
The full statement says this of three and more as well; it fails, see `join_loses`. Of those it is only known that an occurrence costs less than one of some two candidates of the pool. -/
theorem join_saves_partial {ε : Type} [LinearOrder ε] (auto : Bool) (rows : List (ℤ × ε)) (h : rows.Pairwise (fun a b => a.1 ≤ b.1)) :
    ∃ m, fitData auto rows = .ok m ∧ ∃ F, ∀ fuel, F ≤ fuel → ∀ {K : Type} [Field K] [LinearOrder K] [IsStrictOrderedRing K] (W : World K) (A : ℕ → Mine.Costs K) (Q : ℕ → Orders), WorldOk W A fuel m.data → (∀ i, OrdersOk (Q i)) →
      ∀ n, ∃ s, ((initPool W A fuel m.data).bind (fun p => rounds W Q n ⟨p, 0, none, none⟩)) = some s ∧
        ((∀ e ∈ s.pool.candidates, 0 ≤ e.2.cost) → ∀ out, horizontal W (Q s.i) s.pool s.nkeyV = some out → ∀ c ∈ out, JoinOk W s.pool.candidates c) := by
  obtain ⟨m, hm, hd⟩ := Mine.fitData_dataOk auto rows h
  refine ⟨m, hm, turns m.data, ?_⟩
  intro fuel hF K _ _ _ W A Q hW hQ n
  have hcl := inData_closed W hW.envOk (InSeqs m.data) hW.cost
  obtain ⟨s, i1, i2, i3, -⟩ := initPool_spec (W := W) hcl.shape A fuel m.data hd.1 (fun k => le_trans (turns_ok m.data k) hF) (fun a ha c hc => (ofCyc_simple m.data a ha c hc).1) hW.floor
  obtain ⟨s', r1, r2, -⟩ := rounds_spec hcl (fun _ h => h) (fun _ h => h) hW.envOk Q hQ n ⟨s, 0, none, none⟩ i2 i3
  exact ⟨s', by rw [i1, Option.bind_some, r1], fun hpos out ho => horizontal_pays hcl (Q s'.i) (hQ _) s'.pool r2 hpos s'.nkeyV out ho⟩

/-! ### A run -/

/-- Costs of simple cycles: an occurrence of the last event costs 400, of another event 18. -/
def dearA (a : ℕ) : Mine.Costs ℚ := if a = 3 then ⟨fun l => 20 * (exLine l : ℚ), 400, fun e dp => 20 * ((40 + dp + e : ℤ) : ℚ), exPar 400⟩ else exA 1

/-- Cost of a pattern by the number of its events: 60 for two events, 1000 for three; more than 10000 with the last event. -/
def dearPatt (c : Cand ℤ) : ℚ := if 3 ∈ c.events then 10000 else if c.repEvents.length = 2 then 60 else 1000

/-- All costs. -/
def dearW : World ℚ := ⟨dearPatt, fun c => (c.cost / 18).floor, [(0, 18), (1, 18), (2, 18), (3, 400)], fun _ => Nest.foldEnv (fun _ _ => true) (fun _ _ => exPar 100) (fun l => (Mine.computePeriod l).getD 0) id⟩

/-- Four events, one after the other, three times. -/
def dearRows : List (ℤ × ℕ) := [(0, 1), (1, 2), (2, 3), (3, 4), (10, 1), (11, 2), (12, 3), (13, 4), (20, 1), (21, 2), (22, 3), (23, 4)]

theorem dearRun₁ : (fitData false dearRows).toOption.map (fun m => (m.data.listEv.length, turns m.data, (List.range 4).all (fun a => ((Mine.mineAlpha (dearA a) 100 a (DataSeq.getSequence m.data a)).getD []).all (fun c => decide (1 ≤ dearW.floor (ofCyc a c)))))) =
    some (4, 14, true) := by decide +kernel

theorem dearRun₂ : (fitData false dearRows).toOption.bind (fun m => (initPool dearW dearA 100 m.data).map (fun s => s.candidates.map (fun e => (evOccs e.2.cand, e.2.cost)))) =
    some [([(0, 0), (10, 0), (20, 0)], 50), ([(1, 1), (11, 1), (21, 1)], 50), ([(2, 2), (12, 2), (22, 2)], 50), ([(3, 3), (13, 3), (23, 3)], 1000)] := by decide +kernel

theorem dearRun₃ : (fitData false dearRows).toOption.bind (fun m => (initPool dearW dearA 100 m.data).bind (fun s => (horizontal dearW exQ s none).map (fun l => l.map (fun e => (evOccs e.cand, e.cost))))) =
    some [([(0, 0), (1, 1), (10, 0), (11, 1), (20, 0), (21, 1)], 60), ([(0, 0), (2, 2), (10, 0), (12, 2), (20, 0), (22, 2)], 60), ([(1, 1), (2, 2), (11, 1), (12, 2), (21, 1), (22, 2)], 60),
      ([(0, 0), (1, 1), (2, 2), (10, 0), (11, 1), (12, 2), (20, 0), (21, 1), (22, 2)], 1000)] := by decide +kernel

/-- C143, negative: the three cycles of the first three events cost 50 each. In the first round they are joined to a pattern with the same occurrences and the cost 1000. It is compared to the last pair looked at, the third and the fourth
event, whose occurrences are dear. -/
theorem join_loses : ∃ m, fitData false dearRows = .ok m ∧ WorldOk dearW dearA 100 m.data ∧ OrdersOk exQ ∧ turns m.data ≤ 100 ∧ ∃ s out c, initPool dearW dearA 100 m.data = some s ∧ (∀ e ∈ s.candidates, 0 ≤ e.2.cost) ∧
    horizontal dearW exQ s none = some out ∧ c ∈ out ∧ ∃ x y z, x ∈ s.candidates.map Prod.snd ∧ y ∈ s.candidates.map Prod.snd ∧ z ∈ s.candidates.map Prod.snd ∧
      (pairs c.cand.toCand).Perm (pairs x.cand.toCand ++ pairs y.cand.toCand ++ pairs z.cand.toCand) ∧ x.cost + y.cost + z.cost = 150 ∧ c.cost = 1000 := by
  have h1 := dearRun₁
  have h2 := dearRun₂
  have h3 := dearRun₃
  cases hf : fitData false dearRows with
  | error e => rw [hf] at h1; cases h1
  | ok m =>
    rw [hf] at h1 h2 h3
    simp only [Except.toOption, Option.map_some, Option.bind_some, Option.some.injEq, Prod.mk.injEq] at h1 h2 h3
    obtain ⟨hl, ht, hfl⟩ := h1
    rw [Option.map_eq_some_iff] at h2
    obtain ⟨s, hs, h2⟩ := h2
    rw [hs, Option.bind_some, Option.map_eq_some_iff] at h3
    obtain ⟨out, ho, h3⟩ := h3
    have hc : ∀ (l : List (PC ℚ)) (x : List (ℤ × ℤ) × ℚ), x ∈ l.map (fun e => (evOccs e.cand, e.cost)) → ∃ c ∈ l, pairs c.cand.toCand = x.1 ∧ c.cost = x.2 := by
      intro l x hx
      obtain ⟨c, hc, rfl⟩ := List.mem_map.1 hx
      exact ⟨c, hc, (evOccs_pairs _).symm, rfl⟩
    have h2' : (s.candidates.map Prod.snd).map (fun e => (evOccs e.cand, e.cost)) = s.candidates.map (fun e => (evOccs e.2.cand, e.2.cost)) := by rw [List.map_map]; rfl
    obtain ⟨c, c1, c2, c3⟩ := hc out ([(0, 0), (1, 1), (2, 2), (10, 0), (11, 1), (12, 2), (20, 0), (21, 1), (22, 2)], 1000) (by rw [h3]; decide +kernel)
    obtain ⟨x, x1, x2, x3⟩ := hc (s.candidates.map Prod.snd) ([(0, 0), (10, 0), (20, 0)], 50) (by rw [h2', h2]; decide +kernel)
    obtain ⟨y, y1, y2, y3⟩ := hc (s.candidates.map Prod.snd) ([(1, 1), (11, 1), (21, 1)], 50) (by rw [h2', h2]; decide +kernel)
    obtain ⟨z, z1, z2, z3⟩ := hc (s.candidates.map Prod.snd) ([(2, 2), (12, 2), (22, 2)], 50) (by rw [h2', h2]; decide +kernel)
    refine ⟨m, rfl, ⟨?_, ?_, ?_⟩, exQ_ok, by omega, s, out, c, hs, ?_, ho, c1, x, y, z, x1, y1, z1, ?_, ?_, c3⟩
    · intro l
      exact ⟨_, _, _, fun x => List.Perm.refl x, rfl⟩
    · intro a ha out hout c hc
      rw [hl] at ha
      have := List.all_eq_true.1 hfl a (List.mem_range.2 ha)
      rw [hout, Option.getD_some] at this
      exact of_decide_eq_true (List.all_eq_true.1 this c hc)
    · intro a ha
      rw [hl] at ha
      have : a = 0 ∨ a = 1 ∨ a = 2 ∨ a = 3 := by omega
      rcases this with rfl | rfl | rfl | rfl <;> decide
    · intro e he
      have hm : e.2.cost ∈ (s.candidates.map (fun e => (evOccs e.2.cand, e.2.cost))).map Prod.snd := List.mem_map.2 ⟨_, List.mem_map.2 ⟨e, he, rfl⟩, rfl⟩
      rw [h2] at hm
      revert hm
      generalize e.2.cost = q
      intro hm
      simp only [List.map_cons, List.map_nil, List.mem_cons, List.not_mem_nil, or_false] at hm
      rcases hm with rfl | rfl | rfl | rfl <;> norm_num
    · rw [c2, x2, y2, z2]
      decide
    · rw [x3, y3, z3]
      norm_num

/-- The hypotheses of `join_saves_partial` hold in the run above, where three pairs of cost 60 are joined from cycles of cost 50 each. -/
example : dearRows.Pairwise (fun a b => a.1 ≤ b.1) := by decide

end Verif.Complex
