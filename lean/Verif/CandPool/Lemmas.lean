import Verif.CandPool.Model
import Mathlib.Data.List.Nodup

set_option autoImplicit false
set_option linter.unusedSectionVars false

namespace Verif.CandPool

open Verif.Periodic

variable {C M K N R κ : Type*} [DecidableEq M] [DecidableEq K] [DecidableEq N] [LinearOrder κ]

/-- Ids are consecutive, the key table describes the candidates, and keys are distinct. -/
structure Inv (o : CandOps C M K R) (s : Pool C M K N R) : Prop where
  ids : s.candidates.map Prod.fst = List.range s.nextCid
  keys : s.keys = s.candidates.map (fun e => ((o.minor e.2, o.major e.2), e.1))
  nodup : (s.candidates.map (fun e => (o.minor e.2, o.major e.2))).Nodup

theorem Inv.keys_fst {o : CandOps C M K R} {s : Pool C M K N R} (h : Inv o s) :
    s.keys.map Prod.fst = s.candidates.map (fun e => (o.minor e.2, o.major e.2)) := by
  rw [h.keys, List.map_map]; rfl

theorem dset_fresh {β γ : Type*} [DecidableEq β] (k : β) (v : γ) : ∀ l : List (β × γ), k ∉ l.map Prod.fst → dset k v l = l ++ [(k, v)]
  | [], _ => rfl
  | (k', v') :: l, h => by
    rw [dset, if_neg (by rintro rfl; exact h (by simp)), dset_fresh k v l (fun h' => h (List.mem_cons_of_mem _ h'))]; rfl

theorem recordKey_fields (s : Pool C M K N R) (n : N) :
    (recordKey s n).candidates = s.candidates ∧ (recordKey s n).nextCid = s.nextCid ∧ (recordKey s n).keys = s.keys ∧
    (recordKey s n).newMinor = s.newMinor ∧ (recordKey s n).newCids = s.newCids ∧ (recordKey s n).props = s.props ∧
    (recordKey s n).pids = s.pids ∧ n ∈ (recordKey s n).nkeys ∧ s.nkeys <+: (recordKey s n).nkeys := by
  unfold recordKey
  split <;> simp_all

theorem recordKey_of_mem (s : Pool C M K N R) (n : N) (h : n ∈ s.nkeys) : recordKey s n = s := by
  unfold recordKey; rw [if_pos h]

/-- Effect of a quiet addition. -/
theorem addCandQuiet_spec (o : CandOps C M K R) (s : Pool C M K N R) (hI : Inv o s) (c : C) (n : N) :
    ((o.minor c, o.major c) ∈ s.candidates.map (fun e => (o.minor e.2, o.major e.2)) ∧ addCandQuiet o s c n = (s, false)) ∨
    ((o.minor c, o.major c) ∉ s.candidates.map (fun e => (o.minor e.2, o.major e.2)) ∧ ∃ s', addCandQuiet o s c n = (s', true) ∧
      s'.candidates = s.candidates ++ [(s.nextCid, c)] ∧ Inv o s' ∧ s'.newCids = s.newCids ++ [(n, s.nextCid)] ∧
      s'.props = s.props ∧ s'.pids = s.pids ∧ s'.nkeys = (recordKey s n).nkeys ∧
      (∀ x, x ∈ s'.newMinor ↔ x ∈ s.newMinor ∨ x = (n, o.minor c))) := by
  by_cases hk : (o.minor c, o.major c) ∈ s.candidates.map (fun e => (o.minor e.2, o.major e.2))
  · left
    refine ⟨hk, ?_⟩
    unfold addCandQuiet register
    rw [hI.keys_fst, if_pos hk]
  · right
    refine ⟨hk, ?_⟩
    unfold addCandQuiet register
    rw [hI.keys_fst, if_neg hk]
    have hfresh : s.nextCid ∉ s.candidates.map Prod.fst := by rw [hI.ids]; simp
    simp only
    obtain ⟨t, ht⟩ : ∃ t : Pool C M K N R, t = { s with
      candidates := dset s.nextCid c s.candidates, keys := s.keys ++ [((o.minor c, o.major c), s.nextCid)] } := ⟨_, rfl⟩
    rw [← ht]
    obtain ⟨h1, h2, h3, h4, h5, h6, h7, h8, h9⟩ := recordKey_fields t n
    have hcand : t.candidates = s.candidates ++ [(s.nextCid, c)] := by rw [ht]; exact dset_fresh _ _ _ hfresh
    have hkeys : t.keys = s.keys ++ [((o.minor c, o.major c), s.nextCid)] := by rw [ht]
    have hcid : t.nextCid = s.nextCid := by rw [ht]
    refine ⟨_, rfl, ?_, ⟨?_, ?_, ?_⟩, ?_, ?_, ?_, ?_, ?_⟩
    · simp only [h1, hcand]
    · simp only [h1, hcand, h2, hcid, List.map_append, hI.ids, List.range_succ]; rfl
    · simp only [h1, hcand, h3, hkeys, List.map_append, hI.keys]; rfl
    · simp only [h1, hcand, List.map_append]
      rw [List.nodup_append]
      refine ⟨hI.nodup, by simp, ?_⟩
      intro a ha b hb hab
      rw [List.map_singleton, List.mem_singleton] at hb
      subst hab
      exact hk (hb ▸ ha)
    · simp only [h5, h2, hcid]; rw [ht]
    · simp only [h6]; rw [ht]
    · simp only [h7]; rw [ht]
    · simp only
      rw [ht]
      unfold recordKey
      split <;> rfl
    · intro x
      simp only [h4]
      have htm : t.newMinor = s.newMinor := by rw [ht]
      rw [htm]
      split
      · next hm =>
        exact ⟨.inl, fun h => h.elim id (fun h => h ▸ hm)⟩
      · rw [List.mem_append, List.mem_singleton]

/-- Rows and sorted positions fit together. -/
def PidsOk (key : R → κ) (s : Pool C M K N R) : Prop :=
  (s.props = none ∧ s.pids = none) ∨ ∃ rows A, s.props = some rows ∧ s.pids = some (.list A) ∧ A.Perm (List.range rows.length) ∧
    A.Pairwise (fun i j => pidKey key rows i ≤ pidKey key rows j)

theorem pidKey_append (key : R → κ) (old rows : List R) (i : ℕ) (h : i < old.length) : pidKey key (old ++ rows) i = pidKey key old i := by
  unfold pidKey; rw [List.getElem?_append_left h]

theorem finish_fields (key : R → κ) (s : Pool C M K N R) (rows : List R) :
    (finish key s rows).1.candidates = s.candidates ∧ (finish key s rows).1.nextCid = s.nextCid ∧ (finish key s rows).1.keys = s.keys ∧
    (finish key s rows).1.newCids = s.newCids ∧ (finish key s rows).1.nkeys = s.nkeys ∧ (finish key s rows).1.newMinor = s.newMinor := by
  unfold finish
  split
  · simp
  · split
    · simp
    · split <;> simp

theorem finish_props (key : R → κ) (s : Pool C M K N R) (rows : List R) :
    (finish key s rows).1.props.getD [] = s.props.getD [] ++ rows := by
  unfold finish
  split
  · next h => rw [List.eq_nil_of_length_eq_zero h]; simp
  · split
    · next h => rw [h]; simp
    · next h => rw [h]; split <;> simp

theorem finish_pids (key : R → κ) (s : Pool C M K N R) (rows : List R) (h : PidsOk key s) :
    PidsOk key (finish key s rows).1 ∧ (finish key s rows).2 = none := by
  unfold finish
  split
  · exact ⟨h, rfl⟩
  · rcases h with ⟨h1, h2⟩ | ⟨old, A, h1, h2, h3, h4⟩
    · rw [h1]
      obtain ⟨hs, hp⟩ := sortPids_sorted (pidKey key rows) (List.range rows.length)
      exact ⟨.inr ⟨rows, _, rfl, rfl, hp, hs⟩, rfl⟩
    · rw [h1]
      simp only [h2]
      obtain ⟨hs, hp⟩ := sortPids_sorted (pidKey key (old ++ rows)) (List.range' old.length rows.length)
      have hA : A.Pairwise (fun i j => pidKey key (old ++ rows) i ≤ pidKey key (old ++ rows) j) := by
        refine h4.imp_of_mem ?_
        intro i j hi hj hij
        have hi' := List.mem_range.1 (h3.mem_iff.1 hi)
        have hj' := List.mem_range.1 (h3.mem_iff.1 hj)
        rw [pidKey_append _ _ _ _ hi', pidKey_append _ _ _ _ hj']
        exact hij
      obtain ⟨hm, hmp⟩ := merge_sorted (pidKey key (old ++ rows)) A _ hA hs
      refine ⟨.inr ⟨_, _, rfl, rfl, ?_, hm⟩, trivial⟩
      refine hmp.trans ((List.Perm.append h3 hp).trans (List.Perm.of_eq ?_))
      rw [List.length_append, List.range_eq_range', List.range_eq_range', ← List.range'_append_1, Nat.zero_add]

/-- Effect of the loop of `addCands`. -/
theorem addLoop_spec (o : CandOps C M K R) (key : R → κ) (n : N) (costOne : Bool) (cs : List C) :
    ∀ (s : Pool C M K N R) (rows : List R), Inv o s → n ∈ s.nkeys →
    ∃ added : List (ℕ × C), (addLoop o key n costOne s rows cs).1.candidates = s.candidates ++ added ∧
      Inv o (addLoop o key n costOne s rows cs).1 ∧ (added.map Prod.snd).Sublist cs ∧
      (addLoop o key n costOne s rows cs).1.newCids = s.newCids ++ added.map (fun e => (n, e.1)) ∧
      (addLoop o key n costOne s rows cs).1.nkeys = s.nkeys ∧
      (∀ x, x ∈ (addLoop o key n costOne s rows cs).1.newMinor ↔ x ∈ s.newMinor ∨ ∃ e ∈ added, x = (n, o.minor e.2)) ∧
      ((addLoop o key n costOne s rows cs).2 = none →
        (∀ c ∈ cs, (o.minor c, o.major c) ∈ (s.candidates ++ added).map (fun e => (o.minor e.2, o.major e.2))) ∧
        (addLoop o key n costOne s rows cs).1.props.getD [] =
          s.props.getD [] ++ rows ++ added.flatMap (fun e => o.rows e.2 e.1 (s.nkeys.idxOf n) costOne)) ∧
      (PidsOk key s → PidsOk key (addLoop o key n costOne s rows cs).1 ∧
        (costOne = false → (addLoop o key n costOne s rows cs).2 = none)) := by
  induction cs with
  | nil =>
    intro s rows hI hn
    obtain ⟨h1, h2, h3, h4, h5, h6⟩ := finish_fields key s rows
    refine ⟨[], by simpa [addLoop] using h1, ?_, by simp, by simpa [addLoop] using h4, h5, fun x => by simp [addLoop, h6],
      fun _ => ⟨by simp, by simpa [addLoop] using finish_props key s rows⟩, fun hp => ?_⟩
    · rw [addLoop]
      exact ⟨by rw [h1, h2]; exact hI.ids, by rw [h1, h3]; exact hI.keys, by rw [h1]; exact hI.nodup⟩
    · rw [addLoop]
      exact ⟨(finish_pids key s rows hp).1, fun _ => (finish_pids key s rows hp).2⟩
  | cons c cs ih =>
    intro s rows hI hn
    rcases addCandQuiet_spec o s hI c n with ⟨hk, he⟩ | ⟨hk, s', he, h1, h2, h3, h4, h5, h6, h7⟩
    · rw [addLoop, he]
      simp only
      cases costOne with
      | true =>
        rw [if_pos rfl]
        exact ⟨[], by simp, hI, by simp, by simp, rfl, by simp, fun h => absurd h (by simp), fun hp => ⟨hp, by simp⟩⟩
      | false =>
        rw [if_neg (by simp)]
        obtain ⟨added, ha, hb, hc, hd, hd', hm, hf, hg⟩ := ih s rows hI hn
        refine ⟨added, ha, hb, hc.trans (List.sublist_cons_self _ _), hd, hd', hm, fun h => ⟨?_, (hf h).2⟩, hg⟩
        intro x hx
        rcases List.mem_cons.1 hx with rfl | hx
        · rw [List.map_append]; exact List.mem_append_left _ hk
        · exact (hf h).1 x hx
    · rw [addLoop, he]
      simp only
      have hn' : s'.nkeys = s.nkeys := by rw [h6, recordKey_of_mem s n hn]
      obtain ⟨added, ha, hb, hc, hd, hd', hm, hf, hg⟩ := ih s' (rows ++ o.rows c s.nextCid (s'.nkeys.idxOf n) costOne) h2 (by rw [hn']; exact hn)
      refine ⟨(s.nextCid, c) :: added, by rw [ha, h1, List.append_assoc]; rfl, hb, by simpa using hc,
        by rw [hd, h3, List.append_assoc]; rfl, by rw [hd', hn'], ?_, fun h => ⟨?_, ?_⟩, fun hp => hg ?_⟩
      · intro x
        rw [hm, h7]
        simp only [List.mem_cons, exists_eq_or_imp, or_assoc]
      · intro x hx
        have := (hf h).1
        rw [h1, List.append_assoc] at this
        rcases List.mem_cons.1 hx with rfl | hx
        · exact List.mem_map.2 ⟨(s.nextCid, x), by simp, rfl⟩
        · exact this x hx
      · rw [(hf h).2, h4, hn', List.flatMap_cons]
        simp only [List.append_assoc]
      · unfold PidsOk at hp ⊢
        rw [h4, h5]
        exact hp

theorem empty_inv (o : CandOps C M K R) : Inv o (empty : Pool C M K N R) := ⟨rfl, rfl, List.nodup_nil⟩

theorem step_spec (o : CandOps C M K R) (key : R → κ) (s : Pool C M K N R) (op : Op C N) (hI : Inv o s) :
    Inv o (step o key s op) ∧ s.candidates <+: (step o key s op).candidates ∧ (PidsOk key s → PidsOk key (step o key s op)) := by
  cases op with
  | cands cs n b =>
    obtain ⟨h1, h2, h3, h4, h5, h6, h7, h8, h9⟩ := recordKey_fields s n
    have hI' : Inv o (recordKey s n) := ⟨by rw [h1, h2]; exact hI.ids, by rw [h1, h3]; exact hI.keys, by rw [h1]; exact hI.nodup⟩
    obtain ⟨added, ha, hb, _, _, _, _, _, hg⟩ := addLoop_spec o key n b cs (recordKey s n) [] hI' h8
    refine ⟨hb, ⟨added, by rw [← h1]; exact ha.symm⟩, fun hp => (hg ?_).1⟩
    unfold PidsOk at hp ⊢
    rw [h6, h7]
    exact hp
  | quiet c n =>
    have hstep : step o key s (.quiet c n) = (addCandQuiet o s c n).1 := rfl
    rw [hstep]
    rcases addCandQuiet_spec o s hI c n with ⟨_, he⟩ | ⟨_, s', he, h1, h2, _, h4, h5, _⟩
    · rw [he]; exact ⟨hI, List.prefix_rfl, id⟩
    · rw [he]
      refine ⟨h2, ⟨_, h1.symm⟩, fun hp => ?_⟩
      unfold PidsOk at hp ⊢
      simp only
      rw [h4, h5]
      exact hp
  | reset => exact ⟨⟨hI.ids, hI.keys, hI.nodup⟩, List.prefix_rfl, id⟩

theorem run_concat (o : CandOps C M K R) (key : R → κ) (h : List (Op C N)) (op : Op C N) :
    run o key (h ++ [op]) = step o key (run o key h) op := by
  unfold run; rw [List.foldl_append]; rfl

end Verif.CandPool
