import Verif.CandPool.Model
import Mathlib.Tactic.SplitIfs

/-!
# The pool does not see a renaming of candidates (C126)

Candidates, major keys and rows replaced one to one, the order of rows being the same.
-/

set_option autoImplicit false
set_option linter.unusedSectionVars false

namespace Verif.CandPool

open Verif.Periodic

variable {C M K N R κ : Type} [DecidableEq M] [DecidableEq K] [DecidableEq N] [LinearOrder κ]

/-- The pool with its candidates, major keys and rows replaced. -/
def mapPool (f : C → C) (g : K → K) (h : R → R) (s : Pool C M K N R) : Pool C M K N R :=
  ⟨s.candidates.map (fun e => (e.1, f e.2)), s.nextCid, s.keys.map (fun e => ((e.1.1, g e.1.2), e.2)), s.nkeys, s.newMinor, s.newCids, s.props.map (List.map h), s.pids⟩

/-- The new candidates have the same keys and rows, up to the renaming. -/
structure OpsMap (f : C → C) (g : K → K) (h : R → R) (o o' : CandOps C M K R) : Prop where
  minor : ∀ c, o'.minor (f c) = o.minor c
  major : ∀ c, o'.major (f c) = g (o.major c)
  rows : ∀ c i n b, o'.rows (f c) i n b = (o.rows c i n b).map h

theorem dset_map {β γ : Type} [DecidableEq β] (f : γ → γ) (k : β) (v : γ) : ∀ l : List (β × γ), dset k (f v) (l.map (fun e => (e.1, f e.2))) = (dset k v l).map (fun e => (e.1, f e.2))
  | [] => rfl
  | (k', v') :: l => by
    rw [List.map_cons, dset, dset]
    split_ifs
    · rfl
    · rw [dset_map f k v l, List.map_cons]

theorem sortPids_congr {key key' : ℕ → κ} (h : ∀ a b, key' a ≤ key' b ↔ key a ≤ key b) (l : List ℕ) : sortPids key' l = sortPids key l := by
  unfold sortPids
  simp only [h]

theorem mergeLoop_congr {key key' : ℕ → κ} (h : ∀ a b, key' a ≤ key' b ↔ key a ≤ key b) (i : ℕ) (A B : List ℕ) : mergeLoop key' i A B = mergeLoop key i A B := by
  have hl : ∀ a b, key' a < key' b ↔ key a < key b := fun a b => by rw [← not_le, ← not_le, h]
  induction hn : (A.length - i) + B.length using Nat.strong_induction_on generalizing i A B with
  | _ n ih =>
    rw [mergeLoop, mergeLoop]
    split_ifs with h1
    · cases B with
      | nil => rfl
      | cons b rest =>
        simp only [hl]
        split_ifs with h2
        · refine ih _ ?_ (i + 1) _ _ rfl
          rw [List.length_insertIdx, if_pos (by omega)]
          simp only [List.length_cons] at hn
          omega
        · refine ih _ ?_ (i + 1) _ _ rfl
          omega
    · rfl

theorem mergeSortedPids_congr {key key' : ℕ → κ} (h : ∀ a b, key' a ≤ key' b ↔ key a ≤ key b) (A B : List ℕ) : mergeSortedPids key' A B = mergeSortedPids key A B := by
  unfold mergeSortedPids
  rw [mergeLoop_congr h]

theorem pidKey_map {key : R → κ} {h : R → R} (hk : ∀ a b, key (h a) ≤ key (h b) ↔ key a ≤ key b) (rows : List R) (a b : ℕ) : pidKey key (rows.map h) a ≤ pidKey key (rows.map h) b ↔ pidKey key rows a ≤ pidKey key rows b := by
  unfold pidKey
  rw [List.getElem?_map, List.getElem?_map]
  cases rows[a]? with
  | none => simp
  | some x =>
    cases rows[b]? with
    | none => simp
    | some y =>
      simp only [Option.map_some, Option.elim_some]
      rw [WithBot.coe_le_coe, WithBot.coe_le_coe, hk]

variable {f : C → C} {g : K → K} {h : R → R} {o o' : CandOps C M K R} {key : R → κ}

theorem recordKey_map (s : Pool C M K N R) (n : N) : recordKey (mapPool f g h s) n = mapPool f g h (recordKey s n) := by
  unfold recordKey
  change (if n ∈ s.nkeys then _ else _) = _
  split_ifs <;> rfl

theorem register_map (hg : Function.Injective g) (ho : OpsMap f g h o o') (s : Pool C M K N R) (c : C) (n : N) : register o' (mapPool f g h s) (f c) n = (register o s c n).map (mapPool f g h) := by
  unfold register
  rw [ho.minor, ho.major]
  have e : ((o.minor c, g (o.major c)) ∈ (mapPool f g h s).keys.map Prod.fst) ↔ ((o.minor c, o.major c) ∈ s.keys.map Prod.fst) := by
    change _ ∈ (s.keys.map (fun e => ((e.1.1, g e.1.2), e.2))).map Prod.fst ↔ _
    rw [List.map_map, List.mem_map, List.mem_map]
    constructor
    · rintro ⟨x, hx, he⟩
      simp only [Function.comp, Prod.mk.injEq] at he
      exact ⟨x, hx, Prod.ext he.1 (hg he.2)⟩
    · rintro ⟨x, hx, he⟩
      refine ⟨x, hx, ?_⟩
      simp only [Function.comp, he]
  by_cases hm : (o.minor c, o.major c) ∈ s.keys.map Prod.fst
  · rw [if_pos hm, if_pos (e.2 hm)]
    rfl
  · rw [if_neg hm, if_neg (fun h => hm (e.1 h))]
    have e2 : ({ (mapPool f g h s) with candidates := dset (mapPool f g h s).nextCid (f c) (mapPool f g h s).candidates, keys := (mapPool f g h s).keys ++ [((o.minor c, g (o.major c)), (mapPool f g h s).nextCid)] } : Pool C M K N R) =
        mapPool f g h { s with candidates := dset s.nextCid c s.candidates, keys := s.keys ++ [((o.minor c, o.major c), s.nextCid)] } := by
      unfold mapPool
      simp only [Pool.mk.injEq, and_true, true_and]
      exact ⟨dset_map f s.nextCid c s.candidates, by simp⟩
    simp only
    rw [e2, recordKey_map]
    rfl

theorem addCandQuiet_map (hg : Function.Injective g) (ho : OpsMap f g h o o') (s : Pool C M K N R) (c : C) (n : N) :
    addCandQuiet o' (mapPool f g h s) (f c) n = (mapPool f g h (addCandQuiet o s c n).1, (addCandQuiet o s c n).2) := by
  unfold addCandQuiet
  rw [register_map hg ho]
  cases register o s c n <;> rfl

theorem finish_map (hk : ∀ a b, key (h a) ≤ key (h b) ↔ key a ≤ key b) (s : Pool C M K N R) (rows : List R) : finish key (mapPool f g h s) (rows.map h) = (mapPool f g h (finish key s rows).1, (finish key s rows).2) := by
  unfold finish
  rw [List.length_map]
  split_ifs
  · rfl
  · change (match s.props.map (List.map h) with
      | none => _
      | some old => _) = _
    cases hp : s.props with
    | none =>
      simp only [Option.map_none]
      rw [sortPids_congr (pidKey_map hk rows)]
      rfl
    | some old =>
      simp only [Option.map_some]
      change (match s.pids with
        | some (.list A) => _
        | some (.range _) => _
        | none => _) = _
      cases hq : s.pids with
      | none =>
        simp only
        rw [← List.map_append]
        unfold mapPool
        simp [hq]
      | some q =>
        cases q with
        | range m =>
          simp only
          rw [← List.map_append]
          unfold mapPool
          simp [hq]
        | list A =>
          simp only
          rw [← List.map_append, List.length_map, sortPids_congr (pidKey_map hk (old ++ rows)), mergeSortedPids_congr (pidKey_map hk (old ++ rows))]
          rfl

theorem addLoop_map (hg : Function.Injective g) (ho : OpsMap f g h o o') (hk : ∀ a b, key (h a) ≤ key (h b) ↔ key a ≤ key b) (n : N) (b : Bool) : ∀ (cs : List C) (s : Pool C M K N R) (rows : List R),
    addLoop o' key n b (mapPool f g h s) (rows.map h) (cs.map f) = (mapPool f g h (addLoop o key n b s rows cs).1, (addLoop o key n b s rows cs).2) := by
  intro cs
  induction cs with
  | nil => intro s rows; exact finish_map hk s rows
  | cons c cs ih =>
    intro s rows
    rw [List.map_cons, addLoop, addLoop, addCandQuiet_map hg ho]
    cases hq : addCandQuiet o s c n with
    | mk s' b' =>
      cases b' with
      | false =>
        simp only
        split_ifs
        · rfl
        · exact ih s' rows
      | true =>
        simp only
        rw [ho.rows]
        have := ih s' (rows ++ o.rows c s.nextCid (s'.nkeys.idxOf n) b)
        rw [List.map_append] at this
        exact this

/-- Adding the renamed candidates to the renamed pool. -/
theorem addCands_map (hg : Function.Injective g) (ho : OpsMap f g h o o') (hk : ∀ a b, key (h a) ≤ key (h b) ↔ key a ≤ key b) (s : Pool C M K N R) (cs : List C) (n : N) (b : Bool) :
    addCands o' key (mapPool f g h s) (cs.map f) n b = (mapPool f g h (addCands o key s cs n b).1, (addCands o key s cs n b).2) := by
  unfold addCands
  rw [recordKey_map]
  exact addLoop_map hg ho hk n b cs (recordKey s n) []

theorem cidsForMinorK_map (s : Pool C M K N R) (m : M) : cidsForMinorK (mapPool f g h s) m = cidsForMinorK s m := by
  unfold cidsForMinorK
  change (List.filter _ (s.keys.map (fun e => ((e.1.1, g e.1.2), e.2)))).map Prod.snd = _
  rw [List.filter_map, List.map_map]
  rfl

end Verif.CandPool
