import Verif.Complex.MoveProps
import Verif.Mine.EventProps

/-!
# The names of the events in the search for complex patterns (C130)

Source: `/repo/skmine/periodic/cycles.py:97-191`, `/repo/skmine/periodic/data_sequence.py:44-82`, `/repo/skmine/periodic/run_mine.py:813-987`. The models are those of C71 (fit) and C124 (search for complex patterns). Only the order of the names matters:
names in the same order give the same patterns, with the new names. Names in another order can give other patterns.
-/

set_option autoImplicit false
set_option linter.unusedSectionVars false

namespace Verif.Complex

open Verif.PTree Verif.DataSeq Verif.Miner Verif.Mine Verif.TimeScale Verif.Concat Verif.PattKey

section Data

variable {ε ε' : Type} [LinearOrder ε] [LinearOrder ε']

/-! ### Specification -/

/-- The same data with other names: the events have the same numbers. -/
def nameData (ρ : ε → ε') (d : Built ε) : Built ε' := ⟨d.listEv.map ρ, d.mapEvNum.map (fun x => (ρ x.1, x.2)), d.seqd, d.seql, d.evNbOccs, d.evStarts, d.evEnds, d.tStart, d.tEnd, d.deltaT⟩

/-- The same fitted miner with other names. -/
def nameFit (ρ : ε → ε') (m : Fitted ε) : Fitted ε' := ⟨nameData ρ m.data, m.nZeros, m.divNbSec⟩

/-! ### The data -/

theorem lookup_name {β : Type} (ρ : ε → ε') (hρ : Function.Injective ρ) (e : ε) : ∀ l : List (ε × β), (l.map (fun x => (ρ x.1, x.2))).lookup (ρ e) = l.lookup e := by
  intro l
  induction l with
  | nil => rfl
  | cons a l ih =>
    rw [List.map_cons, List.lookup_cons, List.lookup_cons]
    by_cases h : e = a.1
    · simp [h]
    · rw [beq_eq_false_iff_ne.2 h, beq_eq_false_iff_ne.2 (fun h' => h (hρ h')), ih]

theorem translate_name (ρ : ε → ε') (hρ : StrictMono ρ) (tmp : List (ε × List ℤ)) :
    translate (tmp.map (fun q => (ρ q.1, q.2))) = (translate tmp).map (fun r => (r.1.map ρ, r.2.1.map (fun x => (ρ x.1, x.2)), r.2.2.1, r.2.2.2)) := by
  have e1 : ((tmp.map (fun q => (ρ q.1, q.2))).map Prod.fst).insertionSort (· ≤ ·) = ((tmp.map Prod.fst).insertionSort (· ≤ ·)).map ρ := by
    rw [List.map_insertionSort (· ≤ ·) (· ≤ ·) ρ _ (fun a _ b _ => hρ.le_iff_le.symm), List.map_map, List.map_map]
    rfl
  have e2 : (((tmp.map Prod.fst).insertionSort (· ≤ ·)).map ρ).zipIdx = ((tmp.map Prod.fst).insertionSort (· ≤ ·)).zipIdx.map (fun x => (ρ x.1, x.2)) := by
    rw [List.zipIdx_map]
    rfl
  have e3 : (tmp.map (fun q => (ρ q.1, q.2))).mapM (fun q => ((((tmp.map Prod.fst).insertionSort (· ≤ ·)).zipIdx.map (fun x => (ρ x.1, x.2))).lookup q.1).map (fun k => (k, q.2))) =
      tmp.mapM (fun q => ((((tmp.map Prod.fst).insertionSort (· ≤ ·)).zipIdx).lookup q.1).map (fun k => (k, q.2))) := by
    rw [List.mapM_map]
    congr 1
    funext q
    simp only [Function.comp, lookup_name ρ hρ.injective]
  unfold translate
  simp only [e1, e2, e3]
  cases tmp.mapM (fun q => ((((tmp.map Prod.fst).insertionSort (· ≤ ·)).zipIdx).lookup q.1).map (fun k => (k, q.2))) <;> rfl

theorem ofList_name (ρ : ε → ε') (hρ : StrictMono ρ) (seq : List (ℤ × ε)) : ofList (renameRows ρ seq) = (ofList seq).map (nameData ρ) := by
  unfold ofList ofDict
  rw [group_rename ρ hρ.injective]
  have ht := translate_name ρ hρ (group seq)
  cases h : translate (group seq) with
  | error e => rw [h] at ht; rw [ht]; rfl
  | ok r =>
    obtain ⟨a, b, c, d⟩ := r
    rw [h] at ht
    replace ht : translate ((group seq).map (fun q => (ρ q.1, q.2))) = .ok (a.map ρ, b.map (fun x => (ρ x.1, x.2)), c, d) := ht
    rw [ht]
    simp only
    cases c.mapM (fun e => (npMin e.2).map (fun m => (e.1, m))) with
    | error e => rfl
    | ok s =>
      cases c.mapM (fun e => (npMax e.2).map (fun m => (e.1, m))) with
      | error e => rfl
      | ok t =>
        simp only
        split_ifs
        · cases npMax (t.map Prod.snd) with
          | error e => rfl
          | ok x => cases npMin (s.map Prod.snd) <;> rfl
        · rfl

/-- Fitting a series with other names in the same order gives the same data: only the names differ, also with automatic time scale. -/
theorem fitData_name (ρ : ε → ε') (hρ : StrictMono ρ) (auto : Bool) (rows : List (ℤ × ε)) : fitData auto (renameRows ρ rows) = (fitData auto rows).map (nameFit ρ) := by
  unfold fitData
  simp only [dedupRows_rename ρ hρ.injective]
  have e1 : (renameRows ρ (dedupRows rows)).map Prod.fst = (dedupRows rows).map Prod.fst := by unfold renameRows; rw [List.map_map]; rfl
  have e2 : (renameRows ρ (dedupRows rows)).map Prod.snd = ((dedupRows rows).map Prod.snd).map ρ := by unfold renameRows; rw [List.map_map, List.map_map]; rfl
  have hz : ∀ l : List ℤ, l.zip (((dedupRows rows).map Prod.snd).map ρ) = renameRows ρ (l.zip ((dedupRows rows).map Prod.snd)) := by
    intro l
    rw [List.zip_map_right]; rfl
  cases auto with
  | true =>
    simp only [if_true, e1, e2, hz, ofList_name ρ hρ]
    cases ofList ((autoscale ((dedupRows rows).map Prod.fst)).1.zip ((dedupRows rows).map Prod.snd)) <;> rfl
  | false =>
    simp only [Bool.false_eq_true, if_false, ofList_name ρ hρ]
    cases ofList (dedupRows rows) <;> rfl

theorem numToEv_name (ρ : ε → ε') (d : Built ε) (k : ℕ) : numToEv (nameData ρ d) k = (numToEv d k).map ρ := by
  rw [numToEv_get, numToEv_get]
  exact List.getElem?_map ..

variable {K : Type} [Field K] [LinearOrder K] [IsStrictOrderedRing K]

theorem mineComplex_name (ρ : ε → ε') (W : World K) (A : ℕ → Mine.Costs K) (Q : ℕ → Orders) (fuel n : ℕ) (d : Built ε) : mineComplex W A Q fuel n (nameData ρ d) = mineComplex W A Q fuel n d := by
  unfold mineComplex initPool
  have e1 : (nameData ρ d).listEv.length = d.listEv.length := List.length_map ..
  have e2 : initLoop W A fuel (nameData ρ d) = initLoop W A fuel d := rfl
  rw [e1, e2]

/-- The occurrences of a pattern with the names of their events. -/
def namedOccs (d : Built ε) (q : Patt) : Option (List (ℤ × ε)) := (getCovSeq q.1 q.2.1 q.2.2).bind (fun l => l.mapM (fun x => (numToEv d x.2).map (fun e => (x.1, e))))

theorem namedOccs_name (ρ : ε → ε') (d : Built ε) (q : Patt) : namedOccs (nameData ρ d) q = (namedOccs d q).map (renameRows ρ) := by
  unfold namedOccs
  cases getCovSeq q.1 q.2.1 q.2.2 with
  | none => rfl
  | some l =>
    simp only [Option.bind_some]
    induction l with
    | nil => rfl
    | cons x l ih =>
      rw [List.mapM_cons, List.mapM_cons, ih, numToEv_name]
      cases numToEv d x.2 with
      | none => rfl
      | some e =>
        simp only [Option.map_some]
        cases l.mapM (fun x => (numToEv d x.2).map (fun e => (x.1, e))) <;> rfl

/-! ### Theorems -/

/-- For every series, every renaming of its events that keeps the order of the names, with or without automatic time scale: fitting and searching for complex patterns gives the same patterns and the same final state of the search, for all costs, all
iteration orders and all numbers of rounds; the number of an event stands for its new name, so that the occurrences of the patterns are the same with the new names. -/
theorem complex_names_partial (ρ : ε → ε') (hρ : StrictMono ρ) (auto : Bool) (rows : List (ℤ × ε)) (m : Fitted ε) (h : fitData auto rows = .ok m) :
    ∃ m', fitData auto (renameRows ρ rows) = .ok m' ∧ m'.nZeros = m.nZeros ∧ m'.divNbSec = m.divNbSec ∧ (∀ k, numToEv m'.data k = (numToEv m.data k).map ρ) ∧ details m'.data = details m.data ∧
      (∀ q, namedOccs m'.data q = (namedOccs m.data q).map (renameRows ρ)) ∧
      ∀ (W : World K) (A : ℕ → Mine.Costs K) (Q : ℕ → Orders) (fuel n : ℕ), mineComplex W A Q fuel n m'.data = mineComplex W A Q fuel n m.data := by
  refine ⟨nameFit ρ m, ?_, rfl, rfl, numToEv_name ρ m.data, rfl, namedOccs_name ρ m.data, fun W A Q fuel n => mineComplex_name ρ W A Q fuel n m.data⟩
  rw [fitData_name ρ hρ, h]
  rfl

/-- The same with the costs of the code. -/
theorem complex_names_exact_partial (ρ : ε → ε') (hρ : StrictMono ρ) (auto : Bool) (rows : List (ℤ × ε)) (m : Fitted ε) (h : fitData auto rows = .ok m) (u : ℝ) (maxP : Option ℤ) (tup : AnyCand → Cost.Alpha ℕ)
    (first : List (PC ℝ) → ℕ → List Char → ℕ) :
    ∃ m', fitData auto (renameRows ρ rows) = .ok m' ∧ ∀ (Q : ℕ → Orders) (fuel n : ℕ),
      (mineComplex (exactWorld u (details m'.data) tup first) (exactCosts u maxP (details m'.data)) Q fuel n m'.data).map (fun r => r.2.map (namedOccs m'.data)) =
        (mineComplex (exactWorld u (details m.data) tup first) (exactCosts u maxP (details m.data)) Q fuel n m.data).map (fun r => r.2.map (fun q => (namedOccs m.data q).map (renameRows ρ))) := by
  obtain ⟨m', h1, -, -, -, h2, h3, h4⟩ := complex_names_partial (K := ℝ) ρ hρ auto rows m h
  refine ⟨m', h1, fun Q fuel n => ?_⟩
  rw [h2, h4]
  congr 1
  funext r
  exact List.map_congr_left (fun q _ => h3 q)

end Data

/-! ### Names in another order -/

/-- Costs of simple cycles that do not distinguish the events: an occurrence costs 18. -/
def symA (_ : ℕ) : Mine.Costs ℚ := ⟨fun l => (exLine l : ℚ), 18, fun e dp => ((40 + dp + e : ℤ) : ℚ), exPar 18⟩

/-- Costs of the search that do not distinguish the events. -/
def symW : World ℚ := ⟨exPatt, fun c => (c.cost / 18).floor, [(0, 18), (1, 18), (2, 18)], fun _ => Nest.foldEnv (fun _ _ => true) (fun _ _ => exPar 100) (fun l => (Mine.computePeriod l).getD 0) id⟩

/-- A series of three events. -/
def symRows : List (ℤ × ℕ) := [(1, 2), (3, 0), (3, 1), (5, 0), (6, 0), (6, 1), (7, 1), (7, 2), (8, 0), (11, 0), (11, 1)]

/-- Names in the reverse order. -/
def symRev (e : ℕ) : ℕ := 2 - e

/-- The occurrences of the patterns found, with the names of the events. -/
def symRun (rows : List (ℤ × ℕ)) : Option (List (Option (List (ℤ × ℕ)))) :=
  (fitData false rows).toOption.bind (fun m => (mineComplex symW symA (fun _ => exQ) 100 1 m.data).map (fun r => r.2.map (namedOccs m.data)))

/-- The property does not hold for all renamings: the costs do not distinguish the events, the same iteration orders are used, and one pattern is found with six occurrences; with the names in the reverse order, two patterns are found, none of them with the same
occurrences. -/
theorem complex_names_differ : Function.Injective (fun e : {e : ℕ // e ≤ 2} => symRev e.1) ∧
    symRun symRows = some [some [(3, 0), (3, 1), (5, 0), (6, 1), (6, 0), (7, 1)]] ∧
    symRun (renameRows symRev symRows) = some [some (renameRows symRev [(3, 1), (3, 0), (7, 1), (6, 0), (11, 1), (11, 0)]), some (renameRows symRev [(3, 1), (5, 0), (6, 1), (6, 0), (7, 1), (8, 0)])] := by
  refine ⟨?_, by decide +kernel, by decide +kernel⟩
  rintro ⟨a, ha⟩ ⟨b, hb⟩ h
  simp only [symRev] at h
  exact Subtype.ext (by change a = b; omega)

/-! ### Example -/

/-- Names in the same order. -/
example : StrictMono (fun e : ℕ => 10 * e + 7) := fun a b h => by change 10 * a + 7 < 10 * b + 7; omega
example : symRun (renameRows (fun e => 10 * e + 7) symRows) = some [some [(3, 7), (3, 17), (5, 7), (6, 17), (6, 7), (7, 17)]] := by decide +kernel

end Verif.Complex
