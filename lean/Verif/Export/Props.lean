import Verif.Export.Lemmas
import Mathlib.Data.Char
import Mathlib.Data.List.Lex

/-!
# Export then import (C37)

Source: `/repo/skmine/periodic/cycles.py:234-292`.
-/

set_option autoImplicit false
set_option linter.unusedSectionVars false

namespace Verif.Export

open Verif.Nodes Verif.Text Verif.Miner Verif.DataSeq Verif.TimeScale Verif.PTree

variable {ε σ : Type} [LinearOrder ε] [LinearOrder σ]

theorem mapM_map_opt {β γ δ : Type} (f : β → Option γ) (g : γ → δ) (l : List β) : l.mapM (fun x => (f x).map g) = (l.mapM f).map (List.map g) := by
  induction l with
  | nil => rfl
  | cons a l ih =>
    rw [List.mapM_cons, List.mapM_cons, ih]
    cases f a with
    | none => rfl
    | some b => cases l.mapM f <;> rfl

/-- C37: for every series mined with the automatic time scale, every non-empty list of patterns, and event names whose order is kept by their JSON text (in particular all event names that are strings): importing the
exported file succeeds, gives back the same patterns up to their order, and each generates the same rows, with the text of the event names.
The full statement has no condition on time scale, patterns and names; see `export_without_scale`, `export_without_pattern` and `import_integer_events`. -/
theorem import_export_partial (name : ε → σ) (hname : StrictMono name) (rows : List (ℤ × ε)) :
    ∃ m, fitData true rows = .ok m ∧ ∀ (ps : List PatRec) (srt : List PatRec → List PatRec), (∀ l, (srt l).Perm l) → ps ≠ [] → (∀ P ∈ ps, (P.nodes.map Prod.fst).Nodup) →
      ∃ f m' ps', exportFile name srt true m (alphaGroups rows) ps = .ok f ∧ importFile f = .ok (m', ps') ∧ ps'.Perm ps ∧ m'.data.seql = m.data.seql ∧
        ∀ P ∈ ps, ∀ fuel q, P.patt fuel = some q → patternRows m' q = (patternRows m q).map (List.map (fun r => (r.1, name r.2))) := by
  obtain ⟨m, hm, _⟩ := fitData_ok true rows
  refine ⟨m, hm, ?_⟩
  intro ps srt hs hne hnd
  have hfit : fitData true rows = (ofDict (alphaGroups rows)).map (fun d => ⟨d, (autoscale ((dedupRows rows).map Prod.fst)).2.1, (autoscale ((dedupRows rows).map Prod.fst)).2.2.1⟩) := rfl
  rw [hfit] at hm
  cases hd : ofDict (alphaGroups rows) with
  | error e => rw [hd] at hm; cases hm
  | ok d =>
    rw [hd] at hm
    obtain rfl := Except.ok.inj hm
    obtain ⟨d', h1, h2, h3⟩ := ofDict_rename name hname (alphaGroups rows) (group_nodup _) (fun q hq => (group_entry _ q.1 q.2 hq).2) d hd
    refine ⟨_, ⟨d', (autoscale ((dedupRows rows).map Prod.fst)).2.1, (autoscale ((dedupRows rows).map Prod.fst)).2.2.1⟩, srt ps, (by rw [exportFile, if_neg (by simp), if_neg hne]), ?_, hs ps, h2, ?_⟩
    · unfold importFile
      simp only [h1]
      have : ((srt ps).map (fun P => json (.dict (exportTree P)))).mapM importVal = some (srt ps) := by
        rw [mapM_iff, List.map_map]
        apply List.map_congr_left
        intro P hP
        obtain ⟨d, hd1, hd2⟩ := pattern_roundtrip P (hnd P ((hs ps).mem_iff.mp hP))
        simp only [Function.comp_apply, hd1, importVal, hd2]
      rw [this]
    · intro P _ fuel q _
      unfold patternRows
      dsimp only
      cases getOccs q.1 (occsStar q.1 [] 0) q.2.1 q.2.2 with
      | none => rfl
      | some occs =>
        simp only [Option.bind_some]
        rw [← mapM_map_opt]
        congr 1
        funext x
        unfold decode
        rw [h3]
        cases numToEv d x.2 <;> rfl

/-- C37 fails without time scale: the export raises. -/
theorem export_without_scale (name : ε → σ) (srt : List PatRec → List PatRec) (m : Fitted ε) (groups : List (ε × List ℤ)) (ps : List PatRec) :
    exportFile name srt false m groups ps = .error "AttributeError: n_zeros_" := rfl

/-- C37 fails without pattern: the export raises. -/
theorem export_without_pattern (name : ε → σ) (srt : List PatRec → List PatRec) (m : Fitted ε) (groups : List (ε × List ℤ)) :
    exportFile name srt true m groups [] = .error "AttributeError: cycles" := rfl

/-! ## Concrete cases -/

/-- Occurrences of two events named by numbers. -/
def exRows : List (ℤ × ℤ) := [(3, 2), (10, 2), (17, 2), (5, 10), (6, 10), (100, 10)]

/-- The pattern of event `2`: three repetitions with period 7; `2` is the first event in numerical order. -/
def exP : PatRec := ⟨[(0, .inner none (some (3, 7)) [(1, 0)]), (1, .leaf (some 0) 0)], 2, 3, [0, 0]⟩

/-- The tree of the pattern. -/
def exPatt : Patt := (.node 3 7 (.cons 0 (.leaf 0) .nil), 3, [0, 0])

example : exP.patt 5 = some exPatt := by rfl

/-- With names that keep their order (here the same numbers) the rows are restored. -/
example : ∃ m, fitData true exRows = .ok m ∧ ∃ f m' ps', exportFile id id true m (alphaGroups exRows) [exP] = .ok f ∧ importFile f = .ok (m', ps') ∧ ps'.Perm [exP] ∧
    patternRows m' exPatt = patternRows m exPatt := by
  obtain ⟨m, hm, h⟩ := import_export_partial (id : ℤ → ℤ) strictMono_id exRows
  obtain ⟨f, m', ps', h1, h2, h3, _, h4⟩ := h [exP] id (fun l => List.Perm.refl l) (by simp) (by decide)
  refine ⟨m, hm, f, m', ps', h1, h2, h3, ?_⟩
  rw [h4 exP (by simp) 5 exPatt rfl]
  cases patternRows m exPatt <;> simp

/-- C37 fails for integer event names: their decimal texts sort differently (`"10" < "2"`), the imported pattern generates occurrences of event `10` instead of event `2`. -/
theorem import_integer_events :
    ∃ m, fitData true exRows = .ok m ∧ patternRows m exPatt = some [(3, 2), (10, 2), (17, 2)] ∧
    ∃ f m' ps', exportFile (σ := List Char) showInt id true m (alphaGroups exRows) [exP] = .ok f ∧ importFile f = .ok (m', ps') ∧ ps' = [exP] ∧
      patternRows m' exPatt = some [(3, "10".toList), (10, "10".toList), (17, "10".toList)] := by
  refine ⟨_, rfl, by decide, _, _, _, rfl, rfl, rfl, ?_⟩
  decide

end Verif.Export
