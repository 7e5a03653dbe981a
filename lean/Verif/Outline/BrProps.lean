import Verif.Outline.Model
import Verif.Periodic.Keys

/-!
# The names of the blocks of a pattern (C154)
-/

set_option autoImplicit false
set_option linter.unusedSectionVars false

namespace Verif.Outline

open Verif.Text Verif.Periodic

/-- `key_to_br`, `/repo/skmine/periodic/class_patterns.py:392-394`. -/
def keyToBr (key : List Char) : Option (List Char) := lToBr (keyToL key)

theorem firsts (l : List (ℤ × ℤ)) : (l.map (fun pf => [pf.1, pf.2])).mapM (fun pf => pf[0]?) = some (l.map Prod.fst) := by
  induction l with
  | nil => rfl
  | cons p l ih => rw [List.map_cons, List.mapM_cons, ih]; rfl

theorem seconds (l : List (ℤ × ℤ)) : (l.map (fun pf => [pf.1, pf.2])).mapM (fun pf => pf[1]?) = some (l.map Prod.snd) := by
  induction l with
  | nil => rfl
  | cons p l ih => rw [List.map_cons, List.mapM_cons, ih]; rfl

/-- C154. The name of the block with a given key: the children counted from one, then the repetitions counted from one. -/
theorem br_of_key (l : List (ℤ × ℤ)) : keyToBr (lToKey l) =
    some ('B' :: (join ',' (l.map (fun x => showInt (x.1 + 1))) ++ '<' :: (join ',' (l.map (fun x => showInt (x.2 + 1))) ++ ['>']))) := by
  rw [keyToBr, key_roundtrip, lToBr, firsts, seconds]
  simp [List.map_map, Function.comp_def]

theorem numbers_inj (a b : List ℤ) (h : join ',' (a.map (fun x => showInt (x + 1))) = join ',' (b.map (fun x => showInt (x + 1)))) (he : a = [] ↔ b = []) : a = b := by
  by_cases ha : a = []
  · rw [ha, he.1 ha]
  · have hb : b ≠ [] := fun e => ha (he.2 e)
    have sep : ∀ c : List ℤ, ∀ w ∈ c.map (fun x => showInt (x + 1)), ',' ∉ w := by
      intro c w hw
      obtain ⟨x, _, rfl⟩ := List.mem_map.1 hw
      exact (showInt_noSep _).2
    have h1 := splitOn_join ',' _ (by simpa using ha) (sep a)
    rw [h, splitOn_join ',' _ (by simpa using hb) (sep b)] at h1
    refine (List.map_injective_iff.2 ?_ h1).symm
    intro x y hxy
    have := showInt_injective _ _ hxy
    omega

theorem numbers_nil (a : List ℤ) (h : join ',' (a.map (fun x => showInt (x + 1))) = []) : a = [] := by
  cases a with
  | nil => rfl
  | cons x a =>
    exfalso
    cases a with
    | nil => exact showInt_ne_nil _ (by simpa [join] using h)
    | cons y a => simp [join] at h

theorem numbers_no (c : Char) (h1 : c ≠ ',') (h2 : ∀ z, c ∉ showInt z) (a : List ℤ) : c ∉ join ',' (a.map (fun x => showInt (x + 1))) := by
  intro h
  rcases mem_join ',' c _ h with h | ⟨w, hw, h⟩
  · exact h1 h
  · obtain ⟨x, _, rfl⟩ := List.mem_map.1 hw
    exact h2 _ h

theorem sep_prefix (c : Char) : ∀ (u v s s' : List Char), c ∉ u → c ∉ v → u ++ c :: s = v ++ c :: s' → u = v ∧ s = s'
  | [], [], _, _, _, _, h => ⟨rfl, (List.cons.inj h).2⟩
  | [], x :: v, _, _, _, hv, h => absurd (by rw [(List.cons.inj h).1]; exact List.mem_cons_self) hv
  | x :: u, [], _, _, hu, _, h => absurd (by rw [← (List.cons.inj h).1]; exact List.mem_cons_self) hu
  | x :: u, y :: v, s, s', hu, hv, h => by
    obtain ⟨h1, h2⟩ := List.cons.inj h
    obtain ⟨h3, h4⟩ := sep_prefix c u v s s' (fun k => hu (List.mem_cons_of_mem _ k)) (fun k => hv (List.mem_cons_of_mem _ k)) h2
    exact ⟨by rw [h1, h3], h4⟩

/-- C154. Different positions have different block names. -/
theorem br_injective (l l' : List (ℤ × ℤ)) (h : keyToBr (lToKey l) = keyToBr (lToKey l')) : l = l' := by
  have no : ∀ a : List ℤ, '<' ∉ join ',' (a.map (fun x => showInt (x + 1))) := numbers_no '<' (by decide) (fun z h => absurd (mem_showInt z _ h) (by decide))
  have e1 : ∀ l : List (ℤ × ℤ), l.map (fun x => showInt (x.1 + 1)) = (l.map Prod.fst).map (fun x => showInt (x + 1)) := fun l => by simp [List.map_map, Function.comp_def]
  have e2 : ∀ l : List (ℤ × ℤ), l.map (fun x => showInt (x.2 + 1)) = (l.map Prod.snd).map (fun x => showInt (x + 1)) := fun l => by simp [List.map_map, Function.comp_def]
  rw [br_of_key, br_of_key, e1, e1, e2, e2, Option.some.injEq, List.cons.injEq] at h
  obtain ⟨h1, h2⟩ := sep_prefix '<' _ _ _ _ (no _) (no _) h.2
  have h3 := List.append_cancel_right h2
  have hemp : l = [] ↔ l' = [] := by
    constructor
    · rintro rfl
      have := numbers_nil _ h1.symm
      simpa using this
    · rintro rfl
      have := numbers_nil _ h1
      simpa using this
  have h4 := numbers_inj _ _ h1 (by simpa using hemp)
  have h5 := numbers_inj _ _ h3 (by simpa using hemp)
  clear h h1 h2 h3 hemp e1 e2
  induction l generalizing l' with
  | nil =>
    cases l' with
    | nil => rfl
    | cons p l' => cases h4
  | cons p l ih =>
    cases l' with
    | nil => cases h4
    | cons p' l' =>
      simp only [List.map_cons, List.cons.injEq] at h4 h5
      rw [ih l' h4.2 h5.2, Prod.ext h4.1 h5.1]

/-- C154 is false for texts that are not keys: a broken key and the key of the whole pattern have the same name. -/
theorem br_broken : keyToBr "0,x;1,2".toList = keyToBr (lToKey []) := by decide +kernel

/-- A key with a single number has no name: it ends in an exception. -/
theorem br_short : keyToBr "3".toList = none := by decide +kernel

example : keyToBr "0,1;1,2;3,4".toList = some "B1,2,4<2,3,5>".toList := by decide +kernel
example : keyToBr (lToKey [(0, 1), (-1, 2)]) = some "B1,0<2,3>".toList := by decide +kernel
example : keyToBr (lToKey [(0, 1), (1, 2)]) ≠ keyToBr (lToKey [(0, 1), (2, 1)]) := fun h => absurd (br_injective _ _ h) (by decide)

end Verif.Outline
