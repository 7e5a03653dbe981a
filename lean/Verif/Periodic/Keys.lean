import Verif.Util.Text

/-!
# Occurrence keys (C41)

Source: `/repo/skmine/periodic/class_patterns.py:328-367`. Keys are strings, modelled as lists of characters. `int` is modelled on optional sign and
decimal digits; Python also accepts blanks and underscores, which `l_to_key` never writes.
-/

set_option autoImplicit false

namespace Verif.Periodic

open Verif.Text

/-- `l_to_key`, `/repo/skmine/periodic/class_patterns.py:353-367`. -/
def lToKey (l : List (ℤ × ℤ)) : List Char :=
  join ';' (l.map (fun pf => showInt pf.1 ++ ',' :: showInt pf.2))

/-- `key_to_l`, `/repo/skmine/periodic/class_patterns.py:334-350`: any exception gives the empty list. -/
def keyToL (key : List Char) : List (List ℤ) :=
  ((splitOn ';' key).mapM (fun b => (splitOn ',' b).mapM parseInt)).getD []

theorem showInt_noSep (z : ℤ) : ';' ∉ showInt z ∧ ',' ∉ showInt z := by
  have hall : ∀ c ∈ ['-', '0', '1', '2', '3', '4', '5', '6', '7', '8', '9'], c ≠ ';' ∧ c ≠ ',' := by decide
  exact ⟨fun h => (hall _ (mem_showInt z _ h)).1 rfl, fun h => (hall _ (mem_showInt z _ h)).2 rfl⟩

/-- C41. Reading the key of a list of pairs gives back the pairs, for every list of pairs of integers (the empty list included). -/
theorem key_roundtrip (l : List (ℤ × ℤ)) : keyToL (lToKey l) = l.map (fun pf => [pf.1, pf.2]) := by
  cases l with
  | nil => rfl
  | cons p l =>
    have hsep : ∀ w ∈ (p :: l).map (fun pf : ℤ × ℤ => showInt pf.1 ++ ',' :: showInt pf.2), ';' ∉ w := by
      intro w hw
      obtain ⟨q, _, rfl⟩ := List.mem_map.1 hw
      rw [List.mem_append, List.mem_cons]
      rintro (h | h | h)
      · exact (showInt_noSep _).1 h
      · exact absurd h (by decide)
      · exact (showInt_noSep _).1 h
    have hone : ∀ q : ℤ × ℤ, (splitOn ',' (showInt q.1 ++ ',' :: showInt q.2)).mapM parseInt = some [q.1, q.2] := by
      intro q
      rw [splitOn_append _ _ _ (showInt_noSep _).2, splitOn_noSep _ _ (showInt_noSep _).2]
      simp [parseInt_showInt]
    have hm : ∀ l : List (ℤ × ℤ), (l.map (fun pf : ℤ × ℤ => showInt pf.1 ++ ',' :: showInt pf.2)).mapM
        (fun b => (splitOn ',' b).mapM parseInt) = some (l.map (fun pf => [pf.1, pf.2])) := by
      intro l
      induction l with
      | nil => rfl
      | cons q l ih => rw [List.map_cons, List.mapM_cons, hone, ih]; rfl
    rw [keyToL, lToKey, splitOn_join _ _ (by simp) hsep, hm]
    rfl

/-- C41. Different lists of pairs have different keys. -/
theorem key_injective (l l' : List (ℤ × ℤ)) (h : lToKey l = lToKey l') : l = l' := by
  have := key_roundtrip l
  rw [h, key_roundtrip] at this
  have hinj : Function.Injective (fun pf : ℤ × ℤ => [pf.1, pf.2]) := by
    rintro ⟨a, b⟩ ⟨c, d⟩ e
    simp only [List.cons.injEq, and_true] at e
    exact Prod.ext e.1 e.2
  exact (List.map_injective_iff.2 hinj this).symm

example : String.ofList (lToKey [(0, 12), (-3, 1)]) = "0,12;-3,1" := by decide
example : keyToL "0,12;-3,1".toList = [[0, 12], [-3, 1]] := by decide

end Verif.Periodic
