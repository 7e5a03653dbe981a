import Mathlib.Data.List.Basic
import Mathlib.Data.Int.Notation
import Mathlib.Tactic.Common

/-!
# Python string operations on lists of characters

`str.split(sep)` and `sep.join(...)` for a one-character separator, `str(n)` and `int(s)` for integers.
-/

set_option autoImplicit false

namespace Verif.Text

/-- `s.split(sep)` for a one-character `sep` (library function of Python). -/
def splitOn (sep : Char) : List Char → List (List Char)
  | [] => [[]]
  | c :: cs =>
    if c = sep then [] :: splitOn sep cs
    else match splitOn sep cs with
      | [] => [[c]]
      | w :: ws => (c :: w) :: ws

/-- `sep.join(words)` for a one-character `sep` (library function of Python). -/
def join (sep : Char) : List (List Char) → List Char
  | [] => []
  | [w] => w
  | w :: ws => w ++ sep :: join sep ws

theorem splitOn_ne_nil (sep : Char) (s : List Char) : splitOn sep s ≠ [] := by
  cases s with
  | nil => simp [splitOn]
  | cons c cs =>
    unfold splitOn
    split
    · simp
    · split <;> simp

theorem splitOn_append (sep : Char) (w rest : List Char) (hw : sep ∉ w) :
    splitOn sep (w ++ sep :: rest) = w :: splitOn sep rest := by
  induction w with
  | nil => simp [splitOn]
  | cons c w ih =>
    rw [List.mem_cons, not_or] at hw
    rw [List.cons_append, splitOn, if_neg (fun h => hw.1 h.symm), ih hw.2]

theorem splitOn_noSep (sep : Char) (w : List Char) (hw : sep ∉ w) : splitOn sep w = [w] := by
  induction w with
  | nil => rfl
  | cons c w ih =>
    rw [List.mem_cons, not_or] at hw
    rw [splitOn, if_neg (fun h => hw.1 h.symm), ih hw.2]

/-- Splitting undoes joining when no word contains the separator. -/
theorem splitOn_join (sep : Char) (ws : List (List Char)) (hne : ws ≠ []) (h : ∀ w ∈ ws, sep ∉ w) :
    splitOn sep (join sep ws) = ws := by
  induction ws with
  | nil => exact absurd rfl hne
  | cons w ws ih =>
    cases ws with
    | nil => exact splitOn_noSep sep w (h w List.mem_cons_self)
    | cons v vs =>
      rw [join, splitOn_append sep w _ (h w List.mem_cons_self),
        ih (by simp) (fun x hx => h x (List.mem_cons_of_mem _ hx))]
      simp

/-- Joining undoes splitting. -/
theorem join_splitOn (sep : Char) (s : List Char) : join sep (splitOn sep s) = s := by
  induction s with
  | nil => rfl
  | cons c cs ih =>
    unfold splitOn
    by_cases hc : c = sep
    · rw [if_pos hc]
      cases hs : splitOn sep cs with
      | nil => exact absurd hs (splitOn_ne_nil sep cs)
      | cons w ws => rw [hs] at ih; rw [join, ih, hc]; simp; simp
    · rw [if_neg hc]
      cases hs : splitOn sep cs with
      | nil => exact absurd hs (splitOn_ne_nil sep cs)
      | cons w ws =>
        rw [hs] at ih
        cases ws with
        | nil => simp only [join] at ih ⊢; rw [ih]
        | cons v vs => simp only [join] at ih ⊢; rw [List.cons_append, ih]

theorem mem_join (sep c : Char) (ws : List (List Char)) (h : c ∈ join sep ws) : c = sep ∨ ∃ w ∈ ws, c ∈ w := by
  induction ws with
  | nil => simp [join] at h
  | cons w ws ih =>
    cases ws with
    | nil => exact Or.inr ⟨w, List.mem_cons_self, h⟩
    | cons v vs =>
      rw [join, List.mem_append, List.mem_cons] at h
      rcases h with h | h | h
      · exact Or.inr ⟨w, List.mem_cons_self, h⟩
      · exact Or.inl h
      · rcases ih h with h | ⟨x, hx, hc⟩
        · exact Or.inl h
        · exact Or.inr ⟨x, List.mem_cons_of_mem _ hx, hc⟩
      · simp

/-- The character of a decimal digit. -/
def digitChar (d : ℕ) : Char := Char.ofNat (48 + d)

/-- The value of a decimal digit. -/
def charDigit (c : Char) : Option ℕ :=
  if 48 ≤ c.toNat ∧ c.toNat ≤ 57 then some (c.toNat - 48) else none

theorem charDigit_digitChar (d : ℕ) (h : d < 10) : charDigit (digitChar d) = some d := by
  have : ∀ d < 10, charDigit (digitChar d) = some d := by decide
  exact this d h

/-- Decimal digits with `fuel` bounding their number. -/
def natDigits : ℕ → ℕ → List Char
  | 0, _ => []
  | fuel + 1, n => if n < 10 then [digitChar n] else natDigits fuel (n / 10) ++ [digitChar (n % 10)]

/-- `str(n)` for a natural number (library function of Python). -/
def showNat (n : ℕ) : List Char := natDigits (n + 1) n

/-- `str(z)` for an integer (library function of Python). -/
def showInt : ℤ → List Char
  | Int.ofNat n => showNat n
  | Int.negSucc n => '-' :: showNat (n + 1)

/-- Value of a list of digits, most significant first. -/
def parseDigits (acc : ℕ) : List Char → Option ℕ
  | [] => some acc
  | c :: cs => match charDigit c with
    | none => none
    | some d => parseDigits (10 * acc + d) cs

/-- `int(s)` for an optionally signed decimal number; `none` stands for `ValueError`. Simplification: Python also strips
surrounding whitespace and accepts `_` between digits and non-ASCII digits. -/
def parseInt : List Char → Option ℤ
  | [] => none
  | '-' :: cs => if cs = [] then none else (parseDigits 0 cs).map (fun n => -(n : ℤ))
  | '+' :: cs => if cs = [] then none else (parseDigits 0 cs).map (fun n => (n : ℤ))
  | cs => (parseDigits 0 cs).map (fun n => (n : ℤ))

theorem parseDigits_append (acc : ℕ) (s : List Char) (d : ℕ) (hd : d < 10) :
    parseDigits acc (s ++ [digitChar d]) = (parseDigits acc s).map (fun n => 10 * n + d) := by
  induction s generalizing acc with
  | nil => simp [parseDigits, charDigit_digitChar d hd]
  | cons c cs ih =>
    rw [List.cons_append, parseDigits, parseDigits]
    cases charDigit c with
    | none => rfl
    | some e => exact ih _

theorem parseDigits_natDigits (fuel n : ℕ) (h : n < fuel) : parseDigits 0 (natDigits fuel n) = some n := by
  induction fuel generalizing n with
  | zero => omega
  | succ fuel ih =>
    unfold natDigits
    split
    next hlt => simp [parseDigits, charDigit_digitChar n hlt]
    next hge =>
      rw [parseDigits_append _ _ _ (Nat.mod_lt _ (by omega)), ih (n / 10) (by omega)]
      simp only [Option.map_some, Option.some.injEq]
      omega

theorem natDigits_ne_nil (fuel n : ℕ) (h : n < fuel) : natDigits fuel n ≠ [] := by
  cases fuel with
  | zero => omega
  | succ fuel => unfold natDigits; split <;> simp

theorem mem_natDigits (fuel n : ℕ) (c : Char) (h : c ∈ natDigits fuel n) : ∃ d < 10, c = digitChar d := by
  induction fuel generalizing n with
  | zero => simp [natDigits] at h
  | succ fuel ih =>
    unfold natDigits at h
    split at h
    next hlt => rw [List.mem_singleton] at h; exact ⟨n, hlt, h⟩
    next =>
      rw [List.mem_append, List.mem_singleton] at h
      rcases h with h | h
      · exact ih _ h
      · exact ⟨n % 10, Nat.mod_lt _ (by omega), h⟩

theorem showNat_ne_nil (n : ℕ) : showNat n ≠ [] := natDigits_ne_nil _ _ (Nat.lt_succ_self n)

/-- The characters of a decimal number. -/
theorem mem_showNat (n : ℕ) (c : Char) (h : c ∈ showNat n) :
    c ∈ ['0', '1', '2', '3', '4', '5', '6', '7', '8', '9'] := by
  obtain ⟨d, hd, rfl⟩ := mem_natDigits _ _ _ h
  have : ∀ d < 10, digitChar d ∈ ['0', '1', '2', '3', '4', '5', '6', '7', '8', '9'] := by decide
  exact this d hd

theorem mem_showInt (z : ℤ) (c : Char) (h : c ∈ showInt z) :
    c ∈ ['-', '0', '1', '2', '3', '4', '5', '6', '7', '8', '9'] := by
  cases z with
  | ofNat n => exact List.mem_cons_of_mem _ (mem_showNat n c h)
  | negSucc n =>
    rcases List.mem_cons.1 h with h | h
    · rw [h]; exact List.mem_cons_self
    · exact List.mem_cons_of_mem _ (mem_showNat _ c h)

theorem parseInt_showNat (n : ℕ) : parseInt (showNat n) = some (n : ℤ) := by
  have hp := parseDigits_natDigits (n + 1) n (Nat.lt_succ_self n)
  change parseDigits 0 (showNat n) = some n at hp
  cases hs : showNat n with
  | nil => exact absurd hs (showNat_ne_nil n)
  | cons c cs =>
    have hc := mem_showNat n c (hs ▸ List.mem_cons_self)
    have h1 : c ≠ '-' := by rintro rfl; revert hc; decide
    have h2 : c ≠ '+' := by rintro rfl; revert hc; decide
    rw [hs] at hp
    unfold parseInt
    split
    · next h => cases h
    · next h => cases h; exact absurd rfl h1
    · next h => cases h; exact absurd rfl h2
    · rw [hp]; rfl

/-- `int(str(z)) == z`. -/
theorem parseInt_showInt (z : ℤ) : parseInt (showInt z) = some z := by
  cases z with
  | ofNat n => exact parseInt_showNat n
  | negSucc n =>
    have hp := parseDigits_natDigits (n + 2) (n + 1) (Nat.lt_succ_self _)
    change parseDigits 0 (showNat (n + 1)) = some (n + 1) at hp
    unfold showInt parseInt
    simp only [showNat_ne_nil, if_false, hp]
    rfl

theorem showInt_injective (a b : ℤ) (h : showInt a = showInt b) : a = b := by
  have ha := parseInt_showInt a
  rw [h, parseInt_showInt b] at ha
  exact (Option.some.inj ha).symm

theorem showInt_ne_nil (z : ℤ) : showInt z ≠ [] := by
  cases z with
  | ofNat n => exact showNat_ne_nil n
  | negSucc n => simp [showInt]

end Verif.Text
