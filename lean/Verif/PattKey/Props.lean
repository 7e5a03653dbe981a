import Verif.PattKey.Model
import Verif.Concat.Lemmas
import Mathlib.Data.List.Nodup

/-!
# Keys identify trees (C64)
-/

set_option autoImplicit false
set_option linter.unusedSectionVars false

namespace Verif.PattKey

open Verif.PTree Verif.Concat Verif.Text

/-- What may follow a number: nothing, or a character that is not a digit. -/
def Stop (s : List Char) : Prop := ∀ c ∈ s.head?, c ∉ ['0', '1', '2', '3', '4', '5', '6', '7', '8', '9']

theorem digits_prefix : ∀ (u v s s' : List Char), (∀ c ∈ u, c ∈ ['0', '1', '2', '3', '4', '5', '6', '7', '8', '9']) →
    (∀ c ∈ v, c ∈ ['0', '1', '2', '3', '4', '5', '6', '7', '8', '9']) → Stop s → Stop s' → u ++ s = v ++ s' → u = v ∧ s = s'
  | [], [], _, _, _, _, _, _, h => ⟨rfl, h⟩
  | [], c :: v, s, s', _, hv, hs, _, h => by
    simp only [List.nil_append, List.cons_append] at h
    rw [h] at hs
    exact absurd (hv c List.mem_cons_self) (hs c (by simp))
  | c :: u, [], s, s', hu, _, _, hs', h => by
    simp only [List.nil_append, List.cons_append] at h
    rw [← h] at hs'
    exact absurd (hu c List.mem_cons_self) (hs' c (by simp))
  | c :: u, d :: v, s, s', hu, hv, hs, hs', h => by
    simp only [List.cons_append, List.cons.injEq] at h
    obtain ⟨a, b⟩ := digits_prefix u v s s' (fun x hx => hu x (List.mem_cons_of_mem _ hx)) (fun x hx => hv x (List.mem_cons_of_mem _ hx)) hs hs' h.2
    exact ⟨by rw [h.1, a], b⟩

theorem showNat_prefix (m n : ℕ) (s s' : List Char) (hs : Stop s) (hs' : Stop s') (h : showNat m ++ s = showNat n ++ s') : m = n ∧ s = s' := by
  obtain ⟨a, b⟩ := digits_prefix _ _ s s' (mem_showNat m) (mem_showNat n) hs hs' h
  refine ⟨?_, b⟩
  have h1 := parseInt_showNat m
  rw [a, parseInt_showNat n] at h1
  simp only [Option.some.injEq, Int.natCast_inj] at h1
  exact h1.symm

theorem showNat_head (n : ℕ) : ∃ c cs, showNat n = c :: cs ∧ c ∈ ['0', '1', '2', '3', '4', '5', '6', '7', '8', '9'] := by
  cases h : showNat n with
  | nil => exact absurd h (showNat_ne_nil n)
  | cons c cs => exact ⟨c, cs, rfl, mem_showNat n c (by rw [h]; exact List.mem_cons_self)⟩

theorem showInt_head (z : ℤ) : ∃ c cs, showInt z = c :: cs ∧ c ∈ ['-', '0', '1', '2', '3', '4', '5', '6', '7', '8', '9'] := by
  cases h : showInt z with
  | nil => exact absurd h (showInt_ne_nil z)
  | cons c cs => exact ⟨c, cs, rfl, mem_showInt z c (by rw [h]; exact List.mem_cons_self)⟩

theorem showInt_prefix (a b : ℤ) (s s' : List Char) (hs : Stop s) (hs' : Stop s') (h : showInt a ++ s = showInt b ++ s') : a = b ∧ s = s' := by
  cases a with
  | ofNat m =>
    cases b with
    | ofNat n =>
      obtain ⟨h1, h2⟩ := showNat_prefix m n s s' hs hs' h
      exact ⟨by rw [h1], h2⟩
    | negSucc n =>
      obtain ⟨c, cs, h1, h2⟩ := showNat_head m
      simp only [showInt, h1, List.cons_append, List.cons.injEq] at h
      rw [h.1] at h2
      exact absurd h2 (by decide)
  | negSucc m =>
    cases b with
    | ofNat n =>
      obtain ⟨c, cs, h1, h2⟩ := showNat_head n
      simp only [showInt, h1, List.cons_append, List.cons.injEq] at h
      rw [← h.1] at h2
      exact absurd h2 (by decide)
    | negSucc n =>
      simp only [showInt, List.cons_append, List.cons.injEq, true_and] at h
      obtain ⟨h1, h2⟩ := showNat_prefix _ _ s s' hs hs' h
      exact ⟨by rw [Nat.succ.inj h1], h2⟩

theorem stop_cons {c : Char} {s : List Char} (h : c ∉ ['0', '1', '2', '3', '4', '5', '6', '7', '8', '9']) : Stop (c :: s) := by
  intro x hx
  simp only [List.head?_cons, Option.mem_def, Option.some.injEq] at hx
  rw [← hx]; exact h

theorem rpKey_prefix (r r' : ℕ) (p p' : ℤ) (s s' : List Char) (h : rpKey r p ++ s = rpKey r' p' ++ s') : r = r' ∧ p = p' ∧ s = s' := by
  simp only [rpKey, List.cons_append, List.append_assoc, List.cons.injEq, true_and, List.nil_append] at h
  obtain ⟨h1, h2⟩ := showNat_prefix _ _ _ _ (stop_cons (by decide)) (stop_cons (by decide)) h
  simp only [List.cons.injEq, true_and] at h2
  obtain ⟨h3, h4⟩ := showInt_prefix _ _ _ _ (stop_cons (by decide)) (stop_cons (by decide)) h2
  simp only [List.cons.injEq, true_and] at h4
  exact ⟨h1, h3, h4⟩

theorem pattKey_head (t : PTree.Tree ℤ) : ∃ c cs, pattKey t = c :: cs ∧ c ∈ ['[', '-', '0', '1', '2', '3', '4', '5', '6', '7', '8', '9'] := by
  cases t with
  | leaf ev =>
    obtain ⟨c, cs, h1, h2⟩ := showInt_head ev
    exact ⟨c, cs, by rw [pattKey, h1], List.mem_cons_of_mem _ h2⟩
  | node r p ch => exact ⟨'[', _, by rw [pattKey, rpKey]; rfl, by decide⟩

theorem stop_pattKeyF (F : Forest ℤ) (s : List Char) (hs : Stop s) : Stop (pattKeyF false F ++ s) := by
  cases F with
  | nil => simpa [pattKeyF] using hs
  | cons d t rest =>
    simp only [pattKeyF, Bool.false_eq_true, if_false, List.cons_append]
    exact stop_cons (by decide)

/-- What may follow the children of a node. -/
def Close (s : List Char) : Prop := ∃ s0, s = ')' :: s0

theorem Close.stop {s : List Char} (h : Close s) : Stop s := by
  obtain ⟨s0, rfl⟩ := h
  exact stop_cons (by decide)

mutual
theorem pattKey_prefix : ∀ (t t' : PTree.Tree ℤ), t.Regular → t'.Regular → ∀ s s', Stop s → Stop s' → pattKey t ++ s = pattKey t' ++ s' → t = t' ∧ s = s'
  | .leaf a, .leaf b, _, _, s, s', hs, hs', h => by
    obtain ⟨h1, h2⟩ := showInt_prefix a b s s' hs hs' h
    exact ⟨by rw [h1], h2⟩
  | .leaf a, .node r p ch, _, _, s, s', _, _, h => by
    obtain ⟨c, cs, h1, h2⟩ := showInt_head a
    simp only [pattKey, rpKey, h1, List.cons_append, List.cons.injEq] at h
    rw [h.1] at h2
    exact absurd h2 (by decide)
  | .node r p ch, .leaf a, _, _, s, s', _, _, h => by
    obtain ⟨c, cs, h1, h2⟩ := showInt_head a
    simp only [pattKey, rpKey, h1, List.cons_append, List.cons.injEq] at h
    rw [← h.1] at h2
    exact absurd h2 (by decide)
  | .node r p ch, .node r' p' ch', hr, hr', s, s', hs, hs', h => by
    simp only [pattKey, List.append_assoc] at h
    obtain ⟨h1, h2, h3⟩ := rpKey_prefix r r' p p' _ _ h
    simp only [List.cons_append, List.cons.injEq, true_and, List.append_assoc, List.nil_append] at h3
    obtain ⟨-, -, d, hreg⟩ := hr
    obtain ⟨-, -, d', hreg'⟩ := hr'
    obtain ⟨h4, h5⟩ := pattKeyF_prefix ch ch' hreg hreg' true (fun _ => by rw [d, d']) _ _ ⟨s, rfl⟩ ⟨s', rfl⟩ h3
    simp only [List.cons.injEq, true_and] at h5
    exact ⟨by rw [h1, h2, h4], h5⟩
theorem pattKeyF_prefix : ∀ (F F' : Forest ℤ), F.Regular → F'.Regular → ∀ first, (first = true → F.firstDist = F'.firstDist) → ∀ s s', Close s → Close s' →
    pattKeyF first F ++ s = pattKeyF first F' ++ s' → F = F' ∧ s = s'
  | .nil, .nil, _, _, _, _, s, s', _, _, h => ⟨rfl, h⟩
  | .nil, .cons d t rest, _, _, first, _, s, s', hs, _, h => by
    exfalso
    obtain ⟨s0, rfl⟩ := hs
    cases first with
    | true =>
      obtain ⟨c, cs, h1, h2⟩ := pattKey_head t
      simp only [pattKeyF, h1, List.nil_append, if_true, List.cons_append, List.cons.injEq] at h
      rw [← h.1] at h2
      exact absurd h2 (by decide)
    | false =>
      simp only [pattKeyF, Bool.false_eq_true, if_false, List.cons_append, List.nil_append, List.cons.injEq] at h
      exact absurd h.1 (by decide)
  | .cons d t rest, .nil, _, _, first, _, s, s', _, hs', h => by
    exfalso
    obtain ⟨s0, rfl⟩ := hs'
    cases first with
    | true =>
      obtain ⟨c, cs, h1, h2⟩ := pattKey_head t
      simp only [pattKeyF, h1, List.nil_append, if_true, List.cons_append, List.cons.injEq] at h
      rw [h.1] at h2
      exact absurd h2 (by decide)
    | false =>
      simp only [pattKeyF, Bool.false_eq_true, if_false, List.cons_append, List.nil_append, List.cons.injEq] at h
      exact absurd h.1 (by decide)
  | .cons d t rest, .cons d' t' rest', hr, hr', first, hd, s, s', hs, hs', h => by
    obtain ⟨ht, hrest⟩ := hr
    obtain ⟨ht', hrest'⟩ := hr'
    have key : ∀ x x' : List Char, pattKey t ++ (pattKeyF false rest ++ s) = pattKey t' ++ (pattKeyF false rest' ++ s') → t = t' ∧ rest = rest' ∧ s = s' := by
      intro _ _ h
      obtain ⟨h1, h2⟩ := pattKey_prefix t t' ht ht' _ _ (stop_pattKeyF rest s hs.stop) (stop_pattKeyF rest' s' hs'.stop) h
      obtain ⟨h3, h4⟩ := pattKeyF_prefix rest rest' hrest hrest' false (by simp) s s' hs hs' h2
      exact ⟨h1, h3, h4⟩
    cases first with
    | true =>
      simp only [pattKeyF, if_true, List.nil_append, List.append_assoc] at h
      obtain ⟨h1, h2, h3⟩ := key [] [] h
      have := hd rfl
      simp only [Forest.firstDist] at this
      exact ⟨by rw [h1, h2, this], h3⟩
    | false =>
      simp only [pattKeyF, Bool.false_eq_true, if_false, List.cons_append, List.append_assoc, List.nil_append, List.cons.injEq, true_and] at h
      obtain ⟨h0, h⟩ := showInt_prefix d d' _ _ (stop_cons (by decide)) (stop_cons (by decide)) h
      simp only [List.cons.injEq, true_and] at h
      obtain ⟨h1, h2, h3⟩ := key [] [] h
      exact ⟨by rw [h0, h1, h2], h3⟩
end

theorem stop_minorF (F : Forest ℤ) : Stop (minorF false F) := by
  cases F with
  | nil => intro c hc; simp [minorF] at hc
  | cons d t rest =>
    simp only [minorF, Bool.false_eq_true, if_false, List.cons_append]
    exact stop_cons (by decide)

theorem minorF_inj : ∀ (F F' : Forest ℤ), F.Regular → F'.Regular → ∀ first, (first = true → F.firstDist = F'.firstDist) → minorF first F = minorF first F' → F = F'
  | .nil, .nil, _, _, _, _, _ => rfl
  | .nil, .cons d t rest, _, _, first, _, h => by
    exfalso
    cases first with
    | true =>
      obtain ⟨c, cs, h1, h2⟩ := pattKey_head t
      simp [minorF, h1] at h
    | false => simp [minorF] at h
  | .cons d t rest, .nil, _, _, first, _, h => by
    exfalso
    cases first with
    | true =>
      obtain ⟨c, cs, h1, h2⟩ := pattKey_head t
      simp [minorF, h1] at h
    | false => simp [minorF] at h
  | .cons d t rest, .cons d' t' rest', hr, hr', first, hd, h => by
    obtain ⟨ht, hrest⟩ := hr
    obtain ⟨ht', hrest'⟩ := hr'
    cases first with
    | true =>
      simp only [minorF, if_true, List.nil_append] at h
      obtain ⟨h1, h2⟩ := pattKey_prefix t t' ht ht' _ _ (stop_minorF rest) (stop_minorF rest') h
      have h3 := minorF_inj rest rest' hrest hrest' false (by simp) h2
      have := hd rfl
      simp only [Forest.firstDist] at this
      rw [h1, h3, this]
    | false =>
      simp only [minorF, Bool.false_eq_true, if_false, List.cons_append, List.append_assoc, List.nil_append, List.cons.injEq, true_and] at h
      obtain ⟨h0, h⟩ := showInt_prefix d d' _ _ (stop_cons (by decide)) (stop_cons (by decide)) h
      simp only [List.cons.injEq, true_and] at h
      obtain ⟨h1, h2⟩ := pattKey_prefix t t' ht ht' _ _ (stop_minorF rest) (stop_minorF rest') h
      have h3 := minorF_inj rest rest' hrest hrest' false (by simp) h2
      rw [h0, h1, h3]

/-! ### The theorems -/

/-- C64. Two patterns with the same key are the same. -/
theorem pattKey_injective (t t' : PTree.Tree ℤ) (ht : t.Regular) (ht' : t'.Regular) (h : pattKey t = pattKey t') : t = t' :=
  (pattKey_prefix t t' ht ht' [] [] (by intro c hc; simp at hc) (by intro c hc; simp at hc) (by simpa using h)).1

/-- C64. Two patterns with the same minor key have the same children under the root. -/
theorem pattMinorKey_injective (r r' : ℕ) (p p' : ℤ) (F F' : Forest ℤ) (ht : (PTree.Tree.node r p F).Regular) (ht' : (PTree.Tree.node r' p' F').Regular)
    (h : pattMinorKey (.node r p F) = pattMinorKey (.node r' p' F')) : F = F' :=
  minorF_inj F F' ht.2.2.2 ht'.2.2.2 true (fun _ => by rw [ht.2.2.1, ht'.2.2.1]) h

/-- C64. Candidates of a pool with the same minor key, simple cycles or patterns, have the same children under the root: this is what nesting needs (C62). -/
theorem minorKey_children (c c' : AnyCand) (hd : c.toCand.tree.Regular) (hd' : c'.toCand.tree.Regular) (h : c.minorKey = c'.minorKey) : c.toCand.ch = c'.toCand.ch := by
  cases c with
  | cycle a p O E =>
    cases c' with
    | cycle a' p' O' E' =>
      simp only [AnyCand.minorKey, Sum.inl.injEq] at h
      simp only [AnyCand.toCand, h]
    | pattern c' => cases h
  | pattern c =>
    cases c' with
    | cycle a' p' O' E' => cases h
    | pattern c' =>
      simp only [AnyCand.minorKey, Sum.inr.injEq] at h
      exact pattMinorKey_injective c.r c'.r c.p c'.p c.ch c'.ch hd hd' h

/-- C64. Candidates with the same minor and major keys, which the pool takes for duplicates (C52), have the same tree and the same first time. -/
theorem keys_identify_partial (c c' : AnyCand) (hd : Describes c.toCand) (hd' : Describes c'.toCand) (h : c.minorKey = c'.minorKey) (hM : c.majorKey = c'.majorKey) :
    c.toCand.tree = c'.toCand.tree ∧ c.toCand.O.head? = c'.toCand.O.head? := by
  have hch := minorKey_children c c' hd.1 hd'.1 h
  have hr : ∀ (c : AnyCand), c.majorKey = c.toCand.O.head?.map (fun t0 => (t0, rpKey c.toCand.r c.toCand.p)) := by
    intro c
    cases c <;> rfl
  rw [hr, hr] at hM
  obtain ⟨-, -, -, t0, h0, -⟩ := hd
  obtain ⟨-, -, -, t0', h0', -⟩ := hd'
  rw [h0, h0'] at hM ⊢
  simp only [Option.map_some, Option.some.injEq, Prod.mk.injEq] at hM
  obtain ⟨h1, h2, -⟩ := rpKey_prefix c.toCand.r c'.toCand.r c.toCand.p c'.toCand.p [] [] (by rw [hM.2])
  exact ⟨by rw [Cand.tree, Cand.tree, h1, h2, hch], by rw [hM.1]⟩

/-- Two cycles with the same first time, period and length. -/
def exA : AnyCand := .cycle 4 10 [0, 10, 20] [0, 0]
/-- See `exA`. -/
def exB : AnyCand := .cycle 4 10 [0, 10, 21] [0, 1]

theorem ex_describes : Describes exA.toCand ∧ Describes exB.toCand :=
  ⟨⟨by simp [exA, AnyCand.toCand, Cand.tree, Tree.Regular, Forest.Regular, Forest.NonEmpty, Forest.firstDist], by decide, by decide, 0, by decide, by decide⟩,
    ⟨by simp [exB, AnyCand.toCand, Cand.tree, Tree.Regular, Forest.Regular, Forest.NonEmpty, Forest.firstDist], by decide, by decide, 0, by decide, by decide⟩⟩

/-- C64 fails for occurrences: two candidates with the same keys, hence taken for duplicates, describe different occurrences. -/
theorem keys_other_occurrences : Describes exA.toCand ∧ Describes exB.toCand ∧ exA.minorKey = exB.minorKey ∧ exA.majorKey = exB.majorKey ∧ exA.toCand.O ≠ exB.toCand.O :=
  ⟨ex_describes.1, ex_describes.2, rfl, rfl, by decide⟩

/-- The same cycle given as a cycle and as a pattern has two keys. -/
theorem keys_not_canonical : (AnyCand.pattern exA.toCand).toCand = exA.toCand ∧ (AnyCand.pattern exA.toCand).minorKey ≠ exA.minorKey := ⟨rfl, by intro h; cases h⟩

/-- A pattern of depth 2 with a negative distance. -/
def exT : PTree.Tree ℤ := .node 3 10 (.cons 0 (.leaf 4) (.cons (-2) (.node 2 1 (.cons 0 (.leaf 12) .nil)) .nil))

example : exT.Regular := by simp [exT, Tree.Regular, Forest.Regular, Forest.NonEmpty, Forest.firstDist]
example : String.ofList (pattKey exT) = "[3,10](4--2-[2,1](12))" := by decide +kernel
example : String.ofList (pattMinorKey exT) = "4-[-2]-[2,1](12)" := by decide +kernel

end Verif.PattKey
