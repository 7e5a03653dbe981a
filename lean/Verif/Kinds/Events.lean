import Verif.Kinds.Props

/-!
# Events of a pattern (C76): the list without repeats, the main period
-/

set_option autoImplicit false
set_option linter.unusedSectionVars false

namespace Verif.Kinds

open Verif.PTree

variable {α : Type}

/-! ### Specification -/

mutual
/-- The pattern with every cycle run once. -/
def once : PTree.Tree α → PTree.Tree α
  | .leaf a => .leaf a
  | .node _ p ch => .node 1 p (onceF ch)
/-- The same for the children. -/
def onceF : Forest α → Forest α
  | .nil => .nil
  | .cons d t rest => .cons d (once t) (onceF rest)
end

mutual
/-- The same nesting of the same events: repetitions, periods and distances may differ. -/
def SameNest : PTree.Tree α → PTree.Tree α → Prop
  | .leaf a, .leaf b => a = b
  | .node _ _ ch, .node _ _ ch' => SameNestF ch ch'
  | _, _ => False
/-- The same for the children. -/
def SameNestF : Forest α → Forest α → Prop
  | .nil, .nil => True
  | .cons _ t rest, .cons _ t' rest' => SameNest t t' ∧ SameNestF rest rest'
  | _, _ => False
end

/-! ### The list of events -/

mutual
theorem eventsList_once : ∀ (t : PTree.Tree α) (time : ℤ), eventsList false t = ((gen (once t) time).map Prod.snd).map Token.ev
  | .leaf _, _ => rfl
  | .node _ p ch, time => by
    rw [eventsList, once, gen, if_neg (by simp), eventsListF_once ch time]
    simp [List.range_succ]
theorem eventsListF_once : ∀ (ch : Forest α) (time : ℤ), eventsListF false ch = ((genF (onceF ch) time).map Prod.snd).map Token.ev
  | .nil, _ => rfl
  | .cons d t rest, time => by
    rw [eventsListF, onceF, genF, eventsList_once t (time + d), eventsListF_once rest (time + d), List.map_append, List.map_append]
end

theorem eventsListF_head (ch : Forest α) (x : List (Token α)) : ch = .nil ∨ ∃ tok l, eventsListF true ch ++ x = tok :: l ∧ tok ≠ .close := by
  cases ch with
  | nil => exact .inl rfl
  | cons d t rest =>
    refine .inr ?_
    cases t with
    | leaf a => exact ⟨.ev a, _, by rw [eventsListF, eventsList]; rfl, by simp⟩
    | node r p c => exact ⟨.open, _, by rw [eventsListF, eventsList, if_pos rfl]; rfl, by simp⟩

mutual
theorem eventsList_read : ∀ (t t' : PTree.Tree α) (x y : List (Token α)), eventsList true t ++ x = eventsList true t' ++ y → SameNest t t' ∧ x = y
  | .leaf a, .leaf b, x, y, h => by
    simp only [eventsList, List.cons_append, List.nil_append, List.cons.injEq, Token.ev.injEq] at h
    exact h
  | .leaf a, .node r p ch, x, y, h => by simp [eventsList] at h
  | .node r p ch, .leaf a, x, y, h => by simp [eventsList] at h
  | .node r p ch, .node r' p' ch', x, y, h => by
    simp only [eventsList, if_true, List.cons_append, List.append_assoc, List.nil_append, List.cons.injEq, true_and] at h
    exact eventsListF_read ch ch' x y h
theorem eventsListF_read : ∀ (ch ch' : Forest α) (x y : List (Token α)), eventsListF true ch ++ Token.close :: x = eventsListF true ch' ++ Token.close :: y → SameNestF ch ch' ∧ x = y
  | .nil, .nil, x, y, h => by
    simp only [eventsListF, List.nil_append, List.cons.injEq, true_and] at h
    exact ⟨trivial, h⟩
  | .nil, .cons d t rest, x, y, h => by
    obtain h1 | ⟨tok, l, h1, h2⟩ := eventsListF_head (.cons d t rest) (Token.close :: y)
    · cases h1
    · rw [h1] at h
      simp only [eventsListF, List.nil_append, List.cons.injEq] at h
      exact absurd h.1.symm h2
  | .cons d t rest, .nil, x, y, h => by
    obtain h1 | ⟨tok, l, h1, h2⟩ := eventsListF_head (.cons d t rest) (Token.close :: x)
    · cases h1
    · rw [h1] at h
      simp only [eventsListF, List.nil_append, List.cons.injEq] at h
      exact absurd h.1 h2
  | .cons d t rest, .cons d' t' rest', x, y, h => by
    simp only [eventsListF, List.append_assoc] at h
    obtain ⟨h1, h2⟩ := eventsList_read t t' _ _ h
    obtain ⟨h3, h4⟩ := eventsListF_read rest rest' x y h2
    exact ⟨⟨h1, h3⟩, h4⟩
end

mutual
theorem eventsList_same : ∀ (t t' : PTree.Tree α), SameNest t t' → eventsList true t = eventsList true t'
  | .leaf a, .leaf b, h => by rw [eventsList, eventsList, show a = b from h]
  | .leaf a, .node r p ch, h => h.elim
  | .node r p ch, .leaf a, h => h.elim
  | .node r p ch, .node r' p' ch', h => by rw [eventsList, eventsList, eventsListF_same ch ch' h]
theorem eventsListF_same : ∀ (ch ch' : Forest α), SameNestF ch ch' → eventsListF true ch = eventsListF true ch'
  | .nil, .nil, _ => rfl
  | .nil, .cons d t rest, h => h.elim
  | .cons d t rest, .nil, h => h.elim
  | .cons d t rest, .cons d' t' rest', h => by rw [eventsListF, eventsListF, eventsList_same t t' h.1, eventsListF_same rest rest' h.2]
end

/-- C76. Without delimiters, `getEventsList` lists the events in the order in which they occur when every cycle runs once. -/
theorem events_without_repeats (t : PTree.Tree α) (time : ℤ) : eventsList false t = (gen (once t) time).map (fun x => Token.ev x.2) := by
  rw [eventsList_once t time, List.map_map]
  rfl

/-- C76. With delimiters, `getEventsList` tells the nesting of the events, and nothing else: two patterns have the same list exactly if they have the same events in the same nesting. -/
theorem events_nesting (t t' : PTree.Tree α) : eventsList true t = eventsList true t' ↔ SameNest t t' :=
  ⟨fun h => (eventsList_read t t' [] [] (by rw [h])).1, eventsList_same t t'⟩

/-! ### The main period -/

mutual
theorem gen_head : ∀ (t : PTree.Tree α), t.Regular → ∀ time : ℤ, (gen t time)[0]?.map Prod.fst = some time
  | .leaf _, _, _ => rfl
  | .node r p ch, h, time => by
    obtain ⟨h1, h2, h3, h4⟩ := h
    obtain ⟨n, rfl⟩ : ∃ n, r = n + 1 := ⟨r - 1, by omega⟩
    rw [gen, List.range_succ_eq_map, List.flatMap_cons, List.getElem?_append_left]
    · have := genF_head ch h4 h2 (time + ((0 : ℕ) : ℤ) * p)
      rw [this, h3]
      simp
    · rw [length_genF]
      exact nbOccsF_pos ch h4 h2
theorem genF_head : ∀ (ch : Forest α), ch.Regular → ch.NonEmpty → ∀ time : ℤ, (genF ch time)[0]?.map Prod.fst = some (time + ch.firstDist)
  | .nil, _, h, _ => h.elim
  | .cons d t rest, h, _, time => by
    rw [genF, List.getElem?_append_left]
    · exact gen_head t h.1 (time + d)
    · rw [length_gen]
      exact nbOccs_pos t h.1
end

theorem getElem?_blocks {β : Type} (n r : ℕ) (hn : 1 ≤ n) (f : ℕ → List β) (hf : ∀ i, (f i).length = n) : ∀ i < r, ((List.range r).flatMap f)[i * n]? = (f i)[0]? := by
  have hlen : ∀ k, ((List.range k).flatMap f).length = k * n := by
    intro k
    induction k with
    | zero => simp
    | succ k ih => rw [List.range_succ, List.flatMap_append, List.length_append, ih, Nat.succ_mul]; simp [hf]
  induction r with
  | zero => simp
  | succ r ih =>
    intro i hi
    rw [List.range_succ, List.flatMap_append]
    by_cases h : i < r
    · rw [List.getElem?_append_left (by rw [hlen]; exact (Nat.mul_lt_mul_right (by omega)).2 h), ih i h]
    · obtain rfl : i = r := by omega
      rw [List.getElem?_append_right (by rw [hlen]), hlen, Nat.sub_self]
      simp

/-- C76. Before corrections, the main timestamps follow each other at the period of the root. -/
theorem major_period (r : ℕ) (p : ℤ) (ch : Forest α) (h : (PTree.Tree.node r p ch).Regular) (time : ℤ) :
    majorOccs (.node r p ch) ((gen (PTree.Tree.node r p ch) time).map Prod.fst) = some ((List.range r).map (fun k : ℕ => time + k * rootP (PTree.Tree.node r p ch))) := by
  obtain ⟨out, h1, h2, h3⟩ := major_first r p ch h ((gen (PTree.Tree.node r p ch) time).map Prod.fst) (by rw [List.length_map, length_gen])
  rw [h1]
  congr 1
  apply List.ext_getElem?
  intro i
  by_cases hi : i < r
  · rw [h3 i hi, List.getElem?_map, gen, getElem?_blocks (nbOccsF ch) r (nbOccsF_pos ch h.2.2.2 h.2.1) _ (fun i => length_genF ch _) i hi, genF_head ch h.2.2.2 h.2.1, h.2.2.1]
    simp [hi, rootP]
  · rw [List.getElem?_eq_none (by omega), List.getElem?_eq_none (by simp; omega)]

/-! ### Cases -/

/-- An event, then a cycle over another one. -/
def exNest : PTree.Tree ℕ := .node 3 50 (.cons 0 (.leaf 7) (.cons 2 (.node 2 5 (.cons 0 (.leaf 1) .nil)) .nil))

example : eventsList false exNest = [.ev 7, .ev 1] := rfl
example : eventsList true exNest = [.open, .ev 7, .open, .ev 1, .close, .close] := rfl
example : ¬ SameNest exNest (.node 3 50 (.cons 0 (.leaf 7) (.cons 2 (.leaf 1) .nil))) := by simp [exNest, SameNest, SameNestF]
example : majorOccs exNest ((gen exNest 4).map Prod.fst) = some [4, 54, 104] := by decide

end Verif.Kinds
