import Verif.Outline.Spec
import Verif.Nodes.TreeLemmas
import Verif.Nodes.DictLemmas
import Verif.PattKey.Props

/-!
# The outline of a pattern (C153)
-/

set_option autoImplicit false
set_option linter.unusedSectionVars false

namespace Verif.Outline

open Verif.Nodes Verif.Text Verif.PattKey

variable {α : Type}

/-! ### The text has the lines -/

theorem textOf_cons (x : ℕ × List Char) (ls : List (ℕ × List Char)) : textOf (x :: ls) = List.replicate x.1 '\t' ++ x.2 ++ ['\n'] ++ textOf ls := rfl

theorem textOf_append (a b : List (ℕ × List Char)) : textOf (a ++ b) = textOf a ++ textOf b := by simp [textOf]

mutual
theorem treeStr_of {ns : NodeDict α} (hk : Keyed ns) (ev : α → List Char) : ∀ (t : NTree α) (q : Option ℕ), (∀ x ∈ t.entries q, x ∈ ns) → Filled t → ∀ f L, t.ids.length ≤ f →
    treeStr ns ev f t.id L none = some (textOf (lines ev t L))
  | .leaf id e, q, hin, _, f, L, hf => by
    cases f with
    | zero => exact absurd hf (by simp [NTree.ids])
    | succ f =>
      have h := (lookup_some hk).2 (hin (id, .leaf q e) (by simp [NTree.entries]))
      simp only [treeStr, NTree.id, h]
      simp [lines, textOf, leafLine, tabs]
  | .node id rp ch, q, hin, ho, f, L, hf => by
    cases f with
    | zero => exact absurd hf (by simp [NTree.ids])
    | succ f =>
      have h := (lookup_some hk).2 (hin (id, .inner q rp ch.kids) (by simp [NTree.entries]))
      obtain ⟨h1, -, h3⟩ := ho
      obtain ⟨⟨r, p⟩, rfl⟩ := Option.isSome_iff_exists.1 h1
      obtain ⟨parts, h4, h5⟩ := treeStrF_of hk ev ch (some id) (fun x hx => hin x (by simp [NTree.entries, hx])) h3 f (L + 1) (by simpa [NTree.ids] using hf)
      simp only [treeStr, NTree.id, h, h4, Option.map_some, h5]
      simp [lines, textOf_cons, innerLine, tabs]
theorem treeStrF_of {ns : NodeDict α} (hk : Keyed ns) (ev : α → List Char) : ∀ (F : NForest α) (q : Option ℕ), (∀ x ∈ F.entries q, x ∈ ns) → FilledF F → ∀ f L, F.ids.length ≤ f →
    ∃ parts, F.kids.mapM (fun nn => (treeStr ns ev f nn.1 L none).map (fun s => tabs L ++ '|' :: ' ' :: 'd' :: '=' :: (showInt nn.2 ++ '\n' :: s))) = some parts ∧ parts.flatten = textOf (linesF ev F L)
  | .nil, _, _, _, f, L, _ => ⟨[], rfl, rfl⟩
  | .cons d t rest, q, hin, ho, f, L, hf => by
    simp only [NForest.ids, List.length_append] at hf
    have h1 := treeStr_of hk ev t q (fun x hx => hin x (by simp [NForest.entries, hx])) ho.1 f L (by omega)
    obtain ⟨parts, h2, h3⟩ := treeStrF_of hk ev rest q (fun x hx => hin x (by simp [NForest.entries, hx])) ho.2 f L (by omega)
    refine ⟨(tabs L ++ '|' :: ' ' :: 'd' :: '=' :: (showInt d ++ '\n' :: textOf (lines ev t L))) :: parts, ?_, ?_⟩
    · simp only [NForest.kids, List.mapM_cons, h1, h2]
      rfl
    · simp [h3, linesF, textOf_cons, textOf_append, distLine, tabs]
end

theorem describes_length {ns : NodeDict α} {t : NTree α} (h : Describes ns t) : t.ids.length = ns.length := by
  have h1 : ns.Nodup := List.Nodup.of_map _ h.keys
  have h2 : (t.entries none).Nodup := List.Nodup.of_map Prod.fst (by rw [NTree.entries_keys]; exact h.ids)
  have h3 := ((List.perm_ext_iff_of_nodup h1 h2).2 h.same).length_eq
  rw [h3, ← NTree.entries_keys t none, List.length_map]

/-- C153. The text has one line for every node and one for every distance, in the order of the tree, indented by depth. -/
theorem outline_lines {ns : NodeDict α} {t : NTree α} (h : Describes ns t) (ho : Filled t) (ev : α → List Char) (level : ℕ) : getTreeStr ns ev 0 level none = some (textOf (lines ev t level)) := by
  have h1 := treeStr_of h.keys ev t none (fun x hx => (h.same x).2 hx) ho ns.length level (by rw [describes_length h])
  obtain ⟨rp, ch, rfl⟩ := h.root
  exact h1

/-! ### Reading the lines -/

theorem newline_prefix : ∀ (u v s s' : List Char), '\n' ∉ u → '\n' ∉ v → u ++ '\n' :: s = v ++ '\n' :: s' → u = v ∧ s = s'
  | [], [], _, _, _, _, h => ⟨rfl, (List.cons.inj h).2⟩
  | [], c :: v, _, _, _, hv, h => absurd (by rw [(List.cons.inj h).1]; exact List.mem_cons_self) hv
  | c :: u, [], _, _, hu, _, h => absurd (by rw [← (List.cons.inj h).1]; exact List.mem_cons_self) hu
  | c :: u, c' :: v, s, s', hu, hv, h => by
    obtain ⟨h1, h2⟩ := List.cons.inj h
    obtain ⟨h3, h4⟩ := newline_prefix u v s s' (fun k => hu (List.mem_cons_of_mem _ k)) (fun k => hv (List.mem_cons_of_mem _ k)) h2
    exact ⟨by rw [h1, h3], h4⟩

/-- A line that starts with a bar and has no end of line in it. -/
def Barred (w : List Char) : Prop := (∃ w', w = '|' :: w') ∧ '\n' ∉ w

theorem tabs_prefix : ∀ (k k' : ℕ) (w w' : List Char), Barred w → Barred w' → List.replicate k '\t' ++ w = List.replicate k' '\t' ++ w' → k = k' ∧ w = w'
  | 0, 0, _, _, _, _, h => ⟨rfl, by simpa using h⟩
  | 0, k' + 1, w, w', hw, _, h => by
    obtain ⟨⟨v, rfl⟩, -⟩ := hw
    simp [List.replicate_succ] at h
  | k + 1, 0, w, w', _, hw', h => by
    obtain ⟨⟨v, rfl⟩, -⟩ := hw'
    simp [List.replicate_succ] at h
  | k + 1, k' + 1, w, w', hw, hw', h => by
    simp only [List.replicate_succ, List.cons_append, List.cons.injEq, true_and] at h
    obtain ⟨h1, h2⟩ := tabs_prefix k k' w w' hw hw' h
    exact ⟨by rw [h1], h2⟩

theorem textOf_inj : ∀ (a b : List (ℕ × List Char)), (∀ x ∈ a, Barred x.2) → (∀ x ∈ b, Barred x.2) → textOf a = textOf b → a = b
  | [], [], _, _, _ => rfl
  | [], y :: b, _, _, h => by simp [textOf] at h
  | x :: a, [], _, _, h => by simp [textOf] at h
  | x :: a, y :: b, ha, hb, h => by
    have hx := ha x List.mem_cons_self
    have hy := hb y List.mem_cons_self
    rw [textOf_cons, textOf_cons] at h
    simp only [List.append_assoc, List.cons_append, List.nil_append] at h
    rw [← List.append_assoc, ← List.append_assoc] at h
    obtain ⟨h1, h2⟩ := newline_prefix _ _ _ _ (by simp [hx.2]) (by simp [hy.2]) h
    obtain ⟨h3, h4⟩ := tabs_prefix _ _ _ _ hx hy h1
    rw [textOf_inj a b (fun z hz => ha z (List.mem_cons_of_mem _ hz)) (fun z hz => hb z (List.mem_cons_of_mem _ hz)) h2]
    exact congrArg (· :: b) (Prod.ext h3 h4)

theorem showNat_newline (n : ℕ) : '\n' ∉ showNat n := fun h => absurd (mem_showNat n _ h) (by decide)

theorem showInt_newline (n : ℤ) : '\n' ∉ showInt n := fun h => absurd (mem_showInt n _ h) (by decide)

mutual
theorem lines_barred {P : α → Prop} {ev : α → List Char} (hn : OneLine P ev) : ∀ (t : NTree α) (L : ℕ), Events P t → ∀ x ∈ lines ev t L, Barred x.2
  | .leaf id e, L, h, x, hx => by
    rw [lines, List.mem_singleton] at hx
    subst hx
    exact ⟨⟨_, rfl⟩, by simp [leafLine, showNat_newline, hn.line e h]⟩
  | .node id rp ch, L, h, x, hx => by
    rw [lines, List.mem_cons] at hx
    rcases hx with rfl | hx
    · exact ⟨⟨_, rfl⟩, by simp [innerLine, showNat_newline, showInt_newline]⟩
    · exact linesF_barred hn ch (L + 1) h x hx
theorem linesF_barred {P : α → Prop} {ev : α → List Char} (hn : OneLine P ev) : ∀ (F : NForest α) (L : ℕ), EventsF P F → ∀ x ∈ linesF ev F L, Barred x.2
  | .nil, L, _, x, hx => by cases hx
  | .cons d t rest, L, h, x, hx => by
    rw [linesF, List.mem_cons, List.mem_append] at hx
    rcases hx with rfl | hx | hx
    · exact ⟨⟨_, rfl⟩, by simp [distLine, showInt_newline]⟩
    · exact lines_barred hn t L h.1 x hx
    · exact linesF_barred hn rest L h.2 x hx
end

/-- What may follow the lines of a tree at a level: nothing, or a line that is not deeper. -/
def Follows (L : ℕ) (s : List (ℕ × List Char)) : Prop := ∀ x ∈ s.head?, x.1 ≤ L

theorem linesF_follows (ev : α → List Char) (F : NForest α) (L : ℕ) (s : List (ℕ × List Char)) (hs : Follows L s) : Follows L (linesF ev F L ++ s) := by
  cases F with
  | nil => exact hs
  | cons d t rest =>
    intro x hx
    simp only [linesF, List.cons_append, List.head?_cons, Option.mem_def, Option.some.injEq] at hx
    rw [← hx]

theorem stop_nil : Stop [] := by simp [Stop]

theorem leafLine_eq (i : ℕ) (w : List Char) : leafLine i w = '|' :: '_' :: ' ' :: '[' :: (showNat i ++ ']' :: ' ' :: w) := by simp [leafLine]

theorem innerLine_eq (i r : ℕ) (p : ℤ) : innerLine i r p = '|' :: '_' :: ' ' :: '[' :: (showNat i ++ ']' :: ' ' :: 'r' :: '=' :: (showNat r ++ ' ' :: 'p' :: '=' :: showInt p)) := by simp [innerLine]

theorem leafLine_inj (i j : ℕ) (w w' : List Char) (h : leafLine i w = leafLine j w') : i = j ∧ w = w' := by
  simp only [leafLine_eq, List.cons.injEq, true_and] at h
  obtain ⟨h2, h3⟩ := showNat_prefix _ _ _ _ (stop_cons (by decide)) (stop_cons (by decide)) h
  simp only [List.cons.injEq, true_and] at h3
  exact ⟨h2, h3⟩

theorem innerLine_inj (i j r r' : ℕ) (p p' : ℤ) (h : innerLine i r p = innerLine j r' p') : i = j ∧ r = r' ∧ p = p' := by
  simp only [innerLine_eq, List.cons.injEq, true_and] at h
  obtain ⟨h2, h3⟩ := showNat_prefix _ _ _ _ (stop_cons (by decide)) (stop_cons (by decide)) h
  simp only [List.cons.injEq, true_and] at h3
  obtain ⟨h4, h5⟩ := showNat_prefix _ _ _ _ (stop_cons (by decide)) (stop_cons (by decide)) h3
  simp only [List.cons.injEq, true_and] at h5
  exact ⟨h2, h4, showInt_injective _ _ h5⟩

theorem deeper_absurd {L k : ℕ} {w : List Char} {s s' : List (ℕ × List Char)} (hs : Follows L s) (hk : L < k) (h : s = (k, w) :: s') : False := by
  subst h
  have := hs (k, w) rfl
  simp only at this
  omega

mutual
theorem lines_prefix {P : α → Prop} {ev : α → List Char} (hn : OneLine P ev) : ∀ (t t' : NTree α), Filled t → Filled t' → Events P t → Events P t' → ∀ L s s', Follows L s → Follows L s' →
    lines ev t L ++ s = lines ev t' L ++ s' → t = t' ∧ s = s'
  | .leaf i a, .leaf j b, _, _, ha, hb, L, s, s', _, _, h => by
    simp only [lines, List.cons_append, List.nil_append, List.cons.injEq, Prod.mk.injEq, true_and] at h
    obtain ⟨h1, h2⟩ := leafLine_inj _ _ _ _ h.1
    exact ⟨by rw [h1, hn.inj a b ha hb h2], h.2⟩
  | .leaf i a, .node j rp ch, _, ho, _, _, L, s, s', hs, _, h => by
    cases ch with
    | nil => exact absurd rfl ho.2.1
    | cons d t rest =>
      simp only [lines, linesF, List.cons_append, List.nil_append, List.cons.injEq] at h
      exact (deeper_absurd hs (Nat.lt_succ_self L) h.2).elim
  | .node j rp ch, .leaf i a, ho, _, _, _, L, s, s', _, hs', h => by
    cases ch with
    | nil => exact absurd rfl ho.2.1
    | cons d t rest =>
      simp only [lines, linesF, List.cons_append, List.nil_append, List.cons.injEq] at h
      exact (deeper_absurd hs' (Nat.lt_succ_self L) h.2.symm).elim
  | .node i rp ch, .node j rp' ch', ho, ho', he, he', L, s, s', hs, hs', h => by
    obtain ⟨⟨r, p⟩, rfl⟩ := Option.isSome_iff_exists.1 ho.1
    obtain ⟨⟨r', p'⟩, rfl⟩ := Option.isSome_iff_exists.1 ho'.1
    simp only [lines, List.cons_append, List.cons.injEq, Prod.mk.injEq, true_and, Option.getD_some] at h
    obtain ⟨h1, h2, h3⟩ := innerLine_inj _ _ _ _ _ _ h.1
    obtain ⟨h4, h5⟩ := linesF_prefix hn ch ch' ho.2.2 ho'.2.2 he he' L s s' hs hs' h.2
    exact ⟨by rw [h1, h2, h3, h4], h5⟩
theorem linesF_prefix {P : α → Prop} {ev : α → List Char} (hn : OneLine P ev) : ∀ (F F' : NForest α), FilledF F → FilledF F' → EventsF P F → EventsF P F' → ∀ L s s', Follows L s → Follows L s' →
    linesF ev F (L + 1) ++ s = linesF ev F' (L + 1) ++ s' → F = F' ∧ s = s'
  | .nil, .nil, _, _, _, _, L, s, s', _, _, h => ⟨rfl, h⟩
  | .nil, .cons d t rest, _, _, _, _, L, s, s', hs, _, h => by
    simp only [linesF, List.nil_append, List.cons_append] at h
    exact (deeper_absurd hs (Nat.lt_succ_self L) h).elim
  | .cons d t rest, .nil, _, _, _, _, L, s, s', _, hs', h => by
    simp only [linesF, List.nil_append, List.cons_append] at h
    exact (deeper_absurd hs' (Nat.lt_succ_self L) h.symm).elim
  | .cons d t rest, .cons d' t' rest', ho, ho', he, he', L, s, s', hs, hs', h => by
    have up : ∀ {z}, Follows L z → Follows (L + 1) z := fun hz x hx => Nat.le_succ_of_le (hz x hx)
    simp only [linesF, List.cons_append, List.cons.injEq, Prod.mk.injEq, true_and, List.append_assoc] at h
    have h0 : d = d' := showInt_injective _ _ (List.append_cancel_left h.1)
    obtain ⟨h1, h2⟩ := lines_prefix hn t t' ho.1 ho'.1 he.1 he'.1 (L + 1) _ _ (linesF_follows ev rest (L + 1) s (up hs)) (linesF_follows ev rest' (L + 1) s' (up hs')) h.2
    obtain ⟨h3, h4⟩ := linesF_prefix hn rest rest' ho.2 ho'.2 he.2 he'.2 L s s' hs hs' h2
    exact ⟨by rw [h0, h1, h3], h4⟩
end

/-- Full statement (C153): the text of a pattern determines its dictionary of nodes. Proved for events that differ when printed and are printed on one line. Missing: other events (`outline_ambiguous`), where it is false. -/
theorem outline_identifies_partial {ns ns' : NodeDict α} {t t' : NTree α} (h : Describes ns t) (h' : Describes ns' t') (ho : Filled t) (ho' : Filled t') (P : α → Prop) (ev : α → List Char) (hn : OneLine P ev) (he : Events P t)
    (he' : Events P t') (level : ℕ) (e : getTreeStr ns ev 0 level none = getTreeStr ns' ev 0 level none) : t = t' ∧ ∀ x, x ∈ ns ↔ x ∈ ns' := by
  rw [outline_lines h ho, outline_lines h' ho', Option.some.injEq] at e
  have h1 := textOf_inj _ _ (lines_barred hn t level he) (lines_barred hn t' level he') e
  have h2 : t = t' := (lines_prefix hn t t' ho ho' he he' level [] [] (by simp [Follows]) (by simp [Follows]) (by rw [h1])).1
  subst h2
  exact ⟨rfl, fun x => (h.same x).trans (h'.same x).symm⟩

/-- C153. When events are integers, as in the patterns of the miner, the text determines the dictionary of nodes. -/
theorem outline_identifies_ints {ns ns' : NodeDict ℤ} {t t' : NTree ℤ} (h : Describes ns t) (h' : Describes ns' t') (ho : Filled t) (ho' : Filled t') (level : ℕ)
    (e : getTreeStr ns showInt 0 level none = getTreeStr ns' showInt 0 level none) : t = t' ∧ ∀ x, x ∈ ns ↔ x ∈ ns' := by
  have all : ∀ t : NTree ℤ, Events (fun _ => True) t := by
    intro t
    exact NTree.rec (motive_1 := fun t => Events (fun _ => True) t) (motive_2 := fun F => EventsF (fun _ => True) F) (fun _ _ => trivial) (fun _ _ _ ih => ih) trivial (fun _ _ _ a b => ⟨a, b⟩) t
  exact outline_identifies_partial h h' ho ho' (fun _ => True) showInt ⟨fun a b _ _ => showInt_injective a b, fun a _ => showInt_newline a⟩ (all t) (all t') level e

/-! ### Names of events -/

/-- C153 is false for the names of events: in the text of a pattern they are never shown, whatever the dictionary of names. -/
theorem names_never_shown {ns : NodeDict α} {t : NTree α} (h : Describes ns t) (ev name : α → List Char) (level : ℕ) : getTreeStr ns ev 0 level (some name) = getTreeStr ns ev 0 level none := by
  obtain ⟨rp, ch, rfl⟩ := h.root
  have h1 := (lookup_some h.keys).2 ((h.same (0, .inner none rp ch.kids)).2 (by simp [NTree.entries]))
  unfold getTreeStr
  cases ns.length with
  | zero => rfl
  | succ f =>
    simp only [treeStr, h1]
    cases rp <;> rfl

/-- The name of an event is shown when the text is asked for a leaf. -/
theorem leaf_name_shown {ns : NodeDict α} {t : NTree α} (h : Describes ns t) (ev name : α → List Char) (id level : ℕ) (q : Option ℕ) (e : α) (hm : (id, Node.leaf q e) ∈ ns) :
    getTreeStr ns ev id level (some name) = some (textOf [(level, leafLine id (name e))]) := by
  have h1 := (lookup_some h.keys).2 hm
  unfold getTreeStr
  cases hn : ns.length with
  | zero =>
    rw [List.length_eq_zero_iff.1 hn] at hm
    cases hm
  | succ f =>
    simp only [treeStr, h1]
    simp [textOf, leafLine, tabs]

/-- A node that the dictionary does not have is shown as `()` at its level. -/
theorem unknown_node (ns : NodeDict α) (ev : α → List Char) (nid level : ℕ) (mapEv : Option (α → List Char)) (hne : ns ≠ []) (h : ∀ n, (nid, n) ∉ ns) :
    getTreeStr ns ev nid level mapEv = some (List.replicate level '\t' ++ "()\n".toList) := by
  have h1 : ns.lookup nid = none := by
    rw [List.lookup_eq_none_iff]
    intro x hx
    rw [bne_iff_ne]
    rintro e
    exact h x.2 (by rw [e]; exact hx)
  unfold getTreeStr
  cases hn : ns.length with
  | zero => exact absurd (List.length_eq_zero_iff.1 hn) hne
  | succ f =>
    simp only [treeStr, h1]
    simp [tabs]

/-! ### Examples -/

/-- A nested pattern with numbered nodes. -/
def nested : NTree ℤ := .node 0 (some (5, 8643)) (.cons 0 (.leaf 1 4) (.cons 50 (.node 3 (some (2, 7)) (.cons 0 (.leaf 4 8) .nil)) .nil))

/-- Its dictionary. -/
def nestedDict : NodeDict ℤ := [(0, .inner none (some (5, 8643)) [(1, 0), (3, 50)]), (3, .inner (some 0) (some (2, 7)) [(4, 0)]), (1, .leaf (some 0) 4), (4, .leaf (some 3) 8)]

theorem nested_describes : Describes nestedDict nested := by
  refine ⟨by decide, by decide, fun x => ?_, ⟨_, _, rfl⟩⟩
  simp only [nestedDict, nested, NTree.entries, NForest.entries, NForest.kids, NTree.id, List.mem_cons, List.mem_append, List.not_mem_nil, or_false]
  tauto

theorem nested_filled : Filled nested := by simp [nested, Filled, FilledF, NForest.kids]

example : getTreeStr nestedDict showInt 0 0 none = some "|_ [0] r=5 p=8643\n\t| d=0\n\t|_ [1] 4\n\t| d=50\n\t|_ [3] r=2 p=7\n\t\t| d=0\n\t\t|_ [4] 8\n".toList := by decide +kernel

/-- The hypotheses of `outline_identifies_ints` hold. -/
example (ns : NodeDict ℤ) (t : NTree ℤ) (h : Describes ns t) (ho : Filled t) (e : getTreeStr ns showInt 0 2 none = getTreeStr nestedDict showInt 0 2 none) : t = nested :=
  (outline_identifies_ints h nested_describes ho nested_filled 2 e).1

/-- The names `tea` and `cake` are not shown. -/
example : getTreeStr nestedDict showInt 0 0 (some (fun e => if e = 4 then "tea".toList else "cake".toList)) = getTreeStr nestedDict showInt 0 0 none := names_never_shown nested_describes _ _ _

/-- A number without a node, two levels in. -/
example : getTreeStr nestedDict showInt 2 2 none = some "\t\t()\n".toList := unknown_node nestedDict showInt 2 2 none (by decide) (by simp [nestedDict])

example : getTreeStr nestedDict showInt 1 0 (some (fun e => if e = 4 then "tea".toList else "cake".toList)) = some "|_ [1] tea\n".toList := by decide +kernel

/-- Three events; the first one has line ends in its name. -/
def splitName : ℕ → List Char
  | 0 => "a\n\t| d=2\n\t|_ [2] b".toList
  | 1 => "a".toList
  | _ => "b".toList

/-- C153 is false for events with line ends: one child looks like two. -/
theorem outline_ambiguous : ∃ (ns ns' : NodeDict ℕ) (t t' : NTree ℕ), Describes ns t ∧ Describes ns' t' ∧ Filled t ∧ Filled t' ∧ t ≠ t' ∧ splitName 0 ≠ splitName 1 ∧ splitName 0 ≠ splitName 2 ∧ splitName 1 ≠ splitName 2 ∧
    getTreeStr ns splitName 0 0 none = getTreeStr ns' splitName 0 0 none := by
  refine ⟨[(0, .inner none (some (3, 10)) [(1, 0)]), (1, .leaf (some 0) 0)], [(0, .inner none (some (3, 10)) [(1, 0), (2, 2)]), (1, .leaf (some 0) 1), (2, .leaf (some 0) 2)], .node 0 (some (3, 10)) (.cons 0 (.leaf 1 0) .nil),
    .node 0 (some (3, 10)) (.cons 0 (.leaf 1 1) (.cons 2 (.leaf 2 2) .nil)), ?_, ?_, ?_, ?_, by simp, by decide, by decide, by decide, by decide +kernel⟩
  · exact ⟨by decide, by decide, fun x => by simp [NTree.entries, NForest.entries, NForest.kids, NTree.id], ⟨_, _, rfl⟩⟩
  · exact ⟨by decide, by decide, fun x => by simp [NTree.entries, NForest.entries, NForest.kids, NTree.id], ⟨_, _, rfl⟩⟩
  · simp [Filled, FilledF, NForest.kids]
  · simp [Filled, FilledF, NForest.kids]

end Verif.Outline
