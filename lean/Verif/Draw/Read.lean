import Verif.Draw.Run
import Verif.Display.Props

/-!
# Reading a drawing
-/

set_option autoImplicit false
set_option linter.unusedSectionVars false

namespace Verif.Draw

open Verif.Nodes Verif.Display Verif.Text

theorem sep_prefix (c : Char) : ∀ (u v s s' : List Char), c ∉ u → c ∉ v → u ++ c :: s = v ++ c :: s' → u = v ∧ s = s'
  | [], [], s, s', _, _, h => by simpa using h
  | [], y :: v, s, s', _, hv, h => by
    simp only [List.nil_append, List.cons_append, List.cons.injEq] at h
    exact absurd (by simp [h.1]) hv
  | x :: u, [], s, s', hu, _, h => by
    simp only [List.nil_append, List.cons_append, List.cons.injEq] at h
    exact absurd (by simp [h.1]) hu
  | x :: u, y :: v, s, s', hu, hv, h => by
    simp only [List.cons_append, List.cons.injEq] at h
    obtain ⟨rfl, h⟩ := h
    obtain ⟨rfl, rfl⟩ := sep_prefix c u v s s' (fun e => hu (by simp [e])) (fun e => hv (by simp [e])) h
    exact ⟨rfl, rfl⟩

theorem showNat_injective (a b : ℕ) (h : showNat a = showNat b) : a = b := by
  have h1 := parseInt_showNat a
  have h2 := parseInt_showNat b
  rw [h] at h1
  rw [h1] at h2
  simpa using h2

/-- The texts of a style have no line break, and a time can be read back. -/
structure Readable (s : Style) (Q : ℤ → Prop) : Prop where
  time : ∀ x, '\n' ∉ s.time x
  start : ∀ x, '\n' ∉ s.start x
  inj : ∀ x y, Q x → Q y → s.time x = s.time y → x = y

/-- Two styles that may differ in the names of the events only. -/
structure Alike (s s' : Style) : Prop where
  time : s'.time = s.time
  start : s'.start = s.start
  zeros : s'.zeros = s.zeros

variable {s s' : Style} {Q : ℤ → Prop} {L : List Stmt}

theorem box_inj (hs : Readable s Q) (ha : Alike s s') {t0 t0' : Option ℤ} (h0 : t0.isSome = t0'.isSome) {r r' : ℕ} {p p' : ℤ} (hp : Q p) (hp' : Q p') (h : s.box t0 r p = s'.box t0' r' p') :
    r = r' ∧ p = p' ∧ ∀ x x', t0 = some x → t0' = some x' → s.start x = s.start x' := by
  have h1 : "𝜏=".toList = ['𝜏', '='] := by decide
  have h2 : "p=".toList = ['p', '='] := by decide
  have h3 : "\nr=".toList = ['\n', 'r', '='] := by decide
  have tail : ∀ {r r' : ℕ} {p p' : ℤ}, Q p → Q p' → s.time p ++ '\n' :: 'r' :: '=' :: showNat r = s.time p' ++ '\n' :: 'r' :: '=' :: showNat r' → r = r' ∧ p = p' := by
    intro r r' p p' hp hp' h
    obtain ⟨e1, e2⟩ := sep_prefix '\n' _ _ _ _ (hs.time p) (hs.time p') h
    simp only [List.cons.injEq, true_and] at e2
    exact ⟨showNat_injective _ _ e2, hs.inj _ _ hp hp' e1⟩
  unfold Style.box at h
  rw [h1, h2, h3, ha.time, ha.start] at h
  cases t0 with
  | none =>
    cases t0' with
    | none =>
      simp only [List.nil_append, List.append_assoc, List.cons_append, List.cons.injEq, true_and] at h
      exact ⟨(tail hp hp' h).1, (tail hp hp' h).2, fun _ _ e => by cases e⟩
    | some x' => cases h0
  | some x =>
    cases t0' with
    | none => cases h0
    | some x' =>
      simp only [List.nil_append, List.append_assoc, List.cons_append, List.cons.injEq, true_and] at h
      obtain ⟨e1, e2⟩ := sep_prefix '\n' _ _ _ _ (hs.start x) (hs.start x') h
      simp only [List.cons.injEq, true_and] at e2
      refine ⟨(tail hp hp' e2).1, (tail hp hp' e2).2, fun y y' hy hy' => ?_⟩
      cases hy
      cases hy'
      exact e1

theorem shows_dotted {t0 : Option ℤ} {g : List (Option ℕ × List Char)} : ∀ t : NTree ℕ, Shows s L t0 g t → dotted L t.id = g
  | .leaf _ _, h => h.2.2
  | .node _ none _, h => h.elim
  | .node _ (some _) _, h => h.2.2.1

theorem gap_inj (hs : Readable s Q) (ha : Alike s s') {b b' : ℕ} {d d' : ℤ} (hd : Q d) (hd' : Q d') (h : s.gap b d = s'.gap b' d') : d = d' := by
  unfold Style.gap at h
  rw [ha.time, ha.zeros] at h
  by_cases h1 : d = 0 ∧ s.zeros = false <;> by_cases h2 : d' = 0 ∧ s.zeros = false
  · rw [h1.1, h2.1]
  · rw [if_pos h1, if_neg h2] at h
    cases h
  · rw [if_neg h1, if_pos h2] at h
    cases h
  · rw [if_neg h1, if_neg h2] at h
    simp only [List.cons.injEq, Prod.mk.injEq, and_true] at h
    exact hs.inj _ _ hd hd' h.2

mutual
/-- A drawing shows one tree. -/
theorem read_tree (hs : Readable s Q) (ha : Alike s s') : ∀ (t t' : NTree ℕ) (T T' : PTree.Tree ℕ) (t0 t0' : Option ℤ) (g g' : List (Option ℕ × List Char)), t.plain = some T → t'.plain = some T' → T.Regular → T'.Regular →
    Over (fun _ => True) Q T → Over (fun _ => True) Q T' → t.id = t'.id → t0.isSome = t0'.isSome → Shows s L t0 g t → Shows s' L t0' g' t' → named s.name T = named s'.name T'
  | .leaf id ev, .leaf id' ev', T, T', t0, t0', g, g', hp, hp', _, _, _, _, hi, _, h, h' => by
    simp only [NTree.plain, Option.some.injEq] at hp hp'
    subst hp hp'
    simp only [NTree.id] at hi
    subst hi
    have := h.1.symm.trans h'.1
    simp only [List.cons.injEq, Prod.mk.injEq, and_true] at this
    simp only [named, this]
  | .leaf id ev, .node id' (some rp) ch, T, T', t0, t0', g, g', hp, hp', _, _, _, _, hi, _, h, h' => by
    simp only [NTree.id] at hi
    subst hi
    have := h.1.symm.trans h'.1
    simp at this
  | .node id (some rp) ch, .leaf id' ev', T, T', t0, t0', g, g', hp, hp', _, _, _, _, hi, _, h, h' => by
    simp only [NTree.id] at hi
    subst hi
    have := h.1.symm.trans h'.1
    simp at this
  | .node _ none _, _, _, _, _, _, _, _, _, _, _, _, _, _, _, _, h, _ => h.elim
  | .leaf _ _, .node _ none _, _, _, _, _, _, _, _, _, _, _, _, _, _, _, _, h => h.elim
  | .node _ (some _) _, .node _ none _, _, _, _, _, _, _, _, _, _, _, _, _, _, _, _, h => h.elim
  | .node id (some (r, p)) ch, .node id' (some (r', p')) ch', T, T', t0, t0', g, g', hp, hp', hr, hr', ho, ho', hi, h0, h, h' => by
    simp only [NTree.id] at hi
    subst hi
    simp only [NTree.plain, Option.map_eq_some_iff] at hp hp'
    obtain ⟨F, hF, rfl⟩ := hp
    obtain ⟨F', hF', rfl⟩ := hp'
    simp only [PTree.Tree.Regular] at hr hr'
    simp only [Over] at ho ho'
    have e := h.1.symm.trans h'.1
    simp only [List.cons.injEq, Prod.mk.injEq, and_true] at e
    obtain ⟨rfl, rfl, -⟩ := box_inj hs ha h0 ho.1 ho'.1 e
    have hk := h.2.1.symm.trans h'.2.1
    have := read_first hs ha ch ch' F F' hF hF' hr.2.2.2 hr'.2.2.2 hr.2.2.1 hr'.2.2.1 ho.2 ho'.2 hk h.2.2.2 h'.2.2.2
    simp only [named, this]
theorem read_first (hs : Readable s Q) (ha : Alike s s') : ∀ (F F' : NForest ℕ) (G G' : PTree.Forest ℕ), F.plain = some G → F'.plain = some G' → G.Regular → G'.Regular → G.firstDist = 0 → G'.firstDist = 0 →
    OverF (fun _ => True) Q G → OverF (fun _ => True) Q G' → F.kids.map Prod.fst = F'.kids.map Prod.fst → ShowsF s L none F → ShowsF s' L none F' → namedF s.name G = namedF s'.name G'
  | .nil, .nil, G, G', hp, hp', _, _, _, _, _, _, _, _, _ => by
    simp only [NForest.plain, Option.some.injEq] at hp hp'
    subst hp hp'
    rfl
  | .nil, .cons _ _ _, _, _, _, _, _, _, _, _, _, _, hk, _, _ => by simp [NForest.kids] at hk
  | .cons _ _ _, .nil, _, _, _, _, _, _, _, _, _, _, hk, _, _ => by simp [NForest.kids] at hk
  | .cons d t rest, .cons d' t' rest', G, G', hp, hp', hr, hr', hd, hd', ho, ho', hk, h, h' => by
    simp only [NForest.plain, Option.bind_eq_some_iff, Option.map_eq_some_iff] at hp hp'
    obtain ⟨T, hT, G, hG, rfl⟩ := hp
    obtain ⟨T', hT', G', hG', rfl⟩ := hp'
    simp only [PTree.Forest.Regular] at hr hr'
    simp only [PTree.Forest.firstDist] at hd hd'
    simp only [OverF] at ho ho'
    simp only [NForest.kids, List.map_cons, List.cons.injEq] at hk
    simp only [ShowsF] at h h'
    have e1 := read_tree hs ha t t' T T' none none _ _ hT hT' hr.1 hr'.1 ho.2.1 ho'.2.1 hk.1 rfl h.1 h'.1
    have e2 := read_rest hs ha rest rest' G G' t.id t'.id hG hG' hr.2 hr'.2 ho.2.2 ho'.2.2 hk.2 h.2 h'.2
    simp only [namedF, e1, e2, hd, hd']
theorem read_rest (hs : Readable s Q) (ha : Alike s s') : ∀ (F F' : NForest ℕ) (G G' : PTree.Forest ℕ) (b b' : ℕ), F.plain = some G → F'.plain = some G' → G.Regular → G'.Regular →
    OverF (fun _ => True) Q G → OverF (fun _ => True) Q G' → F.kids.map Prod.fst = F'.kids.map Prod.fst → ShowsF s L (some b) F → ShowsF s' L (some b') F' → namedF s.name G = namedF s'.name G'
  | .nil, .nil, G, G', _, _, hp, hp', _, _, _, _, _, _, _ => by
    simp only [NForest.plain, Option.some.injEq] at hp hp'
    subst hp hp'
    rfl
  | .nil, .cons _ _ _, _, _, _, _, _, _, _, _, _, _, hk, _, _ => by simp [NForest.kids] at hk
  | .cons _ _ _, .nil, _, _, _, _, _, _, _, _, _, _, hk, _, _ => by simp [NForest.kids] at hk
  | .cons d t rest, .cons d' t' rest', G, G', b, b', hp, hp', hr, hr', ho, ho', hk, h, h' => by
    simp only [NForest.plain, Option.bind_eq_some_iff, Option.map_eq_some_iff] at hp hp'
    obtain ⟨T, hT, G, hG, rfl⟩ := hp
    obtain ⟨T', hT', G', hG', rfl⟩ := hp'
    simp only [PTree.Forest.Regular] at hr hr'
    simp only [OverF] at ho ho'
    simp only [NForest.kids, List.map_cons, List.cons.injEq] at hk
    simp only [ShowsF] at h h'
    have e1 := read_tree hs ha t t' T T' none none _ _ hT hT' hr.1 hr'.1 ho.2.1 ho'.2.1 hk.1 rfl h.1 h'.1
    have e2 := read_rest hs ha rest rest' G G' t.id t'.id hG hG' hr.2 hr'.2 ho.2.2 ho'.2.2 hk.2 h.2 h'.2
    have g1 := shows_dotted t h.1
    have g2 := shows_dotted t' h'.1
    rw [hk.1] at g1
    have e3 := gap_inj hs ha ho.1 ho'.1 (g1.symm.trans g2)
    simp only [namedF, e1, e2, e3]
end

mutual
theorem plain_scale (k : ℤ) : ∀ t : NTree ℕ, (scaleN k t).plain = t.plain.map (scale k)
  | .leaf _ _ => rfl
  | .node _ none _ => rfl
  | .node _ (some rp) ch => by
    simp only [scaleN, Option.map_some, NTree.plain, plainF_scale k ch, Option.map_map]
    cases ch.plain <;> rfl
theorem plainF_scale (k : ℤ) : ∀ F : NForest ℕ, (scaleNF k F).plain = F.plain.map (scaleF k)
  | .nil => rfl
  | .cons d t rest => by
    simp only [scaleNF, NForest.plain, plain_scale k t, plainF_scale k rest]
    cases t.plain <;> cases rest.plain <;> rfl
end

mutual
theorem ids_scale (k : ℤ) : ∀ t : NTree ℕ, (scaleN k t).ids = t.ids
  | .leaf _ _ => rfl
  | .node _ _ ch => by simp only [scaleN, NTree.ids, ids_scaleF k ch]
theorem ids_scaleF (k : ℤ) : ∀ F : NForest ℕ, (scaleNF k F).ids = F.ids
  | .nil => rfl
  | .cons _ t rest => by simp only [scaleNF, NForest.ids, ids_scale k t, ids_scaleF k rest]
end

mutual
theorem over_unit {P : ℕ → Prop} (k : ℤ) {Q Q' : ℤ → Prop} (h : ∀ x, Q x → Q' (x * k)) : ∀ t : PTree.Tree ℕ, Over P Q t → Over P Q' (scale k t)
  | .leaf _, ho => ho
  | .node _ _ ch, ho => ⟨h _ ho.1, overF_unit k h ch ho.2⟩
theorem overF_unit {P : ℕ → Prop} (k : ℤ) {Q Q' : ℤ → Prop} (h : ∀ x, Q x → Q' (x * k)) : ∀ F : PTree.Forest ℕ, OverF P Q F → OverF P Q' (scaleF k F)
  | .nil, _ => trivial
  | .cons _ t rest, ho => ⟨h _ ho.1, over_unit k h t ho.2.1, overF_unit k h rest ho.2.2⟩
end

end Verif.Draw
