import Verif.Display.Spec
import Verif.PattKey.Props
import Mathlib.Tactic.IntervalCases

/-!
# Reading a printed pattern
-/

set_option autoImplicit false
set_option linter.unusedSectionVars false

namespace Verif.Display

open Verif.PTree Verif.Text Verif.PattKey

variable {α : Type}

/-! ### Durations -/

theorem pad_length : ∀ w n, (pad w n).length = w
  | 0, _ => rfl
  | w + 1, n => by simp [pad, pad_length w]

theorem digitChar_inj : ∀ a < 10, ∀ b < 10, digitChar a = digitChar b → a = b := by decide

theorem pad_inj : ∀ w m n, m < 10 ^ w → n < 10 ^ w → pad w m = pad w n → m = n
  | 0, m, n, hm, hn, _ => by
    simp only [pow_zero] at hm hn
    omega
  | w + 1, m, n, hm, hn, h => by
    simp only [pad] at h
    obtain ⟨h1, h2⟩ := List.append_inj h (by rw [pad_length, pad_length])
    have h3 := pad_inj w (m / 10) (n / 10) (by rw [pow_succ] at hm; omega) (by rw [pow_succ] at hn; omega) h1
    have h4 := digitChar_inj _ (by omega) _ (by omega) (List.singleton_injective h2)
    omega

theorem pad_mem : ∀ w n c, c ∈ pad w n → c ∈ ['0', '1', '2', '3', '4', '5', '6', '7', '8', '9']
  | 0, _, _, h => by cases h
  | w + 1, n, c, h => by
    rcases List.mem_append.1 h with h | h
    · exact pad_mem w _ c h
    · have : ∀ d < 10, digitChar d ∈ ['0', '1', '2', '3', '4', '5', '6', '7', '8', '9'] := by decide
      rw [List.mem_singleton.1 h]
      exact this _ (by omega)

theorem fracText_inj (f g : ℕ) (hf : f < 1000000) (hg : g < 1000000) (h : fracText f = fracText g) : f = g := by
  unfold fracText at h
  split at h <;> split at h
  · omega
  · cases h
  · cases h
  · exact pad_inj 6 f g (by omega) (by omega) (List.cons.inj h).2

theorem clock_inj (a b f a' b' f' h h' : ℕ) (ha : a < 60) (hb : b < 60) (hf : f < 1000000) (ha' : a' < 60) (hb' : b' < 60) (hf' : f' < 1000000)
    (e : showNat h ++ ':' :: (pad 2 a ++ ':' :: (pad 2 b ++ fracText f)) = showNat h' ++ ':' :: (pad 2 a' ++ ':' :: (pad 2 b' ++ fracText f'))) : h = h' ∧ a = a' ∧ b = b' ∧ f = f' := by
  obtain ⟨e1, e2⟩ := showNat_prefix _ _ _ _ (stop_cons (by decide)) (stop_cons (by decide)) e
  obtain ⟨e3, e4⟩ := List.append_inj (List.cons.inj e2).2 (by rw [pad_length, pad_length])
  obtain ⟨e5, e6⟩ := List.append_inj (List.cons.inj e4).2 (by rw [pad_length, pad_length])
  exact ⟨e1, pad_inj 2 _ _ (by omega) (by omega) e3, pad_inj 2 _ _ (by omega) (by omega) e5, fracText_inj _ _ hf hf' e6⟩

theorem dayText_inj (d d' : ℤ) (h h' : ℕ) (s s' : List Char) (e : dayText d ++ (showNat h ++ ':' :: s) = dayText d' ++ (showNat h' ++ ':' :: s')) :
    d = d' ∧ showNat h ++ ':' :: s = showNat h' ++ ':' :: s' := by
  have key : ∀ (d : ℤ) (h h' : ℕ) (s s' : List Char), d ≠ 0 → dayText d ++ (showNat h ++ ':' :: s) ≠ showNat h' ++ ':' :: s' := by
    intro d h h' s s' hd e
    rw [dayText, if_neg hd] at e
    split at e
    all_goals
      rw [List.append_assoc] at e
      have := (showInt_prefix d (Int.ofNat h') _ _ (stop_cons (by decide)) (stop_cons (by decide)) e).2
      cases this
  by_cases hd : d = 0
  · by_cases hd' : d' = 0
    · subst hd; subst hd'
      exact ⟨rfl, by simpa [dayText] using e⟩
    · subst hd
      exact absurd (by simpa [dayText] using e.symm) (key d' h' h s' s hd')
  · by_cases hd' : d' = 0
    · subst hd'
      exact absurd (by simpa [dayText] using e) (key d h h' s s' hd)
    · have : d = d' := by
        rw [dayText, dayText, if_neg hd, if_neg hd', List.append_assoc, List.append_assoc] at e
        split at e <;> split at e <;> exact (showInt_prefix d d' _ _ (stop_cons (by decide)) (stop_cons (by decide)) e).1
      subst this
      exact ⟨rfl, List.append_cancel_left e⟩

/-- Different durations are printed differently. -/
theorem deltaText_inj (x y : ℤ) (h : deltaText x = deltaText y) : x = y := by
  unfold deltaText at h
  simp only at h
  obtain ⟨h1, h2⟩ := dayText_inj _ _ _ _ _ _ h
  obtain ⟨h3, h4, h5, h6⟩ := clock_inj _ _ _ _ _ _ _ _ (by omega) (by omega) (by omega) (by omega) (by omega) (by omega) h2
  omega

theorem deltaText_bracket (x : ℤ) : ']' ∉ deltaText x := by
  have hn : ∀ n, ']' ∉ showNat n := fun n h => absurd (mem_showNat n _ h) (by decide)
  have hi : ∀ n, ']' ∉ showInt n := fun n h => absurd (mem_showInt n _ h) (by decide)
  have hp : ∀ w n, ']' ∉ pad w n := fun w n h => absurd (pad_mem w n _ h) (by decide)
  have hd : ∀ d, ']' ∉ dayText d := by
    intro d
    unfold dayText
    split
    · simp
    · split <;> simp [hi]
  have hf : ∀ f, ']' ∉ fracText f := by
    intro f
    unfold fracText
    split <;> simp [hp]
  unfold deltaText
  simp [hn, hp, hd, hf]

theorem micro_whole (x : ℤ) (h : x % 1000 = 0) : micro x = x / 1000 := by
  simp [micro, h]

/-! ### Texts -/

/-- What may follow a printed tree. -/
def After (s : List Char) : Prop := s = [] ∨ (∃ s0, s = ')' :: s0) ∨ ∃ s0, s = ' ' :: '[' :: s0

theorem name_prefix : ∀ (w w' s s' : List Char), Plain w → Plain w' → After s → After s' → w ++ s = w' ++ s' → w = w' ∧ s = s'
  | [], [], _, _, _, _, _, _, h => ⟨rfl, h⟩
  | [], c :: w, s, s', _, hw, hs, hs', h => by
    exfalso
    rcases hs with rfl | ⟨s0, rfl⟩ | ⟨s0, rfl⟩
    · cases h
    · exact hw.2.1 (by rw [(List.cons.inj h).1]; exact List.mem_cons_self)
    · have h2 := (List.cons.inj h).2
      cases w with
      | nil =>
        rcases hs' with rfl | ⟨s1, rfl⟩ | ⟨s1, rfl⟩ <;> cases h2
      | cons c' w => exact hw.2.2 (by rw [(List.cons.inj h2).1]; simp)
  | c :: w, [], s, s', hw, _, hs, hs', h => by
    exfalso
    rcases hs' with rfl | ⟨s0, rfl⟩ | ⟨s0, rfl⟩
    · cases h
    · exact hw.2.1 (by rw [← (List.cons.inj h).1]; exact List.mem_cons_self)
    · have h2 := (List.cons.inj h).2
      cases w with
      | nil =>
        rcases hs with rfl | ⟨s1, rfl⟩ | ⟨s1, rfl⟩ <;> cases h2
      | cons c' w => exact hw.2.2 (by rw [← (List.cons.inj h2).1]; simp)
  | c :: w, c' :: w', s, s', hw, hw', hs, hs', h => by
    obtain ⟨h1, h2⟩ := List.cons.inj h
    have sub : ∀ {x : Char} {v : List Char}, Plain (x :: v) → Plain v := fun h =>
      ⟨fun k => h.1 (List.mem_cons_of_mem _ k), fun k => h.2.1 (List.mem_cons_of_mem _ k), fun k => h.2.2 (List.mem_cons_of_mem _ k)⟩
    obtain ⟨h3, h4⟩ := name_prefix w w' s s' (sub hw) (sub hw') hs hs' h2
    exact ⟨by rw [h1, h3], h4⟩

theorem bracket_prefix : ∀ (u v s s' : List Char), ']' ∉ u → ']' ∉ v → u ++ ']' :: s = v ++ ']' :: s' → u = v ∧ s = s'
  | [], [], _, _, _, _, h => ⟨rfl, (List.cons.inj h).2⟩
  | [], c :: v, _, _, _, hv, h => absurd (by rw [(List.cons.inj h).1]; exact List.mem_cons_self) hv
  | c :: u, [], _, _, hu, _, h => absurd (by rw [← (List.cons.inj h).1]; exact List.mem_cons_self) hu
  | c :: u, c' :: v, s, s', hu, hv, h => by
    obtain ⟨h1, h2⟩ := List.cons.inj h
    obtain ⟨h3, h4⟩ := bracket_prefix u v s s' (fun k => hu (List.mem_cons_of_mem _ k)) (fun k => hv (List.mem_cons_of_mem _ k)) h2
    exact ⟨by rw [h1, h3], h4⟩

theorem rp_prefix {tm : ℤ → List Char} (htm : ∀ x, ']' ∉ tm x) (r r' : ℕ) (p p' : ℤ) (s s' : List Char) (h : rp tm r p ++ s = rp tm r' p' ++ s') : r = r' ∧ tm p = tm p' ∧ s = s' := by
  simp only [rp, List.cons_append, List.append_assoc, List.cons.injEq, true_and, List.nil_append] at h
  obtain ⟨h1, h2⟩ := showNat_prefix _ _ _ _ (stop_cons (by decide)) (stop_cons (by decide)) h
  simp only [List.cons.injEq, true_and] at h2
  obtain ⟨h3, h4⟩ := bracket_prefix _ _ _ _ (htm _) (htm _) h2
  exact ⟨h1, h3, h4⟩

theorem name_head {w s : List Char} (hw : Plain w) (hs : After s) (c : Char) (hc : c = '(' ∨ c = '[') (s' : List Char) : w ++ s ≠ c :: s' := by
  intro h
  cases w with
  | nil =>
    rcases hs with rfl | ⟨s0, rfl⟩ | ⟨s0, rfl⟩
    · cases h
    all_goals
      have := (List.cons.inj h).1
      subst this
      rcases hc with hc | hc <;> exact absurd hc (by decide)
  | cons x w =>
    have := (List.cons.inj h).1
    subst this
    rcases hc with rfl | rfl
    · exact hw.1 List.mem_cons_self
    · exact hw.2.2 List.mem_cons_self

theorem node_head (lf : Bool) (name : α → List Char) (tm : ℤ → List Char) (r : ℕ) (p : ℤ) (ch : Forest α) (s : List Char) : ∃ c s', (c = '(' ∨ c = '[') ∧ text lf name tm (.node r p ch) ++ s = c :: s' := by
  cases lf
  · exact ⟨_, _, .inr rfl, by rw [text, if_neg (by decide)]; rfl⟩
  · exact ⟨_, _, .inl rfl, by rw [text, if_pos rfl]; rfl⟩

theorem after_textF (lf : Bool) (name : α → List Char) (tm : ℤ → List Char) (F : Forest α) (s : List Char) (hs : PattKey.Close s) : After (textF lf name tm false F ++ s) := by
  cases F with
  | nil =>
    obtain ⟨s0, rfl⟩ := hs
    exact .inr (.inl ⟨s0, by simp [textF]⟩)
  | cons d t rest => exact .inr (.inr ⟨_, by rw [textF, if_neg (by decide)]; rfl⟩)

section
variable {P : α → Prop} {Q : ℤ → Prop} {name : α → List Char} {tm : ℤ → List Char}

mutual
theorem text_prefix (lf : Bool) (hn : NamesOk P name) (htm : ∀ x, ']' ∉ tm x) (hq : ∀ x y, Q x → Q y → tm x = tm y → x = y) : ∀ (t t' : PTree.Tree α), t.Regular → t'.Regular → Over P Q t → Over P Q t' → ∀ s s', After s → After s' →
    text lf name tm t ++ s = text lf name tm t' ++ s' → t = t' ∧ s = s'
  | .leaf a, .leaf b, _, _, ha, hb, s, s', hs, hs', h => by
    obtain ⟨h1, h2⟩ := name_prefix _ _ s s' (hn.plain a ha) (hn.plain b hb) hs hs' h
    exact ⟨by rw [hn.inj a b ha hb h1], h2⟩
  | .leaf a, .node r p ch, _, _, ha, _, s, s', hs, _, h => by
    obtain ⟨c, s1, hc, e⟩ := node_head lf name tm r p ch s'
    rw [e] at h
    exact absurd h (name_head (hn.plain a ha) hs c hc s1)
  | .node r p ch, .leaf a, _, _, _, ha, s, s', _, hs', h => by
    obtain ⟨c, s1, hc, e⟩ := node_head lf name tm r p ch s
    rw [e] at h
    exact absurd h.symm (name_head (hn.plain a ha) hs' c hc s1)
  | .node r p ch, .node r' p' ch', hr, hr', ho, ho', s, s', hs, hs', h => by
    obtain ⟨-, hne, d, hreg⟩ := hr
    obtain ⟨-, hne', d', hreg'⟩ := hr'
    cases lf with
    | false =>
      simp only [text, Bool.false_eq_true, if_false, List.append_assoc] at h
      obtain ⟨h1, h2, h3⟩ := rp_prefix htm r r' p p' _ _ h
      simp only [List.cons_append, List.cons.injEq, true_and, List.append_assoc, List.nil_append] at h3
      obtain ⟨h4, h5⟩ := textF_prefix false hn htm hq ch ch' hreg hreg' ho.2 ho'.2 true (fun _ => ⟨hne, hne', by rw [d, d']⟩) _ _ ⟨s, rfl⟩ ⟨s', rfl⟩ h3
      exact ⟨by rw [h1, hq _ _ ho.1 ho'.1 h2, h4], (List.cons.inj h5).2⟩
    | true =>
      simp only [text, if_true, List.cons_append, List.append_assoc, List.cons.injEq, true_and] at h
      obtain ⟨h4, h5⟩ := textF_prefix true hn htm hq ch ch' hreg hreg' ho.2 ho'.2 true (fun _ => ⟨hne, hne', by rw [d, d']⟩) _ _ ⟨_, rfl⟩ ⟨_, rfl⟩ h
      obtain ⟨h1, h2, h3⟩ := rp_prefix htm r r' p p' _ _ (List.cons.inj h5).2
      exact ⟨by rw [h1, hq _ _ ho.1 ho'.1 h2, h4], h3⟩
theorem textF_prefix (lf : Bool) (hn : NamesOk P name) (htm : ∀ x, ']' ∉ tm x) (hq : ∀ x y, Q x → Q y → tm x = tm y → x = y) : ∀ (F F' : Forest α), F.Regular → F'.Regular → OverF P Q F → OverF P Q F' → ∀ first,
    (first = true → F.NonEmpty ∧ F'.NonEmpty ∧ F.firstDist = F'.firstDist) → ∀ s s', PattKey.Close s → PattKey.Close s' → textF lf name tm first F ++ s = textF lf name tm first F' ++ s' → F = F' ∧ s = s'
  | .nil, .nil, _, _, _, _, _, _, s, s', _, _, h => ⟨rfl, h⟩
  | .nil, .cons d t rest, _, _, _, _, first, hf, s, s', hs, _, h => by
    exfalso
    obtain ⟨s0, rfl⟩ := hs
    cases first with
    | true => exact (hf rfl).1
    | false =>
      simp only [textF, Bool.false_eq_true, if_false, List.cons_append, List.nil_append, List.cons.injEq] at h
      exact absurd h.1 (by decide)
  | .cons d t rest, .nil, _, _, _, _, first, hf, s, s', _, hs', h => by
    exfalso
    obtain ⟨s0, rfl⟩ := hs'
    cases first with
    | true => exact (hf rfl).2.1
    | false =>
      simp only [textF, Bool.false_eq_true, if_false, List.cons_append, List.nil_append, List.cons.injEq] at h
      exact absurd h.1 (by decide)
  | .cons d t rest, .cons d' t' rest', hr, hr', ho, ho', first, hf, s, s', hs, hs', h => by
    obtain ⟨ht, hrest⟩ := hr
    obtain ⟨ht', hrest'⟩ := hr'
    have key : text lf name tm t ++ (textF lf name tm false rest ++ s) = text lf name tm t' ++ (textF lf name tm false rest' ++ s') → t = t' ∧ rest = rest' ∧ s = s' := by
      intro h
      obtain ⟨h1, h2⟩ := text_prefix lf hn htm hq t t' ht ht' ho.2.1 ho'.2.1 _ _ (after_textF lf name tm rest s hs) (after_textF lf name tm rest' s' hs') h
      obtain ⟨h3, h4⟩ := textF_prefix lf hn htm hq rest rest' hrest hrest' ho.2.2 ho'.2.2 false (by simp) s s' hs hs' h2
      exact ⟨h1, h3, h4⟩
    cases first with
    | true =>
      simp only [textF, if_true, List.nil_append, List.append_assoc] at h
      obtain ⟨h1, h2, h3⟩ := key h
      have := (hf rfl).2.2
      simp only [Forest.firstDist] at this
      exact ⟨by rw [h1, h2, this], h3⟩
    | false =>
      simp only [textF, Bool.false_eq_true, if_false, List.cons_append, List.append_assoc, List.nil_append, List.cons.injEq, true_and] at h
      obtain ⟨h0, h⟩ := bracket_prefix _ _ _ _ (htm d) (htm d') h
      obtain ⟨h1, h2, h3⟩ := key (List.cons.inj h).2
      exact ⟨by rw [hq _ _ ho.1 ho'.1 h0, h1, h2], h3⟩
end
end

/-! ### Scaling -/

mutual
theorem scale_one : ∀ t : PTree.Tree α, scale 1 t = t
  | .leaf _ => rfl
  | .node r p ch => by simp only [scale, scaleF_one ch, mul_one]
theorem scaleF_one : ∀ F : Forest α, scaleF 1 F = F
  | .nil => rfl
  | .cons d t rest => by simp only [scaleF, scale_one t, scaleF_one rest, mul_one]
end

mutual
theorem scale_regular (k : ℤ) : ∀ t : PTree.Tree α, t.Regular → (scale k t).Regular
  | .leaf _, _ => trivial
  | .node r p ch, ⟨h1, h2, h3, h4⟩ => by
    refine ⟨h1, ?_, ?_, scaleF_regular k ch h4⟩
    · cases ch with
      | nil => exact h2
      | cons d t rest => trivial
    · cases ch with
      | nil => rfl
      | cons d t rest =>
        simp only [Forest.firstDist] at h3
        simp [scaleF, Forest.firstDist, h3]
theorem scaleF_regular (k : ℤ) : ∀ F : Forest α, F.Regular → (scaleF k F).Regular
  | .nil, _ => trivial
  | .cons _ t rest, ⟨h1, h2⟩ => ⟨scale_regular k t h1, scaleF_regular k rest h2⟩
end

mutual
theorem over_scale (k : ℤ) (P : α → Prop) {Q : ℤ → Prop} (Q' : ℤ → Prop) (h : ∀ x, Q' x) : ∀ t : PTree.Tree α, Over P Q t → Over P Q' (scale k t)
  | .leaf _, ho => ho
  | .node _ _ ch, ho => ⟨h _, overF_scale k P Q' h ch ho.2⟩
theorem overF_scale (k : ℤ) (P : α → Prop) {Q : ℤ → Prop} (Q' : ℤ → Prop) (h : ∀ x, Q' x) : ∀ F : Forest α, OverF P Q F → OverF P Q' (scaleF k F)
  | .nil, _ => trivial
  | .cons _ t rest, ho => ⟨h _, over_scale k P Q' h t ho.2.1, overF_scale k P Q' h rest ho.2.2⟩
end

mutual
theorem over_mono {P : α → Prop} {Q Q' : ℤ → Prop} (h : ∀ x, Q x → Q' x) : ∀ t : PTree.Tree α, Over P Q t → Over P Q' t
  | .leaf _, ho => ho
  | .node _ _ ch, ho => ⟨h _ ho.1, overF_mono h ch ho.2⟩
theorem overF_mono {P : α → Prop} {Q Q' : ℤ → Prop} (h : ∀ x, Q x → Q' x) : ∀ F : Forest α, OverF P Q F → OverF P Q' F
  | .nil, _ => trivial
  | .cons _ t rest, ho => ⟨h _ ho.1, over_mono h t ho.2.1, overF_mono h rest ho.2.2⟩
end

end Verif.Display
