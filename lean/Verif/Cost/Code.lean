import Verif.Cost.Kraft
import Verif.Cost.Message

/-! # Distinct patterns have separated words -/

set_option autoImplicit false
set_option linter.unusedSectionVars false

namespace Verif.Cost

open Verif.PTree

variable {α : Type} [DecidableEq α]

/-- A word. -/
abbrev Word (α : Type) := List (Kind × Val α)

mutual
/-- The events and brackets of a tree. -/
def tokT : PTree.Tree α → Word α
  | .leaf a => [(.tok, .inl (.ev a))]
  | .node _ _ ch => (.tok, .inl .op) :: (tokF ch ++ [(.tok, .inl .cl)])
/-- The events and brackets of successive children. -/
def tokF : Forest α → Word α
  | .nil => []
  | .cons _ t rest => tokT t ++ tokF rest
end

mutual
/-- A tree without repetitions, periods and distances. -/
def shape : PTree.Tree α → PTree.Tree α
  | .leaf a => .leaf a
  | .node _ _ ch => .node 0 0 (shapeF ch)
/-- Children without repetitions, periods and distances. -/
def shapeF : Forest α → Forest α
  | .nil => .nil
  | .cons _ t rest => .cons 0 (shape t) (shapeF rest)
end

mutual
/-- A tree without periods and distances. -/
def skel : PTree.Tree α → PTree.Tree α
  | .leaf a => .leaf a
  | .node r _ ch => .node r 0 (skelF ch)
/-- Children without periods and distances. -/
def skelF : Forest α → Forest α
  | .nil => .nil
  | .cons _ t rest => .cons 0 (skel t) (skelF rest)
end

/-- Numbers as symbols. -/
def wF (l : List Field) : Word α := l.map (fun f => (Kind.unif f.2, Sum.inr f.1))

/-- Corrections as symbols. -/
def wE (l : List ℤ) : Word α := l.map (fun e => (Kind.cor, Sum.inr e))

/-- Either the same words, or words separated whatever follows. -/
def Same (x y : Word α) : Prop := x = y ∨ ∀ u v, Sep (x ++ u) (y ++ v)

theorem tokT_head (t : PTree.Tree α) : ∃ v l, tokT t = (.tok, .inl v) :: l ∧ v ≠ Tok.cl := by
  cases t with
  | leaf a => exact ⟨_, _, by rw [tokT], by simp⟩
  | node r p ch => exact ⟨_, _, by rw [tokT], by simp⟩

mutual
theorem tok_sep : ∀ t t' : PTree.Tree α, (shape t = shape t' ∧ tokT t = tokT t') ∨ ∀ x y, Sep (tokT t ++ x) (tokT t' ++ y)
  | .leaf a, .leaf b => by
    by_cases h : a = b
    · left; simp [h]
    · right; intro x y
      simp [tokT, Sep, h]
  | .leaf a, .node r p ch => by
    right; intro x y
    simp [tokT, Sep]
  | .node r p ch, .leaf a => by
    right; intro x y
    simp [tokT, Sep]
  | .node r p ch, .node r' p' ch' => by
    rcases tokF_sep ch ch' with h | h
    · left; simp [shape, tokT, h]
    · right; intro x y
      simp only [tokT, List.cons_append, List.append_assoc, Sep, true_and]
      right
      exact h x y
theorem tokF_sep : ∀ ch ch' : Forest α, (shapeF ch = shapeF ch' ∧ tokF ch = tokF ch') ∨ ∀ x y, Sep (tokF ch ++ ((.tok, .inl .cl) :: x)) (tokF ch' ++ ((.tok, .inl .cl) :: y))
  | .nil, .nil => Or.inl ⟨rfl, rfl⟩
  | .nil, .cons d t rest => by
    right; intro x y
    obtain ⟨v, l, e, hv⟩ := tokT_head t
    simp [tokF, e, Sep, Ne.symm hv]
  | .cons d t rest, .nil => by
    right; intro x y
    obtain ⟨v, l, e, hv⟩ := tokT_head t
    simp [tokF, e, Sep, hv]
  | .cons d t rest, .cons d' t' rest' => by
    rcases tok_sep t t' with ⟨h1, h2⟩ | h
    · rcases tokF_sep rest rest' with ⟨h3, h4⟩ | h'
      · left; simp [shapeF, tokF, h1, h2, h3, h4]
      · right; intro x y
        simp only [tokF, h2, List.append_assoc]
        exact sep_pre _ _ _ (h' x y)
    · right; intro x y
      simp only [tokF, List.append_assoc]
      exact h _ _
end

mutual
theorem leafEvents_shape : ∀ t : PTree.Tree α, leafEvents (shape t) = leafEvents t
  | .leaf _ => rfl
  | .node _ _ ch => by simp only [shape, leafEvents, leafEventsF_shape ch]
theorem leafEventsF_shape : ∀ ch : Forest α, leafEventsF (shapeF ch) = leafEventsF ch
  | .nil => rfl
  | .cons _ t rest => by simp only [shapeF, leafEventsF, leafEvents_shape t, leafEventsF_shape rest]
end

theorem wF_append (a b : List Field) : (wF (a ++ b) : Word α) = wF a ++ wF b := by simp [wF]

mutual
theorem r_sep (S : List (ℤ × α)) : ∀ t t' : PTree.Tree α, shape t = shape t' →
    (skel t = skel t' ∧ fieldsR S t = fieldsR S t') ∨ ∀ x y : Word α, Sep (wF (fieldsR S t) ++ x) (wF (fieldsR S t') ++ y)
  | .leaf a, .leaf b, h => by
    left; simpa [shape, skel, fieldsR] using h
  | .leaf a, .node r p ch, h => by simp [shape] at h
  | .node r p ch, .leaf a, h => by simp [shape] at h
  | .node r p ch, .node r' p' ch', h => by
    have hr : rarest S (.node r p ch) = rarest S (.node r' p' ch') := by
      rw [rarest, rarest, ← leafEvents_shape, h, leafEvents_shape]
    simp only [shape, Tree.node.injEq, true_and] at h
    rcases rF_sep S ch ch' h with ⟨h1, h2⟩ | h1
    · by_cases e : r = r'
      · left
        subst e
        simp only [skel, h1, fieldsR, h2, hr, and_self]
      · right; intro x y
        simp only [fieldsR, wF_append, h2, List.append_assoc, hr]
        apply sep_pre
        refine ⟨rfl, Or.inl ?_⟩
        simp
        omega
    · right; intro x y
      simp only [fieldsR, wF_append, List.append_assoc]
      exact h1 _ _
theorem rF_sep (S : List (ℤ × α)) : ∀ ch ch' : Forest α, shapeF ch = shapeF ch' →
    (skelF ch = skelF ch' ∧ fieldsRF S ch = fieldsRF S ch') ∨ ∀ x y : Word α, Sep (wF (fieldsRF S ch) ++ x) (wF (fieldsRF S ch') ++ y)
  | .nil, .nil, _ => Or.inl ⟨rfl, rfl⟩
  | .nil, .cons d t rest, h => by simp [shapeF] at h
  | .cons d t rest, .nil, h => by simp [shapeF] at h
  | .cons d t rest, .cons d' t' rest', h => by
    simp only [shapeF, Forest.cons.injEq, true_and] at h
    rcases r_sep S t t' h.1 with ⟨h1, h2⟩ | h1
    · rcases rF_sep S rest rest' h.2 with ⟨h3, h4⟩ | h3
      · left; simp only [skelF, fieldsRF, h1, h2, h3, h4, and_self]
      · right; intro x y
        simp only [fieldsRF, wF_append, List.append_assoc, h2]
        exact sep_pre _ _ _ (h3 _ _)
    · right; intro x y
      simp only [fieldsRF, wF_append, List.append_assoc]
      exact h1 _ _
end

theorem e_sep : ∀ E E' : List ℤ, E.length = E'.length → E = E' ∨ ∀ x y : Word α, Sep (wE E ++ x) (wE E' ++ y)
  | [], [], _ => Or.inl rfl
  | [], _ :: _, h => by simp at h
  | _ :: _, [], h => by simp at h
  | e :: E, e' :: E', h => by
    by_cases he : e = e'
    · subst he
      rcases e_sep E E' (by simpa using h) with h1 | h1
      · left; rw [h1]
      · right; intro x y
        exact ⟨rfl, Or.inr (h1 x y)⟩
    · right; intro x y
      exact ⟨rfl, Or.inl (by simpa using he)⟩

/-- The distances of successive children. -/
def dists : Forest α → List ℤ
  | .nil => []
  | .cons d _ rest => d :: dists rest

theorem d_sep : ∀ (ch ch' : Forest α) (room : ℤ), skelF ch = skelF ch' →
    (dists ch = dists ch' ∧ fieldsD ch room = fieldsD ch' room) ∨ ∀ x y : Word α, Sep (wF (fieldsD ch room) ++ x) (wF (fieldsD ch' room) ++ y)
  | .nil, .nil, _, _ => Or.inl ⟨rfl, rfl⟩
  | .nil, .cons d t rest, _, h => by simp [skelF] at h
  | .cons d t rest, .nil, _, h => by simp [skelF] at h
  | .cons d t rest, .cons d' t' rest', room, h => by
    simp only [skelF, Forest.cons.injEq, true_and] at h
    by_cases e : d = d'
    · subst e
      rcases d_sep rest rest' room h.2 with ⟨h1, h2⟩ | h1
      · left; simp only [dists, fieldsD, h1, h2, and_self]
      · right; intro x y
        exact ⟨rfl, Or.inr (h1 x y)⟩
    · right; intro x y
      exact ⟨rfl, Or.inl (by simpa using e)⟩

mutual
theorem p_sep : ∀ (t t' : PTree.Tree α) (room : ℤ), skel t = skel t' → t.Regular → t'.Regular →
    t = t' ∨ ∀ x y : Word α, Sep (wF (fieldsP t room) ++ x) (wF (fieldsP t' room) ++ y)
  | .leaf a, .leaf b, _, h, _, _ => by left; simpa [skel] using h
  | .leaf a, .node r p ch, _, h, _, _ => by simp [skel] at h
  | .node r p ch, .leaf a, _, h, _, _ => by simp [skel] at h
  | .node r p ch, .node r' p' ch', room, h, hr, hr' => by
    simp only [skel, Tree.node.injEq, true_and] at h
    simp only [Tree.Regular] at hr hr'
    obtain ⟨rfl, h⟩ := h
    by_cases e : p = p'
    · subst e
      rcases pF_sep ch ch' (room - ((r : ℤ) - 1)) h (hr.2.2.1.trans hr'.2.2.1.symm) hr.2.2.2 hr'.2.2.2 with h1 | h1
      · left; rw [h1]
      · right; intro x y
        exact ⟨rfl, Or.inr (h1 x y)⟩
    · right; intro x y
      refine ⟨rfl, Or.inl ?_⟩
      simp
      omega
theorem pF_sep : ∀ (ch ch' : Forest α) (room : ℤ), skelF ch = skelF ch' → ch.firstDist = ch'.firstDist → ch.Regular → ch'.Regular →
    ch = ch' ∨ ∀ x y : Word α, Sep (wF (fieldsPF ch room) ++ x) (wF (fieldsPF ch' room) ++ y)
  | .nil, .nil, _, _, _, _, _ => Or.inl rfl
  | .nil, .cons d t rest, _, h, _, _, _ => by simp [skelF] at h
  | .cons d t rest, .nil, _, h, _, _, _ => by simp [skelF] at h
  | .cons d t rest, .cons d' t' rest', room, h, hd, hr, hr' => by
    simp only [skelF, Forest.cons.injEq, true_and] at h
    simp only [Forest.Regular] at hr hr'
    simp only [Forest.firstDist] at hd
    subst hd
    rcases d_sep rest rest' room h.2 with ⟨h1, h2⟩ | h1
    · rcases p_sep t t' room h.1 hr.1 hr'.1 with h3 | h3
      · rcases pL_sep rest rest' room h.2 h1 hr.2 hr'.2 with h4 | h4
        · left; rw [h3, h4]
        · right; intro x y
          simp only [fieldsPF, wF_append, List.append_assoc, h2, h3]
          exact sep_pre _ _ _ (sep_pre _ _ _ (h4 _ _))
      · right; intro x y
        simp only [fieldsPF, wF_append, List.append_assoc, h2]
        exact sep_pre _ _ _ (h3 _ _)
    · right; intro x y
      simp only [fieldsPF, wF_append, List.append_assoc]
      exact h1 _ _
theorem pL_sep : ∀ (ch ch' : Forest α) (room : ℤ), skelF ch = skelF ch' → dists ch = dists ch' → ch.Regular → ch'.Regular →
    ch = ch' ∨ ∀ x y : Word α, Sep (wF (fieldsPL ch room) ++ x) (wF (fieldsPL ch' room) ++ y)
  | .nil, .nil, _, _, _, _, _ => Or.inl rfl
  | .nil, .cons d t rest, _, h, _, _, _ => by simp [skelF] at h
  | .cons d t rest, .nil, _, h, _, _, _ => by simp [skelF] at h
  | .cons d t rest, .cons d' t' rest', room, h, hd, hr, hr' => by
    simp only [skelF, Forest.cons.injEq, true_and] at h
    simp only [Forest.Regular] at hr hr'
    simp only [dists, List.cons.injEq] at hd
    obtain ⟨rfl, hd⟩ := hd
    rcases p_sep t t' (room - d) h.1 hr.1 hr'.1 with h3 | h3
    · rcases pL_sep rest rest' (room - d) h.2 hd hr.2 hr'.2 with h4 | h4
      · left; rw [h3, h4]
      · right; intro x y
        simp only [fieldsPL, wF_append, List.append_assoc, h3]
        exact sep_pre _ _ _ (h4 _ _)
    · right; intro x y
      simp only [fieldsPL, wF_append, List.append_assoc]
      exact h3 _ _
end

/-! ### What depends only on the tree without periods and distances -/

mutual
theorem pos_skel : ∀ t : PTree.Tree α, pos (skel t) = pos t
  | .leaf _ => rfl
  | .node r _ ch => by simp only [skel, pos, posF_skel ch]
theorem posF_skel : ∀ (ch : Forest α) (ni i : ℕ), posF (skelF ch) ni i = posF ch ni i
  | .nil, _, _ => rfl
  | .cons _ t rest, ni, i => by simp only [skelF, posF, pos_skel t, posF_skel rest]
end

theorem lm_skel : ∀ t : PTree.Tree α, lm (skel t) = lm t
  | .leaf _ => rfl
  | .node _ _ .nil => rfl
  | .node _ _ (.cons _ t _) => by simp only [skel, skelF, lm, lm_skel t]

theorem lmF_skel (ch : Forest α) : lmF (skelF ch) = lmF ch := by
  cases ch with
  | nil => rfl
  | cons d t rest => simp only [skelF, lmF, lm_skel t]

mutual
theorem gT_skel : ∀ (t : PTree.Tree α) (k : Path), gT (skel t) k = gT t k
  | .leaf _, _ => rfl
  | .node _ _ _, [] => rfl
  | .node r _ ch, (c, i) :: q => by simp only [skel, gT, gF_skel ch, lmF_skel]
theorem gF_skel : ∀ (ch : Forest α) (ni i c : ℕ) (q : Path), gF (skelF ch) ni i c q = gF ch ni i c q
  | .nil, _, _, _, _ => rfl
  | .cons _ t _, ni, i, 0, q => by simp only [skelF, gF, gT_skel t]
  | .cons _ t rest, ni, i, c + 1, q => by simp only [skelF, gF, gF_skel rest, lm_skel t]
end

theorem len_skel (ch : Forest α) : (skelF ch).len = ch.len := by
  induction ch using Forest.rec (motive_1 := fun _ => True) with
  | nil => rfl
  | cons d t rest _ ih => simp only [skelF, Forest.len, ih]
  | _ => trivial

mutual
theorem right_skel : ∀ (t : PTree.Tree α) (b : Bool), rightKeys (skel t) b = rightKeys t b
  | .leaf _, _ => rfl
  | .node r _ ch, _ => by simp only [skel, rightKeys, rightF_skel ch]
theorem rightF_skel : ∀ (ch : Forest α) (ni i : ℕ), rightKeysF (skelF ch) ni i = rightKeysF ch ni i
  | .nil, _, _ => rfl
  | .cons _ t rest, ni, i => by simp only [skelF, rightKeysF, right_skel t, rightF_skel rest, len_skel]
end

mutual
theorem nbOccs_skel : ∀ t : PTree.Tree α, nbOccs (skel t) = nbOccs t
  | .leaf _ => rfl
  | .node r _ ch => by simp only [skel, nbOccs, nbOccsF_skel ch]
theorem nbOccsF_skel : ∀ ch : Forest α, nbOccsF (skelF ch) = nbOccsF ch
  | .nil => rfl
  | .cons _ t rest => by simp only [skelF, nbOccsF, nbOccs_skel t, nbOccsF_skel rest]
end

theorem nested_skel (ch : Forest α) : hasNestedPDs (skelF ch) = hasNestedPDs ch := by
  match ch with
  | .nil => rfl
  | .cons _ (.leaf _) .nil => rfl
  | .cons _ (.node _ _ _) .nil => rfl
  | .cons _ _ (.cons _ _ _) => rfl

theorem corr_skel (T : PTree.Tree α) (v : Path → ℤ) (k : Path) : corr (skel T) v k = corr T v k := by
  rw [corr, corr, gT_skel]

theorem keys_skel (T : PTree.Tree α) : keys (skel T) = keys T := by rw [keys, keys, pos_skel]

theorem ecZa_skel {r : ℕ} {p p' : ℤ} {ch ch' : Forest α} (h : skelF ch = skelF ch') (E : List ℤ) : ecZa r p ch E = ecZa r p' ch' E := by
  have e : skel (.node r p ch) = skel (.node r p' ch') := by simp only [skel, h]
  rw [ecZa, ecZa, ← corr_skel, ← keys_skel, e, corr_skel, keys_skel, ← lmF_skel, h, lmF_skel]

theorem ecZz_skel {T T' : PTree.Tree α} (h : skel T = skel T') (E : List ℤ) : ecZz T E = ecZz T' E := by
  have : ∀ T : PTree.Tree α, ecZz (skel T) E = ecZz T E := by
    intro T
    rw [ecZz, ecZz, right_skel, keys_skel]
    congr 2
    exact List.map_congr_left (fun k _ => corr_skel T _ k)
  rw [← this, h, this]

/-! ### The word of a pattern -/

/-- The part of the word after the repetitions and corrections. -/
def tailFields (D : Details α) (r : ℕ) (p : ℤ) (ch : Forest α) (t0 : ℤ) (E : List ℤ) : List Field :=
  [(p - 1, (D.deltaT - ecZa r p ch E) / ((r : ℤ) - 1)), (t0 - D.tStart, D.deltaT - ecZa r p ch E - p * ((r : ℤ) - 1) + 1)] ++
    (if hasNestedPDs ch then (durF ch, D.tEnd - t0 - p * ((r : ℤ) - 1) - ecZz (.node r p ch) E + 1) :: fieldsPF ch (durF ch) else [])

/-- The word of a pattern. -/
def word (S : List (ℤ × α)) (D : Details α) (r : ℕ) (p : ℤ) (ch : Forest α) (t0 : ℤ) (E : List ℤ) : Word α :=
  tokT (.node r p ch) ++ (wF (fieldsR S (.node r p ch)) ++ (wE E ++ wF (tailFields D r p ch t0 E)))

theorem word_sep (S : List (ℤ × α)) (D : Details α) (r : ℕ) (p : ℤ) (ch : Forest α) (t0 : ℤ) (E : List ℤ) (r' : ℕ) (p' : ℤ) (ch' : Forest α) (t0' : ℤ) (E' : List ℤ)
    (hT : (PTree.Tree.node r p ch).Regular) (hT' : (PTree.Tree.node r' p' ch').Regular) (hE : E.length + 1 = nbOccs (.node r p ch)) (hE' : E'.length + 1 = nbOccs (.node r' p' ch'))
    (hne : (PTree.Tree.node r p ch, t0, E) ≠ (PTree.Tree.node r' p' ch', t0', E')) : Sep (word S D r p ch t0 E) (word S D r' p' ch' t0' E') := by
  unfold word
  rcases tok_sep (.node r p ch) (.node r' p' ch') with ⟨h1, h2⟩ | h
  swap
  · exact h _ _
  rw [h2]
  apply sep_pre
  rcases r_sep S _ _ h1 with ⟨h3, h4⟩ | h
  swap
  · exact h _ _
  rw [h4]
  apply sep_pre
  have hlen : E.length = E'.length := by
    have : nbOccs (.node r p ch) = nbOccs (.node r' p' ch') := by rw [← nbOccs_skel, h3, nbOccs_skel]
    omega
  rcases e_sep (α := α) E E' hlen with rfl | h
  swap
  · exact h _ _
  apply sep_pre
  have hz := ecZz_skel h3 E
  simp only [skel, Tree.node.injEq, true_and] at h3
  obtain ⟨rfl, h3⟩ := h3
  have ha := ecZa_skel (r := r) (p := p) (p' := p') h3 E
  simp only [Tree.Regular] at hT hT'
  unfold tailFields
  rw [ha, hz]
  by_cases hp : p = p'
  swap
  · refine ⟨rfl, Or.inl ?_⟩
    simp
    omega
  subst hp
  refine ⟨rfl, Or.inr ?_⟩
  by_cases ht : t0 = t0'
  swap
  · refine ⟨rfl, Or.inl ?_⟩
    simp
    omega
  subst ht
  refine ⟨rfl, Or.inr ?_⟩
  have hch : ch ≠ ch' := by
    rintro rfl
    exact hne rfl
  have hn : hasNestedPDs ch = hasNestedPDs ch' := by rw [← nested_skel, h3, nested_skel]
  rw [hn]
  by_cases hb : hasNestedPDs ch' = true
  · rw [if_pos hb, if_pos hb]
    by_cases hd : durF ch = durF ch'
    swap
    · exact ⟨rfl, Or.inl (by simpa using hd)⟩
    refine ⟨rfl, Or.inr ?_⟩
    rw [hd]
    rcases pF_sep ch ch' (durF ch') h3 (hT.2.2.1.trans hT'.2.2.1.symm) hT.2.2.2 hT'.2.2.2 with h | h
    · exact absurd h hch
    · have := h [] []
      rw [List.append_nil, List.append_nil] at this
      exact this
  · exfalso
    match ch, ch', h3, hn, hb with
    | .nil, _, _, _, _ => simp [Forest.NonEmpty] at hT
    | .cons d (.leaf a) .nil, .cons d' (.leaf a') .nil, h3, _, _ =>
      simp only [skelF, skel, Forest.cons.injEq, Tree.leaf.injEq, true_and, and_true] at h3
      simp only [Forest.firstDist] at hT hT'
      exact hch (by rw [hT.2.2.1, hT'.2.2.1, h3])
    | _, .nil, _, _, _ => simp [Forest.NonEmpty] at hT'
    | _, .cons _ (.node _ _ _) .nil, _, _, hb => exact hb rfl
    | _, .cons _ _ (.cons _ _ _), _, _, hb => exact hb rfl
    | .cons _ (.node _ _ _) .nil, .cons _ (.leaf _) .nil, h3, _, _ => simp [skelF, skel] at h3
    | .cons _ _ (.cons _ _ _), .cons _ (.leaf _) .nil, h3, _, _ => simp [skelF] at h3

end Verif.Cost
