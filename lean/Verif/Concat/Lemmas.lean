import Verif.Concat.Spec
import Verif.PTree.Local

set_option autoImplicit false
set_option linter.unusedSectionVars false

namespace Verif.Concat

open Verif.PTree

variable {α : Type}

mutual
theorem length_corrT : ∀ (t : PTree.Tree α) (xs : List ℤ) (ref off : ℤ), xs.length = nbOccs t → (corrT t xs ref off).length = nbOccs t
  | .leaf _, xs, _, _, h => by simpa [corrT, nbOccs] using h
  | .node r p ch, xs, ref, off, h => by
    simp only [nbOccs] at h ⊢
    simp only [corrT, List.length_flatMap]
    have : (List.range r).map (fun i => (corrF ch ((xs.drop (i * nbOccsF ch)).take (nbOccsF ch))
        (if i = 0 then ref else (xs.drop ((i - 1) * nbOccsF ch)).headD 0) (if i = 0 then off else p)).length) = (List.range r).map (fun _ => nbOccsF ch) := by
      apply List.map_congr_left
      intro i hi
      apply length_corrF
      rw [List.length_take, List.length_drop, h]
      have hi' := List.mem_range.mp hi
      have : (i + 1) * nbOccsF ch ≤ r * nbOccsF ch := Nat.mul_le_mul_right _ hi'
      rw [Nat.add_mul] at this
      omega
    rw [this]; simp
theorem length_corrF : ∀ (ch : Forest α) (xs : List ℤ) (ref off : ℤ), xs.length = nbOccsF ch → (corrF ch xs ref off).length = nbOccsF ch
  | .nil, _, _, _, _ => by simp [corrF, nbOccsF]
  | .cons d t rest, xs, ref, off, h => by
    simp only [nbOccsF] at h ⊢
    simp only [corrF, List.length_append]
    rw [length_corrT t _ _ _ (by rw [List.length_take]; omega), length_corrF rest _ _ _ (by rw [List.length_drop]; omega)]
end

/-- Corrections inside one repetition. -/
def tailF (ch : Forest α) (xs : List ℤ) : List ℤ := (corrF ch xs 0 0).tail

theorem corrF_cons (ch : Forest α) (hr : ch.Regular) (hne : ch.NonEmpty) (xs : List ℤ) (hl : xs.length = nbOccsF ch) (ref off : ℤ) :
    corrF ch xs ref off = (xs.headD 0 - ref - off) :: tailF ch xs := by
  obtain ⟨l, h⟩ := corrF_head ch hr hne xs hl
  rw [tailF, h, h]; rfl

/-- The corrections of a described candidate, repetition by repetition. -/
theorem describes_iff (c : Cand α) (hr : c.tree.Regular) (hl : c.O.length = nbOccs c.tree) (hE : c.E.length + 1 = c.O.length) :
    (∃ t0, c.O.head? = some t0 ∧ getOccs c.tree (occsStar c.tree [] 0) t0 c.E = some c.O) ↔ c.E = (corrT c.tree c.O 0 0).tail := by
  cases hO : c.O with
  | nil => rw [hO] at hE; simp at hE
  | cons t0 ts =>
    rw [hO] at hl hE
    have := getOccs_iff c.tree hr t0 ts c.E hl (by simpa using hE)
    rw [← this]
    simp

theorem majorR_eq (c : Cand α) (h : Describes c) : c.majorR = c.r := by
  obtain ⟨-, hl, -⟩ := h
  unfold Cand.majorR
  split
  · rename_i heq
    rw [hl]
    simp only [Cand.tree, nbOccs, heq, nbOccsF]
    omega
  · rfl

theorem regular_parts (c : Cand α) (h : Describes c) : 1 ≤ c.r ∧ c.ch.NonEmpty ∧ c.ch.firstDist = 0 ∧ c.ch.Regular := by
  have := h.1
  simpa [Cand.tree, Tree.Regular] using this

theorem share_eq (c : Cand α) (h : Describes c) : c.O.length / c.majorR = nbOccsF c.ch := by
  rw [majorR_eq c h, h.2.1]
  simp only [Cand.tree, nbOccs]
  exact Nat.mul_div_cancel_left _ (regular_parts c h).1

theorem blocksO_get (c : Cand α) (h : Describes c) (f i : ℕ) (hi : f + i < c.r) : (c.blocksO f)[i]? = some (c.rep (f + i)) := by
  unfold Cand.blocksO
  rw [share_eq c h, majorR_eq c h, List.getElem?_map, List.getElem?_range' (by omega)]
  simp [Cand.rep]

theorem rep_length (c : Cand α) (h : Describes c) (i : ℕ) (hi : i < c.r) : (c.rep i).length = nbOccsF c.ch := by
  unfold Cand.rep
  rw [List.length_take, List.length_drop, h.2.1]
  simp only [Cand.tree, nbOccs]
  have : (i + 1) * nbOccsF c.ch ≤ c.r * nbOccsF c.ch := Nat.mul_le_mul_right _ hi
  rw [Nat.add_mul] at this
  omega

theorem slice_eq {β : Type} (X Y : List β) (L i : ℕ) (a : β) (l : List β) (hX : (X.drop (i * L)).take L = a :: l) (hY : Y.tail = X.tail) : (Y.drop (i * L + 1)).take (L - 1) = l := by
  have h1 : Y.drop (i * L + 1) = X.drop (i * L + 1) := by
    rw [Nat.add_comm, ← List.drop_drop, ← List.drop_drop, List.drop_one, List.drop_one, hY]
  rw [h1]
  cases L with
  | zero => simp at hX
  | succ L =>
    have h2 : X.drop (i * (L + 1) + 1) = (X.drop (i * (L + 1))).tail := by rw [List.tail_drop]
    rw [h2]
    cases hd : X.drop (i * (L + 1)) with
    | nil => rw [hd] at hX; simp at hX
    | cons b m =>
      rw [hd] at hX
      simp at hX
      simpa using hX.2

theorem blocksE_get (c : Cand α) (h : Describes c) (f i : ℕ) (hi : f + i < c.r) : (c.blocksE f)[i]? = some (tailF c.ch (c.rep (f + i))) := by
  obtain ⟨h1, h2, h3, h4⟩ := regular_parts c h
  unfold Cand.blocksE
  rw [share_eq c h, majorR_eq c h, List.getElem?_map, List.getElem?_range' (by omega)]
  simp only [Option.map_some, Nat.one_mul]
  congr 1
  have hE := (describes_iff c h.1 h.2.1 h.2.2.1).mp h.2.2.2
  have hb : ∃ a, (((corrT c.tree c.O 0 0).drop ((f + i) * nbOccsF c.ch)).take (nbOccsF c.ch)) = a :: tailF c.ch (c.rep (f + i)) := by
    have hcT : corrT c.tree c.O 0 0 = (List.range c.r).flatMap (fun i =>
        corrF c.ch (c.rep i) (if i = 0 then 0 else (c.O.drop ((i - 1) * nbOccsF c.ch)).headD 0) (if i = 0 then 0 else c.p)) := by
      simp only [Cand.tree, corrT, Cand.rep]
    obtain ⟨-, -, hb⟩ := block_flatMap (fun i =>
        corrF c.ch (c.rep i) (if i = 0 then 0 else (c.O.drop ((i - 1) * nbOccsF c.ch)).headD 0) (if i = 0 then 0 else c.p)) (nbOccsF c.ch) c.r (f + i)
        (by intro j hj; exact length_corrF _ _ _ _ (rep_length c h j hj)) hi
    rw [hcT, hb]
    exact ⟨_, corrF_cons c.ch h4 h2 _ (rep_length c h _ hi) _ _⟩
  obtain ⟨a, ha⟩ := hb
  apply slice_eq _ _ _ _ a _ ha
  simpa using hE

/-! ### One repetition of the new pattern -/

/-- A part: children, blocks of occurrences and of corrections that agree up to repetition `n`. -/
structure GoodPart (n : ℕ) (F : Forest α) (bo be : List (List ℤ)) : Prop where
  reg : F.Regular
  ne : F.NonEmpty
  occs : ∀ i < n, ∃ o, bo[i]? = some o ∧ o.length = nbOccsF F ∧ be[i]? = some (tailF F o)

/-- The occurrences of all the parts in repetition `i`. -/
def rowO (i : ℕ) (bos : List (List (List ℤ))) : List ℤ := bos.flatMap (fun bo => bo.getD i [])

theorem append_nil' : ∀ (F : Forest α), append F .nil = F
  | .nil => rfl
  | .cons d t rest => by simp [append, append_nil' rest]

theorem head_of_pos {o : List ℤ} {n : ℕ} (h : o.length = n) (hn : 0 < n) : o.head? = some (o.headD 0) := by
  cases o with
  | nil => simp at h; omega
  | cons a o => rfl

theorem row_first (p0 : ℤ) (i : ℕ) (bo be : List (List ℤ)) (rest : List (List (List ℤ) × List (List ℤ))) (ds : List ℤ) (o e : List ℤ) (R : List ℤ × List ℤ)
    (h h' : ℤ) (h1 : bo[i]? = some o) (h2 : be[i]? = some e) (h3 : row p0 i rest (some bo) ds.tail = some R)
    (h4 : i ≠ 0 → bo[i]?.bind List.head? = some h ∧ bo[i - 1]?.bind List.head? = some h') :
    row p0 i ((bo, be) :: rest) none ds = some (o ++ R.1, (if i = 0 then [] else [h - h' - p0]) ++ e ++ R.2) := by
  rw [row]
  by_cases h0 : i = 0
  · simp only [h0, if_true] at h1 h2 h3 ⊢
    rw [h1, h2, h3]
  · obtain ⟨a, b⟩ := h4 h0
    simp only [h0, if_false]
    rw [a, b, h1, h2, h3]

/-- The parts after the first. -/
theorem rest_spec (n : ℕ) (hn : 0 < n) (p0 : ℤ) : ∀ (parts : List (Forest α × List (List ℤ) × List (List ℤ))) (bp : List (List ℤ)), parts ≠ [] →
    (∀ x ∈ parts, GoodPart n x.1 x.2.1 x.2.2) → AllButLast (parts.map (fun x => x.1)) → (∀ i < n, ∃ o, bp[i]? = some o ∧ o ≠ []) →
    ∃ F, concatCh (parts.map (fun x => (x.1, x.2.1))) (some bp) = some F ∧ F.Regular ∧ F.NonEmpty ∧
      nbOccsF F = (parts.map (fun x => nbOccsF x.1)).sum ∧
      (∀ time, (genF F time).map Prod.snd = parts.flatMap (fun x => (genF x.1 0).map Prod.snd)) ∧
      ∀ i < n, ∃ op, bp[i]? = some op ∧ row p0 i (parts.map (fun x => (x.2.1, x.2.2))) (some bp) (dists F) =
        some (rowO i (parts.map (fun x => x.2.1)), corrF F (rowO i (parts.map (fun x => x.2.1))) (op.headD 0) F.firstDist) := by
  intro parts
  induction parts with
  | nil => intro bp h; exact absurd rfl h
  | cons x parts ih =>
    intro bp _ hg habl hbp
    obtain ⟨F, bo, be⟩ := x
    obtain ⟨hreg, hne, hocc⟩ := hg _ (List.mem_cons_self)
    simp only at hreg hne hocc
    have hpos := nbOccsF_pos F hreg hne
    obtain ⟨o0, ho0, hl0, -⟩ := hocc 0 hn
    obtain ⟨q0, hq0, hq0'⟩ := hbp 0 hn
    have hh0 : bo.head?.bind List.head? = some (o0.headD 0) := by
      rw [List.head?_eq_getElem?, ho0]; exact head_of_pos hl0 hpos
    have hh0' : bp.head?.bind List.head? = some (q0.headD 0) := by
      rw [List.head?_eq_getElem?, hq0]
      exact head_of_pos rfl (by cases q0; exact absurd rfl hq0'; simp)
    have shiftE : ∀ (G : Forest α) (s s' : ℤ), (genF G s).map Prod.snd = (genF G s').map Prod.snd := by
      intro G s s'
      have h1 := genF_shift G 0 s
      have h2 := genF_shift G 0 s'
      rw [zero_add] at h1 h2
      rw [h1, h2]; simp
    have shiftT : ∀ (G : PTree.Tree α) (s s' : ℤ), (gen G s).map Prod.snd = (gen G s').map Prod.snd := by
      intro G s s'
      have h1 := gen_shift G 0 s
      have h2 := gen_shift G 0 s'
      rw [zero_add] at h1 h2
      rw [h1, h2]; simp
    cases F with
    | nil => simp [Forest.NonEmpty] at hne
    | cons d t Frest =>
      cases parts with
      | nil =>
        refine ⟨.cons (o0.headD 0 - q0.headD 0) t Frest, ?_, ?_, trivial, ?_, ?_, ?_⟩
        · simp only [List.map_cons, List.map_nil, concatCh, hh0, hh0', setFirst, append_nil']
        · simpa [Forest.Regular] using hreg
        · simp [nbOccsF]
        · intro time
          simp only [genF, List.flatMap_cons, List.flatMap_nil, List.append_nil, List.map_append]
          rw [shiftT t _ (0 + d), shiftE Frest _ (0 + d)]
        · intro i hi
          obtain ⟨o, ho, hlo, hbe⟩ := hocc i hi
          obtain ⟨op, hop, hop'⟩ := hbp i hi
          refine ⟨op, hop, ?_⟩
          have hho : bo[i]?.bind List.head? = some (o.headD 0) := by rw [ho]; exact head_of_pos hlo hpos
          have hhp : bp[i]?.bind List.head? = some (op.headD 0) := by
            rw [hop]; exact head_of_pos rfl (by cases op; exact absurd rfl hop'; simp)
          have hro : rowO i ([bo] : List (List (List ℤ))) = o := by simp [rowO, List.getD, ho]
          have hc : corrF (.cons (o0.headD 0 - q0.headD 0) t Frest) o (op.headD 0) (o0.headD 0 - q0.headD 0) =
              (o.headD 0 - op.headD 0 - (o0.headD 0 - q0.headD 0)) :: tailF (.cons d t Frest) o := by
            rw [← corrF_cons (.cons d t Frest) hreg hne o hlo]
            simp only [corrF]
          simp only [List.map_cons, List.map_nil, row, dists, List.head?_cons, hro, Forest.firstDist, hbe]
          rw [hho, hhp, ho, hc]
          simp
      | cons y parts =>
        have hone := habl.1
        simp only at hone
        cases Frest with
        | cons _ _ _ => simp [OneChild] at hone
        | nil =>
          have hbo : ∀ i < n, ∃ o, bo[i]? = some o ∧ o ≠ [] := by
            intro i hi
            obtain ⟨o, ho, hlo, -⟩ := hocc i hi
            exact ⟨o, ho, by rintro rfl; simp at hlo; omega⟩
          obtain ⟨G, g1, g2, g3, g4, g5, g6⟩ := ih bo (by simp) (fun z hz => hg z (List.mem_cons_of_mem _ hz)) habl.2 hbo
          refine ⟨.cons (o0.headD 0 - q0.headD 0) t G, ?_, ?_, trivial, ?_, ?_, ?_⟩
          · rw [List.map_cons, concatCh, g1]
            simp only [hh0, hh0', setFirst, append]
          · simp only [Forest.Regular] at hreg ⊢
            exact ⟨hreg.1, g2⟩
          · rw [List.map_cons, List.sum_cons, ← g4]; simp [nbOccsF]
          · intro time
            rw [List.flatMap_cons, ← g5 (time + (o0.headD 0 - q0.headD 0))]
            simp only [genF, List.map_append, List.append_nil]
            rw [shiftT t _ (0 + d)]
          · intro i hi
            obtain ⟨o, ho, hlo, hbe⟩ := hocc i hi
            obtain ⟨op, hop, hop'⟩ := hbp i hi
            refine ⟨op, hop, ?_⟩
            have hho : bo[i]?.bind List.head? = some (o.headD 0) := by rw [ho]; exact head_of_pos hlo hpos
            have hhp : bp[i]?.bind List.head? = some (op.headD 0) := by
              rw [hop]; exact head_of_pos rfl (by cases op; exact absurd rfl hop'; simp)
            obtain ⟨op2, hop2, hrow⟩ := g6 i hi
            rw [ho] at hop2
            simp only [Option.some.injEq] at hop2
            subst hop2
            have hro : rowO i (((Forest.cons d t .nil, bo, be) :: y :: parts).map (fun x => x.2.1)) = o ++ rowO i ((y :: parts).map (fun x => x.2.1)) := by
              simp [rowO, List.getD, ho]
            have hlt : o.length = nbOccs t := by simpa [nbOccsF] using hlo
            have hc1 : corrT t o (op.headD 0) (o0.headD 0 - q0.headD 0) = (o.headD 0 - op.headD 0 - (o0.headD 0 - q0.headD 0)) :: tailF (.cons d t .nil) o := by
              rw [← corrF_cons (.cons d t .nil) hreg hne o hlo]
              simp only [corrF, List.append_nil, List.take_of_length_le (le_of_eq hlt)]
            have hhd : (o ++ rowO i ((y :: parts).map (fun x => x.2.1))).headD 0 = o.headD 0 := by
              cases o with
              | nil => simp at hlo; omega
              | cons a o => rfl
            rw [hro, List.map_cons, row]
            simp only [dists, List.head?_cons, List.tail_cons]
            rw [hrow]
            rw [hho, hhp, ho]
            simp only [hbe, Forest.firstDist, corrF, hhd]
            rw [List.take_left' hlt, List.drop_left' hlt, hc1]
            simp

end Verif.Concat
