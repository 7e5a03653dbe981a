import Verif.Concat.Lemmas

/-!
# Property C59

A concatenated candidate describes its occurrences when all the parts but the last have one child under the root; it does not in general.
-/

set_option autoImplicit false
set_option linter.unusedSectionVars false

namespace Verif.Concat

open Verif.PTree

variable {α : Type}

/-- C59 (partial: all the parts but the last must have one child under the root, see `concat_wrong`): concatenating candidates that describe their occurrences, from repetitions that
leave at least `r0` of them, succeeds; the result describes its occurrences, these are those of the parts interleaved repetition by repetition, and so are the events. -/
theorem concat_describes_partial (c0 : Cand α) (f0 : ℕ) (cs : List (Cand α × ℕ)) (p0 : ℤ) (r0 : ℕ) (hr0 : 1 ≤ r0)
    (hd : ∀ c ∈ (c0, f0) :: cs, Describes c.1) (hrep : ∀ c ∈ (c0, f0) :: cs, c.2 + r0 ≤ c.1.r)
    (hone : AllButLast (((c0, f0) :: cs).map (fun c => c.1.ch))) :
    ∃ c', concat ((c0, f0) :: cs) p0 r0 = some c' ∧ Describes c' ∧ c'.r = r0 ∧ c'.p = p0 ∧
      c'.O = (List.range r0).flatMap (fun i => ((c0, f0) :: cs).flatMap (fun c => c.1.rep (c.2 + i))) ∧
      c'.events = (List.range r0).flatMap (fun _ => ((c0, f0) :: cs).flatMap (fun c => c.1.repEvents)) := by
  -- the parts
  have good : ∀ c ∈ (c0, f0) :: cs, GoodPart r0 c.1.ch (c.1.blocksO c.2) (c.1.blocksE c.2) := by
    intro c hc
    obtain ⟨h1, h2, h3, h4⟩ := regular_parts c.1 (hd c hc)
    refine ⟨h4, h2, fun i hi => ?_⟩
    have := hrep c hc
    exact ⟨c.1.rep (c.2 + i), blocksO_get _ (hd c hc) _ _ (by omega), rep_length _ (hd c hc) _ (by omega), blocksE_get _ (hd c hc) _ _ (by omega)⟩
  have hrow : ∀ i < r0, rowO i (((c0, f0) :: cs).map (fun c => c.1.blocksO c.2)) = ((c0, f0) :: cs).flatMap (fun c => c.1.rep (c.2 + i)) := by
    intro i hi
    unfold rowO
    rw [List.flatMap_map]
    apply List.flatMap_congr
    intro c hc
    have := hrep c hc
    rw [List.getD, blocksO_get _ (hd c hc) _ _ (by omega)]
    rfl
  -- the first part and the tree
  obtain ⟨hc0r, hc0ne, hc0d, hc0reg⟩ := regular_parts c0 (hd _ List.mem_cons_self)
  have hg0 := good _ (List.mem_cons_self)
  simp only at hg0
  have hpos := nbOccsF_pos c0.ch hc0reg hc0ne
  have main : ∃ F, concatCh ((((c0, f0) :: cs).map (fun c => c.1.ch)).zip (((c0, f0) :: cs).map (fun c => c.1.blocksO c.2))) none = some F ∧ F.Regular ∧ F.NonEmpty ∧
      F.firstDist = 0 ∧ nbOccsF F = (((c0, f0) :: cs).map (fun c => nbOccsF c.1.ch)).sum ∧
      (∀ time, (genF F time).map Prod.snd = ((c0, f0) :: cs).flatMap (fun c => c.1.repEvents)) ∧
      ∀ i < r0, ∃ e, (∀ ref off, corrF F (rowO i (((c0, f0) :: cs).map (fun c => c.1.blocksO c.2))) ref off = ((c0.rep (f0 + i)).headD 0 - ref - off) :: e) ∧
        row p0 i ((((c0, f0) :: cs).map (fun c => c.1.blocksO c.2)).zip (((c0, f0) :: cs).map (fun c => c.1.blocksE c.2))) none (dists F) =
          some (rowO i (((c0, f0) :: cs).map (fun c => c.1.blocksO c.2)),
            (if i = 0 then [] else [(c0.rep (f0 + i)).headD 0 - (c0.rep (f0 + (i - 1))).headD 0 - p0]) ++ e) := by
    have hf0 := hrep _ (List.mem_cons_self (a := (c0, f0)) (l := cs))
    simp only at hf0
    have first : ∀ i < r0, i ≠ 0 → (c0.blocksO f0)[i]?.bind List.head? = some ((c0.rep (f0 + i)).headD 0) ∧
        (c0.blocksO f0)[i - 1]?.bind List.head? = some ((c0.rep (f0 + (i - 1))).headD 0) := by
      intro i hi h0
      rw [blocksO_get c0 (hd _ List.mem_cons_self) _ _ (by omega), blocksO_get c0 (hd _ List.mem_cons_self) _ _ (by omega)]
      exact ⟨head_of_pos (rep_length c0 (hd _ List.mem_cons_self) _ (by omega)) hpos, head_of_pos (rep_length c0 (hd _ List.mem_cons_self) _ (by omega)) hpos⟩
    cases cs with
    | nil =>
      refine ⟨c0.ch, ?_, hc0reg, hc0ne, hc0d, by simp, ?_, ?_⟩
      · simp [concatCh, append_nil']
      · intro time
        simp only [List.flatMap_cons, List.flatMap_nil, List.append_nil, Cand.repEvents]
        have h1 := genF_shift c0.ch 0 time
        rw [zero_add] at h1
        rw [h1]; simp
      · intro i hi
        refine ⟨tailF c0.ch (c0.rep (f0 + i)), ?_, ?_⟩
        · intro ref off
          rw [hrow i hi]
          simp only [List.flatMap_cons, List.flatMap_nil, List.append_nil]
          exact corrF_cons _ hc0reg hc0ne _ (rep_length c0 (hd _ List.mem_cons_self) _ (by omega)) _ _
        · have hr := hrow i hi
          simp only [List.map_cons, List.map_nil, List.flatMap_cons, List.flatMap_nil, List.append_nil] at hr
          simp only [List.map_cons, List.map_nil, List.zip_cons_cons, List.zip_nil_right]
          rw [row_first p0 i _ _ [] _ _ _ ([], []) _ _ (blocksO_get c0 (hd _ List.mem_cons_self) _ _ (by omega))
            (blocksE_get c0 (hd _ List.mem_cons_self) _ _ (by omega)) (by simp [row]) (first i hi), hr]
          simp
    | cons y cs =>
      obtain ⟨parts, hparts⟩ : ∃ parts, parts = (y :: cs).map (fun c => (c.1.ch, c.1.blocksO c.2, c.1.blocksE c.2)) := ⟨_, rfl⟩
      have e1 : parts.map (fun x => (x.1, x.2.1)) = ((y :: cs).map (fun c => c.1.ch)).zip ((y :: cs).map (fun c => c.1.blocksO c.2)) := by
        rw [hparts, List.map_map, List.zip_map']; rfl
      have e2 : parts.map (fun x => (x.2.1, x.2.2)) = ((y :: cs).map (fun c => c.1.blocksO c.2)).zip ((y :: cs).map (fun c => c.1.blocksE c.2)) := by
        rw [hparts, List.map_map, List.zip_map']; rfl
      have e3 : parts.map (fun x => x.2.1) = (y :: cs).map (fun c => c.1.blocksO c.2) := by rw [hparts, List.map_map]; rfl
      have e4 : parts.map (fun x => nbOccsF x.1) = (y :: cs).map (fun c => nbOccsF c.1.ch) := by rw [hparts, List.map_map]; rfl
      have e5 : parts.flatMap (fun x => (genF x.1 0).map Prod.snd) = (y :: cs).flatMap (fun c => c.1.repEvents) := by rw [hparts, List.flatMap_map]; rfl
      have hone1 := hone.1
      obtain ⟨G, g1, g2, g3, g4, g5, g6⟩ := rest_spec r0 hr0 p0 parts (c0.blocksO f0) (by rw [hparts]; simp)
        (by
          intro x hx
          rw [hparts] at hx
          obtain ⟨c, hc, rfl⟩ := List.mem_map.mp hx
          exact good c (List.mem_cons_of_mem _ hc))
        (by rw [hparts, List.map_map]; exact hone.2)
        (by
          intro i hi
          refine ⟨_, blocksO_get c0 (hd _ List.mem_cons_self) _ _ (by omega), ?_⟩
          have := rep_length c0 (hd _ List.mem_cons_self) (f0 + i) (by omega)
          intro hnil
          rw [hnil] at this
          simp at this
          omega)
      rw [e1] at g1
      rw [e2, e3] at g6
      rw [e4] at g4
      rw [e5] at g5
      cases hch : c0.ch with
      | nil => rw [hch] at hc0ne; simp [Forest.NonEmpty] at hc0ne
      | cons d t Frest =>
        simp only [hch] at hone1
        cases Frest with
        | cons _ _ _ => simp [OneChild] at hone1
        | nil =>
          have hd0 : d = 0 := by rw [hch] at hc0d; exact hc0d
          refine ⟨.cons d t G, ?_, ?_, trivial, hd0, ?_, ?_, ?_⟩
          · have ez : (((c0, f0) :: y :: cs).map (fun c => c.1.ch)).zip (((c0, f0) :: y :: cs).map (fun c => c.1.blocksO c.2)) =
                (c0.ch, c0.blocksO f0) :: ((y :: cs).map (fun c => c.1.ch)).zip ((y :: cs).map (fun c => c.1.blocksO c.2)) := rfl
            rw [ez, concatCh, g1]
            simp only [hch, append]
          · rw [hch] at hc0reg
            simp only [Forest.Regular] at hc0reg ⊢
            exact ⟨hc0reg.1, g2⟩
          · rw [List.map_cons, List.sum_cons, ← g4]; simp [nbOccsF, hch]
          · intro time
            rw [List.flatMap_cons, ← g5 (time + d)]
            simp only [genF, List.map_append, Cand.repEvents, hch, List.append_nil]
            have h1 := gen_shift t 0 (time + d)
            have h2 := gen_shift t 0 (0 + d)
            rw [zero_add] at h1 h2
            rw [h1, h2]
            simp
          · intro i hi
            obtain ⟨op, hop, hrw⟩ := g6 i hi
            rw [blocksO_get c0 (hd _ List.mem_cons_self) _ _ (by omega)] at hop
            simp only [Option.some.injEq] at hop
            subst hop
            have hlo := rep_length c0 (hd _ List.mem_cons_self) (f0 + i) (by omega)
            have hlt : (c0.rep (f0 + i)).length = nbOccs t := by rw [hlo, hch]; simp [nbOccsF]
            have hro : rowO i (((c0, f0) :: y :: cs).map (fun c => c.1.blocksO c.2)) = c0.rep (f0 + i) ++ rowO i ((y :: cs).map (fun c => c.1.blocksO c.2)) := by
              rw [List.map_cons]
              unfold rowO
              rw [List.flatMap_cons, List.getD, blocksO_get c0 (hd _ List.mem_cons_self) _ _ (by omega)]
              rfl
            have hc1 : ∀ ref off, corrT t (c0.rep (f0 + i)) ref off = ((c0.rep (f0 + i)).headD 0 - ref - off) :: tailF c0.ch (c0.rep (f0 + i)) := by
              intro ref off
              rw [← corrF_cons c0.ch hc0reg hc0ne _ hlo ref off, hch]
              simp only [corrF, List.append_nil, List.take_of_length_le (le_of_eq hlt)]
            have hhd : (c0.rep (f0 + i) ++ rowO i ((y :: cs).map (fun c => c.1.blocksO c.2))).headD 0 = (c0.rep (f0 + i)).headD 0 := by
              cases hcr : c0.rep (f0 + i) with
              | nil => rw [hcr] at hlo; simp at hlo; omega
              | cons a o => rfl
            refine ⟨tailF c0.ch (c0.rep (f0 + i)) ++ corrF G (rowO i ((y :: cs).map (fun c => c.1.blocksO c.2))) ((c0.rep (f0 + i)).headD 0) G.firstDist, ?_, ?_⟩
            · intro ref off
              rw [hro]
              simp only [corrF, hhd]
              rw [List.take_left' hlt, List.drop_left' hlt, hc1]
              simp
            · have ez : (((c0, f0) :: y :: cs).map (fun c => c.1.blocksO c.2)).zip (((c0, f0) :: y :: cs).map (fun c => c.1.blocksE c.2)) =
                  (c0.blocksO f0, c0.blocksE f0) :: ((y :: cs).map (fun c => c.1.blocksO c.2)).zip ((y :: cs).map (fun c => c.1.blocksE c.2)) := rfl
              rw [hro, ez, row_first p0 i _ _ _ _ _ _ _ _ _ (blocksO_get c0 (hd _ List.mem_cons_self) _ _ (by omega))
                (blocksE_get c0 (hd _ List.mem_cons_self) _ _ (by omega)) hrw (first i hi)]
              simp
  obtain ⟨F, hF, hreg, hne, hfd, hnb, hev, hrows⟩ := main
  -- assemble
  choose e he using fun i : Fin r0 => hrows i.1 i.2
  let ef : ℕ → List ℤ := fun i => if h : i < r0 then e ⟨i, h⟩ else []
  have hef : ∀ i < r0, (∀ ref off, corrF F (rowO i (((c0, f0) :: cs).map (fun c => c.1.blocksO c.2))) ref off = ((c0.rep (f0 + i)).headD 0 - ref - off) :: ef i) ∧
        row p0 i ((((c0, f0) :: cs).map (fun c => c.1.blocksO c.2)).zip (((c0, f0) :: cs).map (fun c => c.1.blocksE c.2))) none (dists F) =
          some (rowO i (((c0, f0) :: cs).map (fun c => c.1.blocksO c.2)),
            (if i = 0 then [] else [(c0.rep (f0 + i)).headD 0 - (c0.rep (f0 + (i - 1))).headD 0 - p0]) ++ ef i) := by
    intro i hi
    have := he ⟨i, hi⟩
    simp only [ef, hi, dif_pos]
    exact this
  obtain ⟨bos, hbos⟩ : ∃ bos, bos = ((c0, f0) :: cs).map (fun c => c.1.blocksO c.2) := ⟨_, rfl⟩
  rw [← hbos] at hef hrow
  have hrowlen : ∀ i < r0, (rowO i bos).length = nbOccsF F := by
    intro i hi
    rw [hrow i hi, hnb, List.length_flatMap]
    congr 1
    apply List.map_congr_left
    intro c hc
    have := hrep c hc
    exact rep_length _ (hd c hc) _ (by omega)
  have hmap : (List.range r0).mapM (fun ri => row p0 ri (bos.zip (((c0, f0) :: cs).map (fun c => c.1.blocksE c.2))) none (dists F)) =
      some ((List.range r0).map (fun i => (rowO i bos, (if i = 0 then [] else [(c0.rep (f0 + i)).headD 0 - (c0.rep (f0 + (i - 1))).headD 0 - p0]) ++ ef i))) := by
    apply mapM_some_map
    intro i hi
    exact (hef i (List.mem_range.mp hi)).2
  refine ⟨⟨r0, p0, F, (List.range r0).flatMap (fun i => rowO i bos),
    (List.range r0).flatMap (fun i => (if i = 0 then [] else [(c0.rep (f0 + i)).headD 0 - (c0.rep (f0 + (i - 1))).headD 0 - p0]) ++ ef i)⟩, ?_, ?_, rfl, rfl, ?_, ?_⟩
  · unfold concat
    simp only [hF, Option.bind_some]
    rw [← hbos, hmap]
    simp only [Option.map_some, List.flatMap_map]
  · have hTreg : (PTree.Tree.node r0 p0 F).Regular := by
      simp only [Tree.Regular]; exact ⟨hr0, hne, hfd, hreg⟩
    have hOlen : ((List.range r0).flatMap (fun i => rowO i bos)).length = r0 * nbOccsF F := by
      rw [List.length_flatMap]
      have : (List.range r0).map (fun i => (rowO i bos).length) = (List.range r0).map (fun _ => nbOccsF F) := by
        apply List.map_congr_left
        intro i hi; exact hrowlen i (List.mem_range.mp hi)
      rw [this]; simp
    have blk : ∀ i < r0, ∃ l, ((List.range r0).flatMap (fun i => rowO i bos)).drop (i * nbOccsF F) = rowO i bos ++ l ∧
        (((List.range r0).flatMap (fun i => rowO i bos)).drop (i * nbOccsF F)).take (nbOccsF F) = rowO i bos :=
      fun i hi => block_flatMap _ _ r0 i hrowlen hi
    have hheadrow : ∀ i < r0, ∀ l, (rowO i bos ++ l).headD 0 = (c0.rep (f0 + i)).headD 0 := by
      intro i hi l
      rw [hrow i hi, List.flatMap_cons]
      have hf0 := hrep _ (List.mem_cons_self (a := (c0, f0)) (l := cs))
      simp only at hf0
      have hlo := rep_length c0 (hd _ List.mem_cons_self) (f0 + i) (by omega)
      cases hcr : c0.rep (f0 + i) with
      | nil => rw [hcr] at hlo; simp at hlo; omega
      | cons a o => rfl
    have hcorr : corrT (PTree.Tree.node r0 p0 F) ((List.range r0).flatMap (fun i => rowO i bos)) 0 0 =
        ((c0.rep f0).headD 0 - 0 - 0) :: (List.range r0).flatMap (fun i => (if i = 0 then [] else [(c0.rep (f0 + i)).headD 0 - (c0.rep (f0 + (i - 1))).headD 0 - p0]) ++ ef i) := by
      simp only [corrT]
      have hcongr : (List.range r0).flatMap (fun i => corrF F ((((List.range r0).flatMap (fun i => rowO i bos)).drop (i * nbOccsF F)).take (nbOccsF F))
          (if i = 0 then 0 else (((List.range r0).flatMap (fun i => rowO i bos)).drop ((i - 1) * nbOccsF F)).headD 0) (if i = 0 then 0 else p0)) =
          (List.range r0).flatMap (fun i => ((c0.rep (f0 + i)).headD 0 - (if i = 0 then 0 else (c0.rep (f0 + (i - 1))).headD 0) - (if i = 0 then 0 else p0)) :: ef i) := by
        apply List.flatMap_congr
        intro i hi
        have hi' := List.mem_range.mp hi
        obtain ⟨-, -, hb⟩ := blk i hi'
        rw [hb, (hef i hi').1]
        by_cases h0 : i = 0
        · simp [h0]
        · simp only [h0, if_false]
          obtain ⟨l, hb', -⟩ := blk (i - 1) (by omega)
          rw [hb', hheadrow (i - 1) (by omega)]
      rw [hcongr]
      obtain ⟨r', rfl⟩ : ∃ r', r0 = r' + 1 := ⟨r0 - 1, by omega⟩
      rw [List.range_succ_eq_map, List.flatMap_cons, List.flatMap_cons]
      simp only [if_true, Nat.add_zero, List.nil_append, List.cons_append]
      congr 2
      apply List.flatMap_congr
      intro i hi
      obtain ⟨j, -, rfl⟩ := List.mem_map.mp hi
      simp
    have hlenE : (corrT (PTree.Tree.node r0 p0 F) ((List.range r0).flatMap (fun i => rowO i bos)) 0 0).length = r0 * nbOccsF F :=
      length_corrT (PTree.Tree.node r0 p0 F) _ _ _ hOlen
    have hEl : ((List.range r0).flatMap (fun i => (if i = 0 then [] else [(c0.rep (f0 + i)).headD 0 - (c0.rep (f0 + (i - 1))).headD 0 - p0]) ++ ef i)).length + 1 =
        ((List.range r0).flatMap (fun i => rowO i bos)).length := by
      rw [hOlen, ← hlenE, hcorr, List.length_cons]
    refine ⟨hTreg, hOlen, hEl, ?_⟩
    refine (describes_iff ⟨r0, p0, F, (List.range r0).flatMap (fun i => rowO i bos),
      (List.range r0).flatMap (fun i => (if i = 0 then [] else [(c0.rep (f0 + i)).headD 0 - (c0.rep (f0 + (i - 1))).headD 0 - p0]) ++ ef i)⟩ hTreg hOlen hEl).mpr ?_
    simp only [Cand.tree, hcorr, List.tail_cons]
  · apply List.flatMap_congr
    intro i hi
    exact hrow i (List.mem_range.mp hi)
  · simp only [Cand.events, Cand.tree, gen, List.map_flatMap]
    apply List.flatMap_congr
    intro i _
    exact hev _

/-- Two simple cycles of events 1 and 2. -/
def exA : Cand ℕ := ⟨3, 10, .cons 0 (.leaf 1) .nil, [100, 111, 121], [1, 0]⟩
/-- See `exA`. -/
def exB : Cand ℕ := ⟨4, 10, .cons 0 (.leaf 2) .nil, [93, 103, 114, 122], [0, 1, -2]⟩

example : Describes exA ∧ Describes exB := by
  refine ⟨⟨by simp [exA, Cand.tree, Tree.Regular, Forest.Regular, Forest.NonEmpty, Forest.firstDist], by decide, by decide, 100, by decide, by decide⟩,
    ⟨by simp [exB, Cand.tree, Tree.Regular, Forest.Regular, Forest.NonEmpty, Forest.firstDist], by decide, by decide, 93, by decide, by decide⟩⟩
example : ((concat [(exA, 0), (exB, 1)] 10 3).map (fun c => (c.O, c.E))) = some ([100, 103, 111, 114, 121, 122], [0, 1, 0, 0, -2]) := by decide

/-- A block of two events, repeated twice. -/
def exH : Cand ℕ := ⟨2, 10, .cons 0 (.leaf 1) (.cons 2 (.leaf 2) .nil), [0, 2, 10, 12], [0, 0, 0]⟩
/-- A nested cycle, repeated twice. -/
def exV : Cand ℕ := ⟨2, 10, .cons 0 (.node 2 1 (.cons 0 (.leaf 3) .nil)) .nil, [5, 6, 15, 16], [0, 0, 0]⟩

/-- C59 fails when a part other than the last has several children: the new distance is counted from the first child of the previous part but used from its last child, and the corrections are
computed with the distance of another child. Both parts describe their occurrences, the concatenation says `[0, 2, 5, 6, 10, 12, 15, 16]`, and regenerating gives other times. -/
theorem concat_wrong : Describes exH ∧ Describes exV ∧
    ∃ c, concat [(exH, 0), (exV, 0)] 10 2 = some c ∧ c.O = [0, 2, 5, 6, 10, 12, 15, 16] ∧
      getOccs c.tree (occsStar c.tree [] 0) 0 c.E = some [0, 2, 10, 11, 10, 12, 20, 21] := by
  refine ⟨⟨by simp [exH, Cand.tree, Tree.Regular, Forest.Regular, Forest.NonEmpty, Forest.firstDist], by decide, by decide, 0, by decide, by decide⟩,
    ⟨by simp [exV, Cand.tree, Tree.Regular, Forest.Regular, Forest.NonEmpty, Forest.firstDist], by decide, by decide, 5, by decide, by decide⟩, ?_⟩
  exact ⟨⟨2, 10, .cons 0 (.leaf 1) (.cons 2 (.leaf 2) (.cons 5 (.node 2 1 (.cons 0 (.leaf 3) .nil)) .nil)), [0, 2, 5, 6, 10, 12, 15, 16], [0, 3, 0, 0, 0, 3, 0]⟩,
    rfl, rfl, by decide⟩

end Verif.Concat
