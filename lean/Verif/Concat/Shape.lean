import Verif.Concat.Props

/-!
# Concatenation keeps the shape of candidates

Whatever the corrections are, concatenating candidates of the right shape succeeds and interleaves their occurrences.
-/

set_option autoImplicit false
set_option linter.unusedSectionVars false

namespace Verif.Concat

open Verif.PTree

variable {α : Type}

theorem Describes.shape {c : Cand α} (h : Describes c) : Shape c := ⟨h.1, h.2.1, h.2.2.1⟩

theorem Shape.parts {c : Cand α} (h : Shape c) : 1 ≤ c.r ∧ c.ch.NonEmpty ∧ c.ch.firstDist = 0 ∧ c.ch.Regular := by
  have := h.1
  simpa [Cand.tree, Tree.Regular] using this

theorem Shape.length {c : Cand α} (h : Shape c) : c.O.length = c.r * nbOccsF c.ch := h.2.1

theorem Shape.majorR {c : Cand α} (h : Shape c) : c.majorR = c.r := by
  have hl := h.length
  unfold Cand.majorR
  split
  · rename_i heq
    rw [hl]
    simp [heq, nbOccsF, nbOccs]
  · rfl

theorem Shape.share {c : Cand α} (h : Shape c) : c.O.length / c.majorR = nbOccsF c.ch := by
  rw [h.majorR, h.length]
  exact Nat.mul_div_cancel_left _ h.parts.1

theorem Shape.pos {c : Cand α} (h : Shape c) : 0 < nbOccsF c.ch := nbOccsF_pos _ h.parts.2.2.2 h.parts.2.1

theorem Shape.head {c : Cand α} (h : Shape c) : ∃ t0, c.O.head? = some t0 := by
  have h1 := h.2.2
  cases ho : c.O with
  | nil => rw [ho] at h1; simp at h1
  | cons a l => exact ⟨a, rfl⟩

theorem Shape.blocksO {c : Cand α} (h : Shape c) (f i : ℕ) (hi : f + i < c.r) : (c.blocksO f)[i]? = some (c.rep (f + i)) := by
  unfold Cand.blocksO
  rw [h.share, h.majorR, List.getElem?_map, List.getElem?_range' (by omega)]
  simp [Cand.rep]

theorem Shape.rep {c : Cand α} (h : Shape c) (i : ℕ) (hi : i < c.r) : (c.rep i).length = nbOccsF c.ch := by
  unfold Cand.rep
  rw [List.length_take, List.length_drop, h.length]
  have : (i + 1) * nbOccsF c.ch ≤ c.r * nbOccsF c.ch := Nat.mul_le_mul_right _ hi
  rw [Nat.add_mul] at this
  omega

theorem Shape.blocksE {c : Cand α} (h : Shape c) (f i : ℕ) (hi : f + i < c.r) : ∃ e, (c.blocksE f)[i]? = some e ∧ e.length + 1 = nbOccsF c.ch := by
  unfold Cand.blocksE
  rw [h.share, h.majorR, List.getElem?_map, List.getElem?_range' (by omega)]
  refine ⟨_, rfl, ?_⟩
  have hp := h.pos
  have hE := h.2.2
  rw [h.length] at hE
  have : (f + i + 1) * nbOccsF c.ch ≤ c.r * nbOccsF c.ch := Nat.mul_le_mul_right _ hi
  rw [Nat.add_mul] at this
  simp only [Nat.one_mul, List.length_take, List.length_drop, List.length_cons]
  omega

/-! ### The tree -/

theorem append_regular : ∀ (F G : Forest α), F.Regular → G.Regular → (append F G).Regular
  | .nil, _, _, h => h
  | .cons _ _ rest, G, h, h' => ⟨h.1, append_regular rest G h.2 h'⟩

theorem append_nonempty (F G : Forest α) (h : F.NonEmpty) : (append F G).NonEmpty := by
  cases F with
  | nil => exact absurd h (by simp [Forest.NonEmpty])
  | cons _ _ _ => trivial

theorem append_nb : ∀ (F G : Forest α), nbOccsF (append F G) = nbOccsF F + nbOccsF G
  | .nil, _ => by simp [append, nbOccsF]
  | .cons _ _ rest, G => by simp only [append, nbOccsF, append_nb rest G]; omega

theorem append_dists : ∀ (F G : Forest α), dists (append F G) = dists F ++ dists G
  | .nil, _ => rfl
  | .cons _ _ rest, G => by simp [append, dists, append_dists rest G]

theorem append_first (F G : Forest α) (h : F.NonEmpty) : (append F G).firstDist = F.firstDist := by
  cases F with
  | nil => exact absurd h (by simp [Forest.NonEmpty])
  | cons _ _ _ => rfl

theorem genF_events (F : Forest α) (s s' : ℤ) : (genF F s).map Prod.snd = (genF F s').map Prod.snd := by
  have h1 := genF_shift F 0 s
  have h2 := genF_shift F 0 s'
  rw [zero_add] at h1 h2
  rw [h1, h2]; simp

theorem gen_events (t : PTree.Tree α) (s s' : ℤ) : (gen t s).map Prod.snd = (gen t s').map Prod.snd := by
  have h1 := gen_shift t 0 s
  have h2 := gen_shift t 0 s'
  rw [zero_add] at h1 h2
  rw [h1, h2]; simp

theorem append_events : ∀ (F G : Forest α) (s : ℤ), (genF (append F G) s).map Prod.snd = (genF F 0).map Prod.snd ++ (genF G 0).map Prod.snd
  | .nil, G, s => by simp only [append, genF, List.map_nil, List.nil_append]; exact genF_events G _ _
  | .cons d t rest, G, s => by
    simp only [append, genF, List.map_append, append_events rest G, List.append_assoc]
    rw [gen_events t (s + d) (0 + d), genF_events rest 0 (0 + d)]

theorem dists_pos (F : Forest α) (h : F.NonEmpty) : 1 ≤ (dists F).length := by
  cases F with
  | nil => exact absurd h (by simp [Forest.NonEmpty])
  | cons _ _ _ => simp [dists]

theorem setFirst_spec (d : ℤ) (F : Forest α) (h : F.NonEmpty) (hr : F.Regular) : ∃ G, setFirst d F = some G ∧ G.NonEmpty ∧ G.Regular ∧ nbOccsF G = nbOccsF F ∧
    (genF G 0).map Prod.snd = (genF F 0).map Prod.snd := by
  cases F with
  | nil => exact absurd h (by simp [Forest.NonEmpty])
  | cons d' t rest =>
    refine ⟨.cons d t rest, rfl, trivial, hr, rfl, ?_⟩
    simp only [genF, List.map_append]
    rw [gen_events t (0 + d) (0 + d'), genF_events rest (0 + d) (0 + d')]

/-- The blocks start with an occurrence. -/
def HasHead (bo : List (List ℤ)) (i : ℕ) : Prop := ∃ h, bo[i]?.bind List.head? = some h

theorem concatCh_spec : ∀ (parts : List (Forest α × List (List ℤ))) (prev : Option (List (List ℤ))), (∀ x ∈ parts, x.1.Regular ∧ x.1.NonEmpty ∧ HasHead x.2 0) →
    (∀ bp, prev = some bp → HasHead bp 0) →
    ∃ F, concatCh parts prev = some F ∧ F.Regular ∧ (parts ≠ [] → F.NonEmpty) ∧ nbOccsF F = (parts.map (fun x => nbOccsF x.1)).sum ∧
      (genF F 0).map Prod.snd = parts.flatMap (fun x => (genF x.1 0).map Prod.snd) ∧ parts.length ≤ (dists F).length ∧
      (prev = none → F.firstDist = (parts.head?.map (fun x => x.1.firstDist)).getD 0)
  | [], prev, _, _ => ⟨.nil, rfl, trivial, fun h => absurd rfl h, rfl, rfl, by simp, fun _ => rfl⟩
  | (ch, bo) :: rest, prev, hp, hprev => by
    obtain ⟨hr, hne, hh⟩ := hp (ch, bo) List.mem_cons_self
    simp only at hr hne hh
    obtain ⟨F, f1, f2, f3, f4, f5, f6, f7⟩ := concatCh_spec rest (some bo) (fun x hx => hp x (List.mem_cons_of_mem _ hx)) (by intro bp e; cases e; exact hh)
    obtain ⟨G, g1, g2, g3, g4, g5, g6⟩ : ∃ G, concatCh ((ch, bo) :: rest) prev = some (append G F) ∧ G.NonEmpty ∧ G.Regular ∧ nbOccsF G = nbOccsF ch ∧
        (genF G 0).map Prod.snd = (genF ch 0).map Prod.snd ∧ (prev = none → G = ch) := by
      cases prev with
      | none => exact ⟨ch, by rw [concatCh, f1], hne, hr, rfl, rfl, fun _ => rfl⟩
      | some bp =>
        obtain ⟨h, e1⟩ := hh
        obtain ⟨h', e2⟩ := hprev bp rfl
        obtain ⟨G, g1, g2, g3, g4, g5⟩ := setFirst_spec (h - h') ch hne hr
        rw [← List.head?_eq_getElem?] at e1 e2
        exact ⟨G, by rw [concatCh, f1]; simp only [e1, e2, g1], g2, g3, g4, g5, fun h => by simp at h⟩
    refine ⟨append G F, g1, append_regular _ _ g3 f2, fun _ => append_nonempty _ _ g2, ?_, ?_, ?_, ?_⟩
    · rw [append_nb, g4, f4]; simp
    · rw [append_events, g5, f5]; simp
    · have := dists_pos G g2
      rw [append_dists, List.length_append, List.length_cons]
      omega
    · intro h
      rw [append_first _ _ g2, g6 h]
      rfl

/-! ### The occurrences and corrections -/

theorem row_some (p0 : ℤ) (i : ℕ) : ∀ (parts : List (List (List ℤ) × List (List ℤ))) (bp : List (List ℤ)) (ds : List ℤ), (∀ x ∈ parts, ∃ o e, x.1[i]? = some o ∧ o ≠ [] ∧ x.2[i]? = some e ∧ e.length + 1 = o.length) →
    HasHead bp i → parts.length ≤ ds.length →
    ∃ E, row p0 i parts (some bp) ds = some (parts.flatMap (fun x => x.1.getD i []), E) ∧ E.length = (parts.flatMap (fun x => x.1.getD i [])).length
  | [], bp, ds, _, _, _ => ⟨[], rfl, rfl⟩
  | (bo, be) :: rest, bp, ds, hp, ⟨h', hb⟩, hl => by
    obtain ⟨o, e, h1, h2, h3, h4⟩ := hp (bo, be) List.mem_cons_self
    simp only at h1 h3
    obtain ⟨a, o', rfl⟩ : ∃ a o', o = a :: o' := by cases o with | nil => exact absurd rfl h2 | cons a o' => exact ⟨a, o', rfl⟩
    cases ds with
    | nil => simp at hl
    | cons d ds =>
      obtain ⟨E, r1, r2⟩ := row_some p0 i rest bo ds (fun x hx => hp x (List.mem_cons_of_mem _ hx)) ⟨a, by rw [h1]; rfl⟩ (by simpa using hl)
      refine ⟨[a - h' - d] ++ e ++ E, ?_, ?_⟩
      · rw [row, List.tail_cons, r1]
        simp only [hb, h1, h3, Option.bind_some, List.head?_cons, List.flatMap_cons, List.getD, Option.getD_some]
      · simp only [List.flatMap_cons, List.length_append, r2, List.getD, h1, Option.getD_some, List.length_cons, List.length_nil] at h4 ⊢
        omega

/-- Concatenating candidates of the right shape succeeds and gives a candidate of the right shape, with the occurrences and events of the parts interleaved repetition by repetition. -/
theorem concat_shape (cs : List (Cand α × ℕ)) (hne : cs ≠ []) (p0 : ℤ) (r0 : ℕ) (hr0 : 1 ≤ r0) (hs : ∀ c ∈ cs, Shape c.1) (hrep : ∀ c ∈ cs, c.2 + r0 ≤ c.1.r) :
    ∃ c', concat cs p0 r0 = some c' ∧ Shape c' ∧ c'.r = r0 ∧ c'.p = p0 ∧
      c'.O = (List.range r0).flatMap (fun i => cs.flatMap (fun c => c.1.rep (c.2 + i))) ∧
      c'.events = (List.range r0).flatMap (fun _ => cs.flatMap (fun c => c.1.repEvents)) ∧
      (∀ time, (genF c'.ch time).map Prod.snd = cs.flatMap (fun c => c.1.repEvents)) := by
  obtain ⟨bos, hbos⟩ : ∃ bos, bos = cs.map (fun c => c.1.blocksO c.2) := ⟨_, rfl⟩
  obtain ⟨bes, hbes⟩ : ∃ bes, bes = cs.map (fun c => c.1.blocksE c.2) := ⟨_, rfl⟩
  have hz : bos.zip bes = cs.map (fun c => (c.1.blocksO c.2, c.1.blocksE c.2)) := by rw [hbos, hbes, List.zip_map']
  have hzc : (cs.map (fun c => c.1.ch)).zip bos = cs.map (fun c => (c.1.ch, c.1.blocksO c.2)) := by rw [hbos, List.zip_map']
  have hrepne : ∀ c ∈ cs, ∀ i < r0, c.1.rep (c.2 + i) ≠ [] := by
    intro c hc i hi h
    have := (hs c hc).rep (c.2 + i) (by have := hrep c hc; omega)
    rw [h] at this
    have := (hs c hc).pos
    simp at *
    omega
  have hget : ∀ c ∈ cs, ∀ i < r0, (c.1.blocksO c.2)[i]? = some (c.1.rep (c.2 + i)) := fun c hc i hi => (hs c hc).blocksO _ _ (by have := hrep c hc; omega)
  have hhead : ∀ c ∈ cs, ∀ i < r0, HasHead (c.1.blocksO c.2) i := by
    intro c hc i hi
    rw [HasHead, hget c hc i hi]
    cases he : c.1.rep (c.2 + i) with
    | nil => exact absurd he (hrepne c hc i hi)
    | cons a l => exact ⟨a, rfl⟩
  obtain ⟨F, f1, f2, f3, f4, f5, f6, f7⟩ := concatCh_spec (cs.map (fun c => (c.1.ch, c.1.blocksO c.2))) none (by
    intro x hx
    obtain ⟨c, hc, rfl⟩ := List.mem_map.1 hx
    exact ⟨(hs c hc).parts.2.2.2, (hs c hc).parts.2.1, hhead c hc 0 (by omega)⟩) (by intro bp h; cases h)
  have hFne : F.NonEmpty := f3 (by simpa using hne)
  have hrowO : ∀ i < r0, (cs.map (fun c => (c.1.blocksO c.2, c.1.blocksE c.2))).flatMap (fun x => x.1.getD i []) = cs.flatMap (fun c => c.1.rep (c.2 + i)) := by
    intro i hi
    rw [List.flatMap_map]
    apply List.flatMap_congr
    intro c hc
    simp only [List.getD, hget c hc i hi, Option.getD_some]
  have hrow : ∀ i < r0, ∃ E, row p0 i (bos.zip bes) none (dists F) = some (cs.flatMap (fun c => c.1.rep (c.2 + i)), E) ∧
      E.length + (if i = 0 then 1 else 0) = (cs.flatMap (fun c => c.1.rep (c.2 + i))).length := by
    intro i hi
    rw [hz, ← hrowO i hi]
    cases hcs : cs with
    | nil => exact absurd hcs hne
    | cons c0 rest =>
      rw [hcs] at hget hrepne hhead hs hrep f6
      obtain ⟨e0, b1, b2⟩ := (hs c0 List.mem_cons_self).blocksE c0.2 i (by have := hrep c0 List.mem_cons_self; omega)
      have hl0 := (hs c0 List.mem_cons_self).rep (c0.2 + i) (by have := hrep c0 List.mem_cons_self; omega)
      obtain ⟨E, r1, r2⟩ := row_some p0 i (rest.map (fun c => (c.1.blocksO c.2, c.1.blocksE c.2))) (c0.1.blocksO c0.2) (dists F).tail (by
        intro x hx
        obtain ⟨c, hc, rfl⟩ := List.mem_map.1 hx
        have hc' := List.mem_cons_of_mem c0 hc
        obtain ⟨e, e1, e2⟩ := (hs c hc').blocksE c.2 i (by have := hrep c hc'; omega)
        exact ⟨_, e, hget c hc' i hi, hrepne c hc' i hi, e1, by rw [e2, (hs c hc').rep _ (by have := hrep c hc'; omega)]⟩)
        (hhead c0 List.mem_cons_self i hi) (by
          simp only [List.length_map, List.length_cons, List.length_tail] at f6 ⊢
          omega)
      obtain ⟨h, hh⟩ := hhead c0 List.mem_cons_self i hi
      by_cases h0 : i = 0
      · refine ⟨e0 ++ E, ?_, ?_⟩
        · rw [List.map_cons, row_first p0 i _ _ _ _ _ _ _ 0 0 (hget c0 List.mem_cons_self i hi) b1 r1 (fun h => absurd h0 h)]
          simp only [h0, if_true, List.nil_append, List.flatMap_cons]
          congr 2
          rw [← h0, List.getD, hget c0 List.mem_cons_self i hi]; rfl
        · simp only [h0, if_true, List.map_cons, List.flatMap_cons, List.length_append]
          rw [← h0, r2, List.getD, hget c0 List.mem_cons_self i hi, Option.getD_some, hl0]
          omega
      · obtain ⟨h', hh'⟩ := hhead c0 List.mem_cons_self (i - 1) (by omega)
        refine ⟨[h - h' - p0] ++ e0 ++ E, ?_, ?_⟩
        · rw [List.map_cons, row_first p0 i _ _ _ _ _ _ _ h h' (hget c0 List.mem_cons_self i hi) b1 r1 (fun _ => ⟨hh, hh'⟩)]
          simp only [h0, if_false, List.flatMap_cons]
          congr 2
          rw [List.getD, hget c0 List.mem_cons_self i hi]; rfl
        · simp only [h0, if_false, List.map_cons, List.flatMap_cons, List.length_append, List.length_cons, List.length_nil]
          rw [r2, List.getD, hget c0 List.mem_cons_self i hi, Option.getD_some, hl0]
          omega
  have hrowlen : ∀ i < r0, (cs.flatMap (fun c => c.1.rep (c.2 + i))).length = nbOccsF F := by
    intro i hi
    rw [f4, List.length_flatMap, List.map_map]
    congr 1
    apply List.map_congr_left
    intro c hc
    exact (hs c hc).rep _ (by have := hrep c hc; omega)
  choose e he using fun i : Fin r0 => hrow i.1 i.2
  obtain ⟨ef, hef⟩ : ∃ ef : ℕ → List ℤ, ef = fun i => if h : i < r0 then e ⟨i, h⟩ else [] := ⟨_, rfl⟩
  have hef' : ∀ i < r0, row p0 i (bos.zip bes) none (dists F) = some (cs.flatMap (fun c => c.1.rep (c.2 + i)), ef i) ∧
      (ef i).length + (if i = 0 then 1 else 0) = nbOccsF F := by
    intro i hi
    have := he ⟨i, hi⟩
    rw [hef]
    simp only [hi, dif_pos]
    rw [← hrowlen i hi]
    exact this
  have hmap : (List.range r0).mapM (fun ri => row p0 ri (bos.zip bes) none (dists F)) = some ((List.range r0).map (fun i => (cs.flatMap (fun c => c.1.rep (c.2 + i)), ef i))) := by
    apply mapM_some_map
    intro i hi
    exact (hef' i (List.mem_range.1 hi)).1
  have hev : ∀ time, (genF F time).map Prod.snd = cs.flatMap (fun c => c.1.repEvents) := by
    intro time
    rw [genF_events F time 0, f5, List.flatMap_map]; rfl
  have hOl : ((List.range r0).flatMap (fun i => cs.flatMap (fun c => c.1.rep (c.2 + i)))).length = r0 * nbOccsF F := by
    rw [List.length_flatMap]
    have : (List.range r0).map (fun i => (cs.flatMap (fun c => c.1.rep (c.2 + i))).length) = (List.range r0).map (fun _ => nbOccsF F) := by
      apply List.map_congr_left
      intro i hi; exact hrowlen i (List.mem_range.1 hi)
    rw [this]; simp
  refine ⟨⟨r0, p0, F, (List.range r0).flatMap (fun i => cs.flatMap (fun c => c.1.rep (c.2 + i))), (List.range r0).flatMap ef⟩, ?_, ⟨?_, ?_, ?_⟩, rfl, rfl, rfl, ?_, hev⟩
  · unfold concat
    rw [← hbos, ← hbes]
    simp only [hzc, f1, Option.bind_some, hmap, Option.map_some, List.flatMap_map]
  · simp only [Cand.tree, Tree.Regular]
    refine ⟨hr0, hFne, ?_, f2⟩
    rw [f7 rfl]
    cases hcs : cs with
    | nil => rfl
    | cons c0 rest =>
      simp only [List.map_cons, List.head?_cons, Option.map_some, Option.getD_some]
      exact (hs c0 (by rw [hcs]; exact List.mem_cons_self)).parts.2.2.1
  · exact hOl
  · simp only
    rw [hOl]
    obtain ⟨r', rfl⟩ : ∃ r', r0 = r' + 1 := ⟨r0 - 1, by omega⟩
    rw [List.range_succ_eq_map, List.flatMap_cons, List.length_append, List.flatMap_map, List.length_flatMap]
    have : (List.range r').map (fun i => (ef (Nat.succ i)).length) = (List.range r').map (fun _ => nbOccsF F) := by
      apply List.map_congr_left
      intro i hi
      have := (hef' (i + 1) (by have := List.mem_range.1 hi; omega)).2
      simpa using this
    rw [this]
    have h0 := (hef' 0 (by omega)).2
    have hs' : ((List.range r').map (fun _ => nbOccsF F)).sum = r' * nbOccsF F := by simp
    simp only [if_true] at h0
    rw [hs', Nat.add_mul]
    omega
  · simp only [Cand.events, Cand.tree, gen, List.map_flatMap]
    apply List.flatMap_congr
    intro i _
    exact hev _

end Verif.Concat
