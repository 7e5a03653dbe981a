import Verif.Complex.Model
import Verif.Mine.ShiftProps

/-!
# Moving candidates in time (C126): concatenating and factorising
-/

set_option autoImplicit false
set_option linter.unusedSectionVars false

namespace Verif.Complex

open Verif.PTree Verif.Concat Verif.PattKey Verif.DataSeq Verif.Mine

variable {α : Type}

/-- A candidate moved in time. -/
def mvC (t : ℤ) (c : Cand α) : Cand α := ⟨c.r, c.p, c.ch, sh t c.O, c.E⟩

theorem mvC_majorR (t : ℤ) (c : Cand α) : (mvC t c).majorR = c.majorR := by
  unfold Cand.majorR mvC
  simp only [sh_length]

theorem mvC_blocksO (t : ℤ) (c : Cand α) (k : ℕ) : (mvC t c).blocksO k = (c.blocksO k).map (sh t) := by
  unfold Cand.blocksO
  rw [mvC_majorR]
  simp only [mvC, sh_length, List.map_map]
  refine List.map_congr_left (fun i _ => ?_)
  simp only [Function.comp, sh, List.map_take, List.map_drop]

theorem mvC_blocksE (t : ℤ) (c : Cand α) (k : ℕ) : (mvC t c).blocksE k = c.blocksE k := by
  unfold Cand.blocksE
  rw [mvC_majorR]
  simp only [mvC, sh_length]

theorem head_sh (t : ℤ) (l : List ℤ) : (sh t l).head? = l.head?.map (· + t) := by
  cases l <;> rfl

theorem bind_head_sh (t : ℤ) (o : Option (List ℤ)) : (o.map (sh t)).bind List.head? = (o.bind List.head?).map (· + t) := by
  cases o with
  | none => rfl
  | some l => exact head_sh t l

theorem concatCh_mv (t : ℤ) : ∀ (l : List (Forest α × List (List ℤ))) (prev : Option (List (List ℤ))),
    concatCh (l.map (fun x => (x.1, x.2.map (sh t)))) (prev.map (List.map (sh t))) = concatCh l prev := by
  intro l
  induction l with
  | nil => intro prev; rfl
  | cons x l ih =>
    intro prev
    obtain ⟨ch, bo⟩ := x
    have h1 := ih (some bo)
    rw [Option.map_some] at h1
    cases prev with
    | none =>
      simp only [List.map_cons, Option.map_none, concatCh]
      rw [h1]
    | some bp =>
      simp only [List.map_cons, Option.map_some, concatCh]
      rw [h1]
      simp only [List.head?_map, bind_head_sh]
      cases bo.head?.bind List.head? with
      | none => rfl
      | some h =>
        cases bp.head?.bind List.head? with
        | none => rfl
        | some h' =>
          simp only [Option.map_some]
          rw [show h + t - (h' + t) = h - h' by ring]

theorem row_mv (t : ℤ) (p0 : ℤ) (ri : ℕ) : ∀ (l : List (List (List ℤ) × List (List ℤ))) (prev : Option (List (List ℤ))) (ds : List ℤ),
    row p0 ri (l.map (fun x => (x.1.map (sh t), x.2))) (prev.map (List.map (sh t))) ds = (row p0 ri l prev ds).map (fun x => (sh t x.1, x.2)) := by
  intro l
  induction l with
  | nil => intro prev ds; rfl
  | cons x l ih =>
    intro prev ds
    obtain ⟨bo, be⟩ := x
    have h1 := ih (some bo) ds.tail
    rw [Option.map_some] at h1
    have fin : ∀ (o : Option (List ℤ)) (f e : Option (List ℤ)) (r : Option (List ℤ × List ℤ)),
        (match o.map (sh t), f, e, r.map (fun x => (sh t x.1, x.2)) with
          | some o, some first, some e, some (O, E) => some (o ++ O, first ++ e ++ E)
          | _, _, _, _ => none) = (match o, f, e, r with
          | some o, some first, some e, some (O, E) => some (o ++ O, first ++ e ++ E)
          | _, _, _, _ => none).map (fun x : List ℤ × List ℤ => (sh t x.1, x.2)) := by
      intro o f e r
      cases o with
      | none => rfl
      | some o =>
        cases f with
        | none => rfl
        | some f =>
          cases e with
          | none => rfl
          | some e =>
            cases r with
            | none => rfl
            | some y => simp [sh]
    cases prev with
    | none =>
      simp only [List.map_cons, Option.map_none, row]
      rw [h1]
      refine Eq.trans ?_ (fin bo[ri]? (if ri = 0 then some [] else match bo[ri]?.bind List.head?, bo[ri - 1]?.bind List.head? with
            | some h, some h' => some [h - h' - p0]
            | _, _ => none) be[ri]? (row p0 ri l (some bo) ds.tail))
      simp only [List.getElem?_map, bind_head_sh]
      congr 1
      split_ifs
      · rfl
      · cases bo[ri]?.bind List.head? with
        | none => rfl
        | some h =>
          cases bo[ri - 1]?.bind List.head? with
          | none => rfl
          | some h' =>
            simp only [Option.map_some]
            rw [show h + t - (h' + t) - p0 = h - h' - p0 by ring]
    | some bp =>
      simp only [List.map_cons, Option.map_some, row]
      rw [h1]
      refine Eq.trans ?_ (fin bo[ri]? (match bo[ri]?.bind List.head?, bp[ri]?.bind List.head?, ds.head? with
            | some h, some h', some d => some [h - h' - d]
            | _, _, _ => none) be[ri]? (row p0 ri l (some bo) ds.tail))
      simp only [List.getElem?_map, bind_head_sh]
      congr 1
      cases bo[ri]?.bind List.head? with
      | none => rfl
      | some h =>
        cases bp[ri]?.bind List.head? with
        | none => rfl
        | some h' =>
          cases ds.head? with
          | none => rfl
          | some d =>
            simp only [Option.map_some]
            rw [show h + t - (h' + t) - d = h - h' - d by ring]

theorem concat_mv (t : ℤ) (l : List (Cand α × ℕ)) (p0 : ℤ) (r0 : ℕ) : concat (l.map (fun x => (mvC t x.1, x.2))) p0 r0 = (concat l p0 r0).map (mvC t) := by
  unfold concat
  simp only [List.map_map]
  have e1 : l.map ((fun c : Cand α × ℕ => c.1.blocksO c.2) ∘ fun x => (mvC t x.1, x.2)) = (l.map (fun c => c.1.blocksO c.2)).map (List.map (sh t)) := by
    rw [List.map_map]
    exact List.map_congr_left (fun x _ => mvC_blocksO t x.1 x.2)
  have e2 : l.map ((fun c : Cand α × ℕ => c.1.blocksE c.2) ∘ fun x => (mvC t x.1, x.2)) = l.map (fun c => c.1.blocksE c.2) :=
    List.map_congr_left (fun x _ => mvC_blocksE t x.1 x.2)
  have e3 : l.map ((fun c : Cand α × ℕ => c.1.ch) ∘ fun x => (mvC t x.1, x.2)) = l.map (fun c => c.1.ch) := rfl
  rw [e1, e2, e3]
  have z1 : (l.map (fun c => c.1.ch)).zip ((l.map (fun c => c.1.blocksO c.2)).map (List.map (sh t))) = ((l.map (fun c => c.1.ch)).zip (l.map (fun c => c.1.blocksO c.2))).map (fun x => (x.1, x.2.map (sh t))) := by
    rw [List.zip_map_right]; rfl
  have z2 : ((l.map (fun c => c.1.blocksO c.2)).map (List.map (sh t))).zip (l.map (fun c => c.1.blocksE c.2)) = ((l.map (fun c => c.1.blocksO c.2)).zip (l.map (fun c => c.1.blocksE c.2))).map (fun x => (x.1.map (sh t), x.2)) := by
    rw [List.zip_map_left]; rfl
  rw [z1, z2, show (none : Option (List (List ℤ))) = Option.map (List.map (sh t)) none from rfl, concatCh_mv]
  simp only [row_mv]
  simp only [Option.map_none]
  cases concatCh ((l.map (fun c => c.1.ch)).zip (l.map (fun c => c.1.blocksO c.2))) none with
  | none => rfl
  | some ch =>
    simp only [Option.bind_some]
    have := mapM_map' (fun ri => row p0 ri ((l.map (fun c => c.1.blocksO c.2)).zip (l.map (fun c => c.1.blocksE c.2))) none (dists ch))
      (fun ri => (row p0 ri ((l.map (fun c => c.1.blocksO c.2)).zip (l.map (fun c => c.1.blocksE c.2))) none (dists ch)).map (fun x => (sh t x.1, x.2))) id (fun x => (sh t x.1, x.2)) (fun _ => rfl) (List.range r0)
    rw [List.map_id] at this
    rw [this]
    cases (List.range r0).mapM (fun ri => row p0 ri ((l.map (fun c => c.1.blocksO c.2)).zip (l.map (fun c => c.1.blocksE c.2))) none (dists ch)) with
    | none => rfl
    | some rows =>
      simp only [Option.map_some, Option.some.injEq, mvC, Cand.mk.injEq, true_and]
      constructor
      · rw [List.flatMap_map]
        unfold sh
        rw [List.map_flatMap]
      · rw [List.flatMap_map]

/-! ### Factorising -/

theorem lookup_zip_sh {β : Type} [BEq β] (t : ℤ) (k : β) : ∀ (ks : List β) (l : List ℤ), (ks.zip (sh t l)).lookup k = ((ks.zip l).lookup k).map (· + t) := by
  intro ks l
  unfold sh
  rw [List.zip_map_right]
  exact lookup_snd (· + t) k (ks.zip l)

theorem computeEFromO_mv (t : ℤ) (T : PTree.Tree α) (l : List ℤ) : computeEFromO T (sh t l) = computeEFromO T l := by
  unfold computeEFromO computeEDict
  have : entryE (((occsStar T [] 0).map (fun o => o.2.2)).zip (sh t l)) = entryE (((occsStar T [] 0).map (fun o => o.2.2)).zip l) := by
    funext e
    unfold entryE
    simp only [lookup_zip_sh]
    cases e.2.1 with
    | root => rw [Option.map_map]; rfl
    | nothing => rfl
    | key f =>
      simp only
      cases (((occsStar T [] 0).map (fun o => o.2.2)).zip l).lookup e.1 with
      | none => rfl
      | some a =>
        cases (((occsStar T [] 0).map (fun o => o.2.2)).zip l).lookup f with
        | none => rfl
        | some b =>
          simp only [Option.map_some]
          rw [show a + t - (b + t) - e.2.2 = a - b - e.2.2 by ring]
  simp only [this]

theorem foldlM_map_state {β σ : Type} (f g : σ → β → Option σ) (u : σ → σ) (h : ∀ s x, g (u s) x = (f s x).map u) : ∀ (l : List β) (s : σ), l.foldlM g (u s) = (l.foldlM f s).map u := by
  intro l
  induction l with
  | nil => intro s; rfl
  | cons x l ih =>
    intro s
    rw [List.foldlM_cons, List.foldlM_cons, h]
    cases f s x with
    | none => rfl
    | some s' => exact ih s'

theorem place_mv {γ : Type} [DecidableEq γ] (t : ℤ) (q p : List γ) (O : List ℤ) : place q p (sh t O) = (place q p O).map (sh t) := by
  unfold place
  have e : (List.map (Option.map (· + t)) (List.replicate O.length (none : Option ℤ))) = List.replicate O.length none := by simp
  have h := foldlM_map_state (placeOne q O) (placeOne q (sh t O)) (List.map (Option.map (· + t))) ?_ p.zipIdx (List.replicate O.length none)
  · rw [e] at h
    rw [sh_length, h]
    cases p.zipIdx.foldlM (placeOne q O) (List.replicate O.length none) with
    | none => rfl
    | some acc => exact mapM_map' id id (Option.map (· + t)) (· + t) (fun _ => rfl) acc
  · intro acc x
    unfold placeOne
    have : (sh t O)[x.2]? = O[x.2]?.map (· + t) := List.getElem?_map ..
    rw [this]
    cases posIn q x.1 with
    | none => rfl
    | some k =>
      cases O[x.2]? with
      | none => rfl
      | some o =>
        simp only [Option.map_some, List.length_map]
        split_ifs
        · simp [List.map_set]
        · rfl

theorem refactor_mv [DecidableEq α] (t : ℤ) (P : PTree.Tree (ℕ × α)) (O : List ℤ) (x : List ℕ) : refactor P (sh t O) x = (refactor P O x).map (Option.map (mvC t)) := by
  unfold refactor
  cases factorizeAt x P with
  | none => rfl
  | some T =>
    cases T with
    | leaf a => rfl
    | node r p ch =>
      simp only
      split_ifs
      · rw [place_mv]
        cases place (refs (.node r p ch)) (refs P) O with
        | none => rfl
        | some Qo =>
          simp only [Option.map_some, Option.bind_some, computeEFromO_mv]
          cases computeEFromO (.node r p ch) Qo <;> rfl
      · rfl

theorem factorLoop_mv [DecidableEq α] (t : ℤ) (next : Cand (ℕ × α) → Option (List (Cand (ℕ × α)))) (hn : ∀ c, next (mvC t c) = (next c).map (List.map (mvC t))) (P : PTree.Tree (ℕ × α)) (O : List ℤ) : ∀ ts : List (List ℕ),
    factorLoop next P (sh t O) ts = (factorLoop next P O ts).map (List.map (mvC t)) := by
  intro ts
  induction ts with
  | nil => rfl
  | cons x ts ih =>
    rw [factorLoop, factorLoop, refactor_mv]
    cases refactor P O x with
    | none => rfl
    | some o =>
      cases o with
      | none => rfl
      | some c =>
        simp only [Option.map_some]
        rw [hn, ih]
        cases next c with
        | none => rfl
        | some l =>
          cases factorLoop next P O ts with
          | none => rfl
          | some m => simp

theorem factorAll_mv [DecidableEq α] (t : ℤ) : ∀ (n : ℕ) (c : Cand (ℕ × α)), factorAll n (mvC t c) = (factorAll n c).map (List.map (mvC t))
  | 0, _ => rfl
  | n + 1, c => factorLoop_mv t (factorAll n) (factorAll_mv t n) c.tree c.O (canFactorize c.tree)

theorem factorizePattern_mv [DecidableEq α] (t : ℤ) (n : ℕ) (c : Cand α) : factorizePattern n (mvC t c) = (factorizePattern n c).map (List.map (mvC t)) := by
  unfold factorizePattern
  have := factorAll_mv t n ⟨c.r, c.p, (labelF c.ch 0).1, c.O, c.E⟩
  simp only [mvC] at this ⊢
  rw [this, Option.map_map, Option.map_map]
  congr 1
  funext l
  simp only [Function.comp, List.map_map]
  rfl

end Verif.Complex
