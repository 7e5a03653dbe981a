import Verif.Complex.FactModel
import Verif.Complex.Spec
import Verif.Concat.Shape
import Verif.DataSeq.Lemmas
import Verif.PTree.Props
import Mathlib.Data.List.Nodup

/-!
# Factorising keeps the occurrences (C77)
-/

set_option autoImplicit false
set_option linter.unusedSectionVars false

namespace Verif.Complex

open Verif.PTree Verif.Concat

variable {α β : Type}

/-! ### Changing events -/

mutual
theorem gen_map (f : α → β) : ∀ (t : PTree.Tree α) (time : ℤ), gen (mapT f t) time = (gen t time).map (fun x => (x.1, f x.2))
  | .leaf a, time => by simp [mapT, gen]
  | .node r p ch, time => by
    simp only [mapT, gen, List.map_flatMap]
    apply List.flatMap_congr
    intro i _
    exact genF_map f ch _
theorem genF_map (f : α → β) : ∀ (ch : Forest α) (time : ℤ), genF (mapF f ch) time = (genF ch time).map (fun x => (x.1, f x.2))
  | .nil, _ => by simp [mapF, genF]
  | .cons d t rest, time => by simp only [mapF, genF, List.map_append, gen_map f t, genF_map f rest]
end

mutual
theorem occsStar_map (f : α → β) : ∀ (t : PTree.Tree α) (pref : Path) (time : ℤ), occsStar (mapT f t) pref time = (occsStar t pref time).map (fun x => (x.1, f x.2.1, x.2.2))
  | .leaf a, _, _ => by simp [mapT, occsStar]
  | .node r p ch, pref, time => by
    simp only [mapT, occsStar, List.map_flatMap]
    apply List.flatMap_congr
    intro i _
    exact occsStarF_map f ch _ _ _ _
theorem occsStarF_map (f : α → β) : ∀ (ch : Forest α) (ni i : ℕ) (pref : Path) (time : ℤ), occsStarF (mapF f ch) ni i pref time = (occsStarF ch ni i pref time).map (fun x => (x.1, f x.2.1, x.2.2))
  | .nil, _, _, _, _ => by simp [mapF, occsStarF]
  | .cons d t rest, ni, i, pref, time => by simp only [mapF, occsStarF, List.map_append, occsStar_map f t, occsStarF_map f rest]
end

mutual
theorem nb_map (f : α → β) : ∀ t : PTree.Tree α, nbOccs (mapT f t) = nbOccs t
  | .leaf a => rfl
  | .node r p ch => by simp only [mapT, nbOccs, nbF_map f ch]
theorem nbF_map (f : α → β) : ∀ ch : Forest α, nbOccsF (mapF f ch) = nbOccsF ch
  | .nil => rfl
  | .cons d t rest => by simp only [mapF, nbOccsF, nb_map f t, nbF_map f rest]
end

theorem nonEmpty_map (f : α → β) (ch : Forest α) : (mapF f ch).NonEmpty ↔ ch.NonEmpty := by cases ch <;> simp [mapF, Forest.NonEmpty]

theorem firstDist_map (f : α → β) (ch : Forest α) : (mapF f ch).firstDist = ch.firstDist := by cases ch <;> rfl

mutual
theorem regular_map (f : α → β) : ∀ t : PTree.Tree α, (mapT f t).Regular ↔ t.Regular
  | .leaf a => by simp [mapT, Tree.Regular]
  | .node r p ch => by simp only [mapT, Tree.Regular, regularF_map f ch, nonEmpty_map, firstDist_map]
theorem regularF_map (f : α → β) : ∀ ch : Forest α, (mapF f ch).Regular ↔ ch.Regular
  | .nil => by simp [mapF, Forest.Regular]
  | .cons d t rest => by simp only [mapF, Forest.Regular, regular_map f t, regularF_map f rest]
end

theorem get?_map (f : α → β) : ∀ (ch : Forest α) (c : ℕ), (mapF f ch).get? c = (ch.get? c).map (mapT f)
  | .nil, _ => rfl
  | .cons _ _ _, 0 => rfl
  | .cons _ _ rest, c + 1 => get?_map f rest c

theorem nodeAt_map (f : α → β) : ∀ (k : Path) (t : PTree.Tree α), nodeAt (mapT f t) k = (nodeAt t k).map (mapT f)
  | [], t => by simp [nodeAt]
  | (c, i) :: k, .leaf a => rfl
  | (c, i) :: k, .node r p ch => by
    simp only [mapT, nodeAt, get?_map]
    cases ch.get? c with
    | none => rfl
    | some t => simp only [Option.map_some, Option.bind_some]; exact nodeAt_map f k t

theorem leftmost_map (f : α → β) : ∀ (t : PTree.Tree α), leftmost (mapT f t) = leftmost t
  | .leaf a => rfl
  | .node r p .nil => rfl
  | .node r p (.cons d t rest) => by simp only [mapT, mapF, leftmost, leftmost_map f t]

theorem leafKey_map (f : α → β) (t : PTree.Tree α) (k : Path) : leafKeyFromKey (mapT f t) k = leafKeyFromKey t k := by
  unfold leafKeyFromKey
  rw [nodeAt_map]
  cases nodeAt t k with
  | none => rfl
  | some t => simp [leftmost_map]

theorem leafRep_map (f : α → β) (t : PTree.Tree α) (k : Path) (i : ℕ) : leafKeyFromRep (mapT f t) k i = leafKeyFromRep t k i := by
  unfold leafKeyFromRep
  rw [nodeAt_map]
  cases nodeAt t k with
  | none => rfl
  | some t =>
    simp only [Option.map_some, Option.bind_some]
    match t with
    | .leaf a => rfl
    | .node r p .nil => rfl
    | .node r p (.cons d t rest) => simp only [mapT, mapF, leftmost_map]

theorem gatherRev_map (f : α → β) (t : PTree.Tree α) : ∀ k : Path, gatherRev (mapT f t) k = gatherRev t k
  | [] => rfl
  | (c, i) :: k => by simp only [gatherRev, leafKey_map, leafRep_map, gatherRev_map f t k]

theorem getCCorr_map (f : α → β) (t : PTree.Tree α) (k : Path) (Ed : List (Path × ℤ)) : getCCorr (mapT f t) k Ed = getCCorr t k Ed := by
  simp only [getCCorr, gather, gatherRev_map]

theorem getOccs_map (f : α → β) (t : PTree.Tree α) (t0 : ℤ) (E : List ℤ) : getOccs (mapT f t) (occsStar (mapT f t) [] 0) t0 E = getOccs t (occsStar t [] 0) t0 E := by
  unfold getOccs getEDict
  rw [occsStar_map]
  simp only [List.length_map, List.map_map]
  rw [List.mapM_map]
  simp only [getCCorr_map, Function.comp_def]

theorem getCovSeq_map (f : α → β) (t : PTree.Tree α) (t0 : ℤ) (E : List ℤ) : getCovSeq (mapT f t) t0 E = (getCovSeq t t0 E).map (fun l => l.map (fun x => (x.1, f x.2))) := by
  have : ∀ (l : List (ℤ × α × Path)) (g : Path → Option ℤ), (l.map (fun x => (x.1, f x.2.1, x.2.2))).mapM (fun o => (g o.2.2).map (fun c => (o.1 + t0 + c, o.2.1))) =
      (l.mapM (fun o => (g o.2.2).map (fun c => (o.1 + t0 + c, o.2.1)))).map (fun l => l.map (fun x => (x.1, f x.2))) := by
    intro l g
    induction l with
    | nil => rfl
    | cons o l ih =>
      rw [List.map_cons, List.mapM_cons, List.mapM_cons, ih]
      cases g o.2.2 with
      | none => rfl
      | some c => cases l.mapM (fun o => (g o.2.2).map (fun c => (o.1 + t0 + c, o.2.1))) <;> rfl
  unfold getCovSeq getEDict
  rw [occsStar_map]
  simp only [List.length_map, List.map_map, getCCorr_map, Function.comp_def]
  exact this _ (fun k => getCCorr t k _)

theorem tree_mapC (f : α → β) (c : Cand α) : (mapC f c).tree = mapT f c.tree := rfl

theorem events_mapC (f : α → β) (c : Cand α) : (mapC f c).events = c.events.map f := by
  unfold Cand.events
  rw [tree_mapC, gen_map, List.map_map, List.map_map]; rfl

theorem shape_mapC (f : α → β) (c : Cand α) : Shape (mapC f c) ↔ Shape c := by
  unfold Shape
  rw [tree_mapC, regular_map, nb_map]; rfl

theorem describes_mapC (f : α → β) (c : Cand α) : Describes (mapC f c) ↔ Describes c := by
  unfold Describes
  rw [tree_mapC, regular_map, nb_map]
  simp only [getOccs_map]
  rfl

theorem pairs_mapC (f : α → β) (c : Cand α) : pairs (mapC f c) = (pairs c).map (fun x => (x.1, f x.2)) := by
  unfold pairs
  rw [events_mapC, List.zip_map_right]; rfl

mutual
theorem label_erase : ∀ (t : PTree.Tree α) (n : ℕ), mapT Prod.snd (label t n).1 = t
  | .leaf a, n => rfl
  | .node r p ch, n => by simp only [label, mapT, labelF_erase ch n]
theorem labelF_erase : ∀ (ch : Forest α) (n : ℕ), mapF Prod.snd (labelF ch n).1 = ch
  | .nil, n => rfl
  | .cons d t rest, n => by simp only [labelF, mapF, label_erase t n, labelF_erase rest]
end

/-! ### Number of inner nodes -/

mutual
/-- The number of inner nodes. -/
def inner : PTree.Tree α → ℕ
  | .leaf _ => 0
  | .node _ _ ch => 1 + innerF ch
/-- The sum over the children. -/
def innerF : Forest α → ℕ
  | .nil => 0
  | .cons _ t rest => inner t + innerF rest
end

mutual
theorem inner_map (f : α → β) : ∀ t : PTree.Tree α, inner (mapT f t) = inner t
  | .leaf a => rfl
  | .node r p ch => by simp only [mapT, inner, innerF_map f ch]
theorem innerF_map (f : α → β) : ∀ ch : Forest α, innerF (mapF f ch) = innerF ch
  | .nil => rfl
  | .cons d t rest => by simp only [mapF, innerF, inner_map f t, innerF_map f rest]
end

theorem grand_inner (p : ℤ) (r : ℕ) : ∀ (ch nch : Forest α), sameCycle p r ch = true → grandChildren ch = some nch → innerF ch = (dists ch).length + innerF nch
  | .nil, nch, _, h => by
    simp only [grandChildren, Option.some.injEq] at h
    subst h; rfl
  | .cons d t rest, nch, h, hg => by
    simp only [sameCycle] at h
    cases t with
    | leaf ev => simp [onlyChild] at h
    | node r' p' ch' =>
      cases ch' with
      | nil => simp [onlyChild] at h
      | cons d' g rest' =>
        cases rest' with
        | cons _ _ _ => simp [onlyChild] at h
        | nil =>
          simp only [onlyChild, Bool.and_eq_true, beq_iff_eq] at h
          obtain ⟨-, hs⟩ := h
          simp only [grandChildren] at hg
          cases hr : grandChildren rest with
          | none => rw [hr] at hg; cases hg
          | some nr =>
            rw [hr] at hg
            simp only [Option.some.injEq] at hg
            subst hg
            have := grand_inner p r rest nr hs hr
            simp only [innerF, inner, dists, List.length_cons]
            omega

theorem here_inner (t t' : PTree.Tree α) (h : canFactorizeHere t = true) (e : factorizeHere t = some t') : inner t' < inner t := by
  cases t with
  | leaf ev => simp [canFactorizeHere] at h
  | node r p ch =>
    cases ch with
    | nil => simp [canFactorizeHere] at h
    | cons d t rest =>
      cases rest with
      | nil => simp [canFactorizeHere] at h
      | cons d2 t2 rest =>
        cases t with
        | leaf ev => simp [canFactorizeHere, onlyChild] at h
        | node r' p' ch' =>
          cases ch' with
          | nil => simp [canFactorizeHere, onlyChild] at h
          | cons d' g rest' =>
            cases rest' with
            | cons _ _ _ => simp [canFactorizeHere, onlyChild] at h
            | nil =>
              have hs : sameCycle p' r' (.cons d (.node r' p' (.cons d' g .nil)) (.cons d2 t2 rest)) = true := by
                simp only [canFactorizeHere, onlyChild] at h
                rw [sameCycle]
                simp [onlyChild, h]
              simp only [factorizeHere] at e
              cases hg : grandChildren (.cons d (.node r' p' (.cons d' g .nil)) (.cons d2 t2 rest)) with
              | none => rw [hg] at e; cases e
              | some nch =>
                rw [hg] at e
                simp only [Option.map_some, Option.some.injEq] at e
                subst e
                have := grand_inner p' r' _ _ hs hg
                rw [inner, inner, this]
                simp only [innerF, inner, dists, List.length_cons]
                omega

theorem modify_inner (f : PTree.Tree α → Option (PTree.Tree α)) : ∀ (ch : Forest α) (c : ℕ) (t : PTree.Tree α) (ch' : Forest α), ch.get? c = some t → (∀ t', f t = some t' → inner t' < inner t) →
    ch.modify? c f = some ch' → innerF ch' < innerF ch
  | .nil, _, _, _, h, _, _ => by cases h
  | .cons d t rest, 0, t0, ch', h, hf, e => by
    simp only [Forest.get?, Option.some.injEq] at h
    subst h
    simp only [Forest.modify?, Option.map_eq_some_iff] at e
    obtain ⟨t', e1, rfl⟩ := e
    have := hf t' e1
    simp only [innerF]; omega
  | .cons d t rest, c + 1, t0, ch', h, hf, e => by
    simp only [Forest.modify?, Option.map_eq_some_iff] at e
    obtain ⟨r', e1, rfl⟩ := e
    have := modify_inner f rest c t0 r' h hf e1
    simp only [innerF]; omega

theorem canF_mem : ∀ (ch : Forest α) (n : ℕ) (k : List ℕ), k ∈ canFactorizeF ch n → ∃ c k' t, k = (n + c) :: k' ∧ ch.get? c = some t ∧ k' ∈ canFactorize t
  | .nil, _, _, h => by simp [canFactorizeF] at h
  | .cons d t rest, n, k, h => by
    simp only [canFactorizeF, List.mem_append, List.mem_map] at h
    rcases h with ⟨k', hk', rfl⟩ | h
    · exact ⟨0, k', t, rfl, rfl, hk'⟩
    · obtain ⟨c, k', t', rfl, h2, h3⟩ := canF_mem rest (n + 1) k h
      exact ⟨c + 1, k', t', by rw [Nat.add_assoc, Nat.add_comm 1 c], h2, h3⟩

theorem at_inner : ∀ (k : List ℕ) (t t' : PTree.Tree α), k ∈ canFactorize t → factorizeAt k t = some t' → inner t' < inner t ∧ ∀ r p ch, t = .node r p ch → ∃ ch', t' = .node r p ch' := by
  intro k
  induction k with
  | nil =>
    intro t t' h e
    have hh : canFactorizeHere t = true := by
      cases t with
      | leaf a => simp [canFactorize] at h
      | node r p ch =>
        simp only [canFactorize, List.mem_append] at h
        rcases h with h | h
        · obtain ⟨c, k', t, hk, -⟩ := canF_mem ch 0 [] h
          cases hk
        · by_contra hc
          rw [if_neg hc] at h
          cases h
    refine ⟨here_inner t t' hh e, ?_⟩
    rintro r p ch rfl
    simp only [factorizeAt] at e
    unfold factorizeHere at e
    split at e
    · rename_i heq
      cases heq
      simp only [Option.map_eq_some_iff] at e
      obtain ⟨n, -, rfl⟩ := e
      exact ⟨_, rfl⟩
    · cases e
  | cons c k ih =>
    intro t t' h e
    cases t with
    | leaf a => simp [canFactorize] at h
    | node r p ch =>
      simp only [canFactorize, List.mem_append] at h
      have hm : c :: k ∈ canFactorizeF ch 0 := by
        rcases h with h | h
        · exact h
        · split at h
          · simp at h
          · cases h
      obtain ⟨c', k', t1, hk, h2, h3⟩ := canF_mem ch 0 _ hm
      simp only [List.cons.injEq, Nat.zero_add] at hk
      obtain ⟨rfl, rfl⟩ := hk
      simp only [factorizeAt, Option.map_eq_some_iff] at e
      obtain ⟨ch', e1, rfl⟩ := e
      have := modify_inner (factorizeAt k) ch c t1 ch' h2 (fun t' ht' => (ih t1 t' h3 ht').1) e1
      refine ⟨by simp only [inner]; omega, ?_⟩
      rintro r p ch e
      cases e
      exact ⟨ch', rfl⟩

/-! ### The occurrences in another order -/

section Place

variable {γ : Type} [DecidableEq γ]

theorem posIn_nodup (q : List γ) (hq : q.Nodup) (k : ℕ) (r : γ) (h : q[k]? = some r) : posIn q r = some k := by
  unfold posIn
  apply DataSeq.lookup_of_mem
  · rw [List.map_reverse, List.nodup_reverse]
    simpa using hq
  · rw [List.mem_reverse, List.mem_zipIdx_iff_getElem?]
    exact h

theorem setLoop (q : List γ) (O : List ℤ) : ∀ (l : List (γ × ℕ)) (acc : List (Option ℤ)),
    (∀ x ∈ l, ∃ k o, posIn q x.1 = some k ∧ k < acc.length ∧ O[x.2]? = some o) → (l.Pairwise (fun x y => posIn q x.1 ≠ posIn q y.1)) →
    ∃ acc', l.foldlM (placeOne q O) acc = some acc' ∧ acc'.length = acc.length ∧ (∀ x ∈ l, ∀ k, posIn q x.1 = some k → acc'[k]? = some O[x.2]?) ∧
      ∀ k, (∀ x ∈ l, posIn q x.1 ≠ some k) → acc'[k]? = acc[k]?
  | [], acc, _, _ => ⟨acc, rfl, rfl, by simp, fun _ _ => rfl⟩
  | x :: l, acc, h, hp => by
    obtain ⟨k, o, h1, h2, h3⟩ := h x List.mem_cons_self
    rw [List.pairwise_cons] at hp
    have hstep : placeOne q O acc x = some (acc.set k (some o)) := by
      unfold placeOne
      rw [h1, h3]
      simp only
      rw [if_pos h2]
    obtain ⟨acc', e1, e2, e3, e4⟩ := setLoop q O l (acc.set k (some o)) (by
      intro y hy
      obtain ⟨k', o', a, b, c⟩ := h y (List.mem_cons_of_mem _ hy)
      exact ⟨k', o', a, by rw [List.length_set]; exact b, c⟩) hp.2
    refine ⟨acc', ?_, by rw [e2, List.length_set], ?_, ?_⟩
    · rw [List.foldlM_cons, hstep]; exact e1
    · intro y hy k' hk'
      rcases List.mem_cons.1 hy with rfl | hy
      · rw [h1] at hk'
        obtain rfl := Option.some.inj hk'
        rw [e4 k (fun z hz e => hp.1 z hz (by rw [h1, e])), h3]
        simp [h2]
      · exact e3 y hy k' hk'
    · intro k' hk'
      rw [e4 k' (fun z hz => hk' z (List.mem_cons_of_mem _ hz)), List.getElem?_set_ne]
      intro e
      exact hk' x List.mem_cons_self (by rw [h1, e])

/-- The occurrences follow their references. -/
theorem place_spec (q p : List γ) (O : List ℤ) (hp : p.Nodup) (hperm : q.Perm p) (hl : O.length = p.length) :
    ∃ Q, place q p O = some Q ∧ ∃ val : γ → ℤ, O = p.map val ∧ Q = q.map val := by
  have hq : q.Nodup := hperm.nodup_iff.2 hp
  obtain ⟨val, hval⟩ : ∃ val : γ → ℤ, val = fun r => (O[p.idxOf r]?).getD 0 := ⟨_, rfl⟩
  have hv : ∀ (i : ℕ) (r : γ), p[i]? = some r → O[i]? = some (val r) := by
    intro i r h
    obtain ⟨hi, rfl⟩ := List.getElem?_eq_some_iff.1 h
    rw [hval]
    simp only
    rw [hp.idxOf_getElem]
    rw [List.getElem?_eq_getElem (by omega)]; rfl
  have hpos : ∀ x ∈ p.zipIdx, ∃ k, q[k]? = some x.1 ∧ posIn q x.1 = some k ∧ k < q.length := by
    intro x hx
    have hm : x.1 ∈ q := hperm.mem_iff.2 (List.mem_of_getElem? (List.mem_zipIdx_iff_getElem?.1 hx))
    obtain ⟨k, hk, e⟩ := List.getElem_of_mem hm
    have hk' : q[k]? = some x.1 := by rw [List.getElem?_eq_getElem hk, e]
    exact ⟨k, hk', posIn_nodup q hq k x.1 hk', hk⟩
  obtain ⟨acc, a1, a2, a3, -⟩ := setLoop q O p.zipIdx (List.replicate O.length none) (by
    intro x hx
    obtain ⟨k, -, h2, h3⟩ := hpos x hx
    refine ⟨k, val x.1, h2, ?_, hv x.2 x.1 (List.mem_zipIdx_iff_getElem?.1 hx)⟩
    rw [List.length_replicate, hl, ← hperm.length_eq]; exact h3) (by
    have hz : (p.zipIdx).Pairwise (fun x y => x.1 ≠ y.1) := by
      have : (p.zipIdx.map Prod.fst).Nodup := by simpa using hp
      exact List.pairwise_map.1 this
    refine hz.imp_of_mem ?_
    intro x y hx hy hxy e
    obtain ⟨k, h1, h2, -⟩ := hpos x hx
    obtain ⟨k', h1', h2', -⟩ := hpos y hy
    rw [h2, h2', Option.some.injEq] at e
    rw [← e, h1, Option.some.injEq] at h1'
    exact hxy h1')
  have hacc : acc = (q.map val).map some := by
    apply List.ext_getElem?
    intro k
    by_cases hk : k < q.length
    · have hm : q[k] ∈ p := hperm.mem_iff.1 (List.getElem_mem hk)
      obtain ⟨i, hi, e⟩ := List.getElem_of_mem hm
      have hpi : p[i]? = some q[k] := by rw [List.getElem?_eq_getElem hi, e]
      rw [a3 (q[k], i) (List.mem_zipIdx_iff_getElem?.2 hpi) k (posIn_nodup q hq k _ (List.getElem?_eq_getElem hk)), hv i _ hpi]
      simp [hk]
    · rw [List.getElem?_eq_none (by rw [a2, List.length_replicate, hl, ← hperm.length_eq]; omega), List.getElem?_eq_none (by simp; omega)]
  refine ⟨q.map val, ?_, val, ?_, rfl⟩
  · unfold place
    rw [a1, Option.bind_some, hacc]
    have := mapM_some_map ((q.map val).map some) id (fun x : Option ℤ => x.getD 0) (by
      intro x hx
      obtain ⟨y, -, rfl⟩ := List.mem_map.1 hx
      rfl)
    rw [this, List.map_map]
    congr 1
    simp [Function.comp_def]
  · apply List.ext_getElem?
    intro i
    by_cases hi : i < p.length
    · rw [hv i p[i] (List.getElem?_eq_getElem hi)]
      simp [hi]
    · rw [List.getElem?_eq_none (by omega), List.getElem?_eq_none (by simp; omega)]

end Place

/-! ### The candidates -/

theorem refs_gen (t : PTree.Tree (ℕ × α)) : refs t = gen t 0 := (gen_eq t [] 0).symm

/-! ### No factorisation is forgotten -/

theorem onlyChild_map (f : α → β) (t : PTree.Tree α) : onlyChild (mapT f t) = (onlyChild t).map (fun x => (x.1, x.2.1, x.2.2.1, mapT f x.2.2.2)) := by
  match t with
  | .leaf _ => rfl
  | .node _ _ .nil => rfl
  | .node _ _ (.cons _ _ .nil) => rfl
  | .node _ _ (.cons _ _ (.cons _ _ _)) => rfl

theorem sameCycle_map (f : α → β) (p : ℤ) (r : ℕ) : ∀ ch : Forest α, sameCycle p r (mapF f ch) = sameCycle p r ch
  | .nil => rfl
  | .cons d t rest => by
    simp only [mapF, sameCycle, onlyChild_map, sameCycle_map f p r rest]
    cases onlyChild t <;> rfl

theorem canHere_map (f : α → β) (t : PTree.Tree α) : canFactorizeHere (mapT f t) = canFactorizeHere t := by
  match t with
  | .leaf _ => rfl
  | .node _ _ .nil => rfl
  | .node _ _ (.cons _ _ .nil) => rfl
  | .node _ _ (.cons _ t (.cons d' t' rest)) =>
    have := sameCycle_map f
    simp only [mapT, mapF, canFactorizeHere, onlyChild_map]
    cases onlyChild t with
    | none => rfl
    | some x => exact this x.1 x.2.1 (.cons d' t' rest)

mutual
theorem can_map (f : α → β) : ∀ t : PTree.Tree α, canFactorize (mapT f t) = canFactorize t
  | .leaf _ => rfl
  | .node r p ch => by
    have h := canHere_map f (.node r p ch)
    simp only [mapT] at h
    simp only [mapT, canFactorize, canF_map f ch, h]
theorem canF_map (f : α → β) : ∀ (ch : Forest α) (n : ℕ), canFactorizeF (mapF f ch) n = canFactorizeF ch n
  | .nil, _ => rfl
  | .cons d t rest, n => by simp only [mapF, canFactorizeF, can_map f t, canF_map f rest]
end

theorem grand_map (f : α → β) : ∀ ch : Forest α, grandChildren (mapF f ch) = (grandChildren ch).map (mapF f)
  | .nil => rfl
  | .cons d t rest => by
    simp only [mapF, grandChildren, grand_map f rest]
    match t with
    | .leaf _ => rfl
    | .node _ _ .nil => rfl
    | .node _ _ (.cons _ _ _) => cases grandChildren rest <;> rfl

theorem here_map (f : α → β) (t : PTree.Tree α) : factorizeHere (mapT f t) = (factorizeHere t).map (mapT f) := by
  match t with
  | .leaf _ => rfl
  | .node _ _ .nil => rfl
  | .node _ _ (.cons _ (.leaf _) _) => rfl
  | .node r p (.cons d (.node r' p' ch') rest) =>
    have := grand_map f (.cons d (.node r' p' ch') rest)
    simp only [mapF, mapT] at this
    simp only [mapT, mapF, factorizeHere, this]
    cases grandChildren (.cons d (.node r' p' ch') rest) <;> rfl

theorem modify_map (f : α → β) (g : PTree.Tree α → Option (PTree.Tree α)) (g' : PTree.Tree β → Option (PTree.Tree β)) (h : ∀ t, g' (mapT f t) = (g t).map (mapT f)) :
    ∀ (ch : Forest α) (c : ℕ), (mapF f ch).modify? c g' = (ch.modify? c g).map (mapF f)
  | .nil, _ => rfl
  | .cons d t rest, 0 => by
    simp only [mapF, Forest.modify?, h]
    cases g t <;> rfl
  | .cons d t rest, c + 1 => by
    simp only [mapF, Forest.modify?, modify_map f g g' h rest c]
    cases rest.modify? c g <;> rfl

theorem at_map (f : α → β) : ∀ (k : List ℕ) (t : PTree.Tree α), factorizeAt k (mapT f t) = (factorizeAt k t).map (mapT f)
  | [], t => here_map f t
  | c :: k, .leaf _ => rfl
  | c :: k, .node r p ch => by
    simp only [mapT, factorizeAt]
    rw [modify_map f (factorizeAt k) (factorizeAt k) (at_map f k)]
    cases ch.modify? c (factorizeAt k) <;> rfl

variable [DecidableEq α]

/-- One factorisation. -/
theorem refactor_spec (c : Cand (ℕ × α)) (hs : Shape c) (k : List ℕ) (hk : k ∈ canFactorize c.tree) :
    refactor c.tree c.O k = some none ∨
      ∃ c', refactor c.tree c.O k = some (some c') ∧ Describes c' ∧ (pairs c').Perm (pairs c) ∧ c'.r = c.r ∧ c'.p = c.p ∧ inner c'.tree < inner c.tree := by
  obtain ⟨T', e1, e2, e3, e4⟩ := factorize_preserves c.tree hs.1 k hk
  obtain ⟨hin, hroot⟩ := at_inner k c.tree T' hk e1
  obtain ⟨ch', rfl⟩ := hroot c.r c.p c.ch rfl
  by_cases hn : (refs c.tree).Nodup
  · right
    have hperm : (refs (.node c.r c.p ch')).Perm (refs c.tree) := by rw [refs_gen, refs_gen]; exact e4 0
    have hlen : c.O.length = (refs c.tree).length := by rw [refs_gen, length_gen]; exact hs.2.1
    obtain ⟨Q, q1, val, q2, q3⟩ := place_spec _ _ c.O hn hperm hlen
    have hQl : Q.length = nbOccs (.node c.r c.p ch' : PTree.Tree (ℕ × α)) := by rw [q3, List.length_map, refs_gen, length_gen]
    obtain ⟨t0, ts, hQ⟩ : ∃ t0 ts, Q = t0 :: ts := by
      cases Q with
      | nil =>
        have := nbOccs_pos _ e2
        simp only [List.length_nil] at hQl
        omega
      | cons a l => exact ⟨a, l, rfl⟩
    obtain ⟨E, E1, E2, E3⟩ := corrections_roundtrip _ e2 t0 ts (by rw [← hQ]; exact hQl)
    rw [← hQ] at E1 E3
    refine ⟨⟨c.r, c.p, ch', Q, E⟩, ?_, ⟨e2, hQl, by simp only [E2, hQ, List.length_cons], t0, by simp [hQ], E3⟩, ?_, rfl, rfl, hin⟩
    · unfold refactor
      rw [e1]
      simp only
      rw [if_pos hn, q1, Option.bind_some, E1]; rfl
    · have h1 : pairs (⟨c.r, c.p, ch', Q, E⟩ : Cand (ℕ × α)) = (refs (.node c.r c.p ch')).map (fun r => (val r, r.2)) := by
        unfold pairs Cand.events Cand.tree
        simp only
        rw [← refs_gen, q3, List.zip_map']
      have h2 : pairs c = (refs c.tree).map (fun r => (val r, r.2)) := by
        unfold pairs Cand.events
        rw [← refs_gen, q2, List.zip_map']
      rw [h1, h2]
      exact hperm.map _
  · left
    unfold refactor
    rw [e1]
    simp only
    rw [if_neg hn]

theorem factorLoop_spec (next : Cand (ℕ × α) → Option (List (Cand (ℕ × α)))) (c : Cand (ℕ × α)) (hs : Shape c) (Q : Cand (ℕ × α) → Prop)
    (hQ : ∀ c', Describes c' → (pairs c').Perm (pairs c) → c'.r = c.r → c'.p = c.p → Q c')
    (hn : ∀ c', Describes c' → (pairs c').Perm (pairs c) → c'.r = c.r → c'.p = c.p → inner c'.tree < inner c.tree → ∃ l, next c' = some l ∧ ∀ f ∈ l, Q f) :
    ∀ ks, (∀ k ∈ ks, k ∈ canFactorize c.tree) → ∃ fs, factorLoop next c.tree c.O ks = some fs ∧ ∀ f ∈ fs, Q f
  | [], _ => ⟨[], rfl, by simp⟩
  | k :: ks, hks => by
    rcases refactor_spec c hs k (hks k List.mem_cons_self) with h | ⟨c', h1, h2, h3, h4, h5, h6⟩
    · exact ⟨[], by rw [factorLoop, h], by simp⟩
    · obtain ⟨l, l1, l2⟩ := hn c' h2 h3 h4 h5 h6
      obtain ⟨m, m1, m2⟩ := factorLoop_spec next c hs Q hQ hn ks (fun k hk => hks k (List.mem_cons_of_mem _ hk))
      refine ⟨c' :: (l ++ m), by rw [factorLoop, h1]; simp only [l1, m1], ?_⟩
      intro f hf
      rw [List.mem_cons, List.mem_append] at hf
      rcases hf with rfl | hf | hf
      · exact hQ _ h2 h3 h4 h5
      · exact l2 f hf
      · exact m2 f hf

theorem factorAll_spec : ∀ (n : ℕ) (c : Cand (ℕ × α)), Shape c → inner c.tree ≤ n →
    ∃ fs, factorAll n c = some fs ∧ ∀ f ∈ fs, Describes f ∧ (pairs f).Perm (pairs c) ∧ f.r = c.r ∧ f.p = c.p
  | 0, c, _, h => by simp [Cand.tree, inner] at h
  | n + 1, c, hs, h => by
    rw [factorAll]
    refine factorLoop_spec (factorAll n) c hs (fun f => Describes f ∧ (pairs f).Perm (pairs c) ∧ f.r = c.r ∧ f.p = c.p) (fun c' h1 h2 h3 h4 => ⟨h1, h2, h3, h4⟩) ?_ _ (fun k hk => hk)
    intro c' h1 h2 h3 h4 h5
    obtain ⟨fs, f1, f2⟩ := factorAll_spec n c' h1.shape (by omega)
    refine ⟨fs, f1, fun f hf => ?_⟩
    obtain ⟨g1, g2, g3, g4⟩ := f2 f hf
    exact ⟨g1, g2.trans h2, g3.trans h3, g4.trans h4⟩

/-- C77. Factorising a candidate never raises, and ends: as many levels of recursion are enough as the tree has inner nodes. Every candidate returned describes its occurrences, which are those of the given candidate,
each with the same event, in some order; the repetitions and the period of the root do not change. -/
theorem factorize_sound (c : Cand α) (hs : Shape c) (fuel : ℕ) (hf : inner c.tree ≤ fuel) :
    ∃ fs, factorizePattern fuel c = some fs ∧ ∀ f ∈ fs, Describes f ∧ (pairs f).Perm (pairs c) ∧ f.r = c.r ∧ f.p = c.p := by
  obtain ⟨c1, hc1⟩ : ∃ c1 : Cand (ℕ × α), c1 = ⟨c.r, c.p, (labelF c.ch 0).1, c.O, c.E⟩ := ⟨_, rfl⟩
  have hm : mapC Prod.snd c1 = c := by
    rw [hc1, mapC, labelF_erase]
  have hs1 : Shape c1 := by rw [← shape_mapC Prod.snd, hm]; exact hs
  have hi : inner c1.tree = inner c.tree := by
    rw [← inner_map Prod.snd c1.tree, ← tree_mapC, hm]
  obtain ⟨fs, h1, h2⟩ := factorAll_spec fuel c1 hs1 (by omega)
  refine ⟨fs.map (mapC Prod.snd), by unfold factorizePattern; rw [← hc1, h1]; rfl, ?_⟩
  intro f hf
  obtain ⟨f1, hf1, rfl⟩ := List.mem_map.1 hf
  obtain ⟨g1, g2, g3, g4⟩ := h2 f1 hf1
  refine ⟨(describes_mapC _ _).2 g1, ?_, ?_, ?_⟩
  · rw [pairs_mapC]
    have := g2.map (fun x : ℤ × (ℕ × α) => (x.1, x.2.2))
    rw [← pairs_mapC Prod.snd c1, hm] at this
    exact this
  · rw [← hm]; exact g3
  · rw [← hm]; exact g4

theorem factorLoop_all (next : Cand (ℕ × α) → Option (List (Cand (ℕ × α)))) (c : Cand (ℕ × α)) (hs : Shape c) (hd : (refs c.tree).Nodup) : ∀ ks fs, (∀ k ∈ ks, k ∈ canFactorize c.tree) → factorLoop next c.tree c.O ks = some fs →
    ∀ k ∈ ks, ∃ f ∈ fs, factorizeAt k c.tree = some f.tree
  | [], _, _, _, _, h => by cases h
  | k0 :: ks, fs, hks, e, k, hk => by
    rcases refactor_spec c hs k0 (hks k0 List.mem_cons_self) with h | ⟨c', h1, -⟩
    · exfalso
      obtain ⟨T', e1, e2, e3, e4⟩ := factorize_preserves c.tree hs.1 k0 (hks k0 List.mem_cons_self)
      obtain ⟨-, hroot⟩ := at_inner k0 c.tree T' (hks k0 List.mem_cons_self) e1
      obtain ⟨ch', rfl⟩ := hroot c.r c.p c.ch rfl
      unfold refactor at h
      rw [e1] at h
      simp only at h
      rw [if_pos hd] at h
      cases hp : place (refs (.node c.r c.p ch')) (refs c.tree) c.O with
      | none => rw [hp] at h; cases h
      | some Q =>
        rw [hp, Option.bind_some] at h
        cases hE : computeEFromO (.node c.r c.p ch' : PTree.Tree (ℕ × α)) Q with
        | none => rw [hE] at h; cases h
        | some E => rw [hE] at h; cases h
    · rw [factorLoop, h1] at e
      simp only at e
      cases hn : next c' with
      | none => rw [hn] at e; cases e
      | some l =>
        cases hm : factorLoop next c.tree c.O ks with
        | none => rw [hn, hm] at e; cases e
        | some m =>
          rw [hn, hm] at e
          simp only [Option.some.injEq] at e
          subst e
          rcases List.mem_cons.1 hk with rfl | hk
          · refine ⟨c', List.mem_cons_self, ?_⟩
            unfold refactor at h1
            split at h1
            · rename_i r p ch heq
              rw [if_pos hd] at h1
              cases hp : place (refs (.node r p ch)) (refs c.tree) c.O with
              | none => rw [hp] at h1; cases h1
              | some Q =>
                rw [hp, Option.bind_some] at h1
                cases hE : computeEFromO (.node r p ch : PTree.Tree (ℕ × α)) Q with
                | none => rw [hE] at h1; cases h1
                | some E =>
                  rw [hE] at h1
                  simp only [Option.map_some, Option.some.injEq] at h1
                  rw [heq, ← h1]; rfl
            · cases h1
          · obtain ⟨f, hf, e2⟩ := factorLoop_all next c hs hd ks m (fun k hk => hks k (List.mem_cons_of_mem _ hk)) hm k hk
            exact ⟨f, by simp [hf], e2⟩

mutual
/-- The numbers of the leaves, from left to right. -/
def leafNums : PTree.Tree (ℕ × α) → List ℕ
  | .leaf x => [x.1]
  | .node _ _ ch => leafNumsF ch
/-- The loop over the children. -/
def leafNumsF : Forest (ℕ × α) → List ℕ
  | .nil => []
  | .cons _ t rest => leafNums t ++ leafNumsF rest
end

mutual
theorem label_nums : ∀ (t : PTree.Tree α) (n : ℕ), n ≤ (label t n).2 ∧ (leafNums (label t n).1).Nodup ∧ ∀ x ∈ leafNums (label t n).1, n ≤ x ∧ x < (label t n).2
  | .leaf a, n => by simp [label, leafNums]
  | .node r p ch, n => by simpa only [label, leafNums] using labelF_nums ch n
theorem labelF_nums : ∀ (ch : Forest α) (n : ℕ), n ≤ (labelF ch n).2 ∧ (leafNumsF (labelF ch n).1).Nodup ∧ ∀ x ∈ leafNumsF (labelF ch n).1, n ≤ x ∧ x < (labelF ch n).2
  | .nil, n => by simp [labelF, leafNumsF]
  | .cons d t rest, n => by
    obtain ⟨h1, h2, h3⟩ := label_nums t n
    obtain ⟨h4, h5, h6⟩ := labelF_nums rest (label t n).2
    simp only [labelF, leafNumsF]
    refine ⟨h1.trans h4, ?_, ?_⟩
    · rw [List.nodup_append]
      refine ⟨h2, h5, ?_⟩
      intro a ha b hb hab
      have := (h3 a ha).2
      have := (h6 b hb).1
      omega
    · intro x hx
      rcases List.mem_append.1 hx with hx | hx
      · exact ⟨(h3 x hx).1, (h3 x hx).2.trans_le h4⟩
      · exact ⟨h1.trans (h6 x hx).1, (h6 x hx).2⟩
end

/-- C77. If no leaf occurs twice at the same time before corrections (telling leaves with the same event apart by any distinct numbers), each way of factorising the tree is among the candidates returned. -/
theorem factorize_complete (c : Cand α) (hs : Shape c) (hd : ∀ t : PTree.Tree (ℕ × α), mapT Prod.snd t = c.tree → (leafNums t).Nodup → (gen t 0).Nodup) (fuel : ℕ) (fs : List (Cand α))
    (h : factorizePattern fuel c = some fs) : ∀ k ∈ canFactorize c.tree, ∃ f ∈ fs, factorizeAt k c.tree = some f.tree := by
  obtain ⟨c1, hc1⟩ : ∃ c1 : Cand (ℕ × α), c1 = ⟨c.r, c.p, (labelF c.ch 0).1, c.O, c.E⟩ := ⟨_, rfl⟩
  have hm : mapC Prod.snd c1 = c := by rw [hc1, mapC, labelF_erase]
  have ht : mapT Prod.snd c1.tree = c.tree := by rw [← tree_mapC, hm]
  have hs1 : Shape c1 := by rw [← shape_mapC Prod.snd, hm]; exact hs
  unfold factorizePattern at h
  rw [← hc1] at h
  cases fuel with
  | zero => cases h
  | succ n =>
    simp only [factorAll, Option.map_eq_some_iff] at h
    obtain ⟨fs1, h1, rfl⟩ := h
    intro k hk
    rw [← ht, can_map] at hk
    have hn : (refs c1.tree).Nodup := by
      rw [refs_gen]
      refine hd _ ht ?_
      rw [hc1]
      exact (labelF_nums c.ch 0).2.1
    obtain ⟨f, hf, e⟩ := factorLoop_all (factorAll n) c1 hs1 hn _ fs1 (fun k hk => hk) h1 k hk
    refine ⟨mapC Prod.snd f, List.mem_map.2 ⟨f, hf, rfl⟩, ?_⟩
    rw [← ht, at_map, e]; rfl

/-! ### Cases -/

/-- Two events repeated in parallel, three times, twice over: with occurrences that are not exactly periodic. -/
def exFactC : Cand ℕ := ⟨2, 50, .cons 0 (.node 3 4 (.cons 0 (.leaf 7) .nil)) (.cons 1 (.node 3 4 (.cons 0 (.leaf 8) .nil)) .nil),
  [0, 4, 9, 1, 5, 9, 51, 55, 59, 52, 56, 61], [0, 1, 0, 0, 0, 1, 0, 0, 0, 0, 1]⟩

example : Shape exFactC := ⟨by simp [exFactC, Cand.tree, Tree.Regular, Forest.Regular, Forest.NonEmpty, Forest.firstDist], rfl, rfl⟩

/-- The events alternate after the factorisation. -/
example : (factorizePattern 3 exFactC).map (fun fs => fs.map (fun f => (f.O, f.E))) =
    some [([0, 1, 4, 5, 9, 9, 51, 52, 55, 56, 59, 61], [0, 0, 0, 1, -1, 1, 0, 0, 0, 0, 1])] := by decide +kernel

/-- If no two occurrences fall at the same time, no leaf occurs twice at the same time. -/
theorem times_nodup (c : Cand α) (hd : ((gen c.tree 0).map Prod.fst).Nodup) (t : PTree.Tree (ℕ × α)) (ht : mapT Prod.snd t = c.tree) : (gen t 0).Nodup := by
  rw [← ht, gen_map, List.map_map] at hd
  exact List.Nodup.of_map _ hd

example : (∀ t : PTree.Tree (ℕ × ℕ), mapT Prod.snd t = exFactC.tree → (leafNums t).Nodup → (gen t 0).Nodup) ∧ canFactorize exFactC.tree = [[]] :=
  ⟨fun t ht _ => times_nodup exFactC (by decide) t ht, by decide⟩

/-- Two leaves with the same event at the same time do not prevent the factorisation. -/
example : (factorizePattern 3 (⟨2, 50, .cons 0 (.node 3 4 (.cons 0 (.leaf 7) .nil)) (.cons 0 (.node 3 4 (.cons 0 (.leaf 7) .nil)) .nil), [0, 4, 8, 0, 4, 8, 50, 54, 58, 50, 54, 58], List.replicate 11 0⟩ : Cand ℕ)).map List.length = some 1 := by
  decide +kernel

end Verif.Complex
