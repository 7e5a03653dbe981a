import Verif.PTree.Props

set_option autoImplicit false
set_option linter.unusedSectionVars false

/-!
# Corrections without keys

`computeEFromO` (C34) as a recursion over the tree and the list of times alone.
-/

namespace Verif.PTree

variable {α : Type}

mutual
/-- Corrections of the times of a tree: the first time is compared with `ref + off`. -/
def corrT : Tree α → List ℤ → ℤ → ℤ → List ℤ
  | .leaf _, xs, ref, off => xs.map (fun x => x - ref - off)
  | .node r p ch, xs, ref, off => (List.range r).flatMap (fun i =>
      corrF ch ((xs.drop (i * nbOccsF ch)).take (nbOccsF ch))
        (if i = 0 then ref else (xs.drop ((i - 1) * nbOccsF ch)).headD 0) (if i = 0 then off else p))
/-- Corrections of the times of successive children: the first is compared with `ref + off`, each next child with the previous one plus its distance. -/
def corrF : Forest α → List ℤ → ℤ → ℤ → List ℤ
  | .nil, _, _, _ => []
  | .cons _ t rest, xs, ref, off => corrT t (xs.take (nbOccs t)) ref off ++ corrF rest (xs.drop (nbOccs t)) (xs.headD 0) rest.firstDist
end

theorem length_pos (t : Tree α) : (pos t).length = nbOccs t := by
  rw [← length_gen t 0, gen_eq t [] 0, occsStar_eq]; simp

theorem length_posF (ch : Forest α) (ni i : ℕ) : (posF ch ni i).length = nbOccsF ch := by
  rw [← length_genF ch 0, genF_eq ch ni i [] 0, occsStarF_eq]; simp

theorem block_flatMap {β : Type} (f : ℕ → List β) (L : ℕ) (r i : ℕ) (hL : ∀ j < r, (f j).length = L) (hi : i < r) :
    ∃ l, ((List.range r).flatMap f).drop (i * L) = f i ++ l ∧ (((List.range r).flatMap f).drop (i * L)).take L = f i := by
  have hr : List.range r = List.range i ++ i :: (List.range (r - i - 1)).map (fun j => i + 1 + j) := by
    have : r = i + (1 + (r - i - 1)) := by omega
    conv_lhs => rw [this, List.range_add, List.range_add]
    simp [List.range_succ, Function.comp_def, Nat.add_assoc]
  have hlen : ((List.range i).flatMap f).length = i * L := by
    rw [List.length_flatMap]
    have : (List.range i).map (fun a => (f a).length) = (List.range i).map (fun _ => L) := by
      apply List.map_congr_left
      intro a ha
      exact hL a (by have := List.mem_range.mp ha; omega)
    rw [this]; simp
  have h1 : ((List.range r).flatMap f).drop (i * L) = f i ++ (List.flatMap f ((List.range (r - i - 1)).map (fun j => i + 1 + j))) := by
    rw [hr, List.flatMap_append, List.flatMap_cons, List.drop_left' hlen]
  refine ⟨_, h1, ?_⟩
  rw [h1]
  exact List.take_left' (hL i hi)

/-- The time a reference stands for. -/
def refval (o : Path → ℤ) : Ref → ℤ
  | .key f => o f
  | _ => 0

theorem posF_head : ∀ (ch : Forest α), ch.Regular → ch.NonEmpty → ∀ ni i, ∃ l, (posF ch ni i).map Prod.fst = ((ni, i) :: lmF ch) :: l
  | .nil, _, h, _, _ => by simp [Forest.NonEmpty] at h
  | .cons d t rest, hr, _, ni, i => by
    simp only [Forest.Regular] at hr
    obtain ⟨l, hl⟩ := pos_head t hr.1
    refine ⟨l.map (fun q => (ni, i) :: q) ++ (posF rest (ni + 1) i).map Prod.fst, ?_⟩
    simp only [posF, List.map_append, List.map_map, lmF]
    have e : (Prod.fst ∘ fun x : Path × α => ((ni, i) :: x.1, x.2)) = (fun q => (ni, i) :: q) ∘ Prod.fst := rfl
    rw [e, ← List.map_map, hl]
    rfl

mutual
theorem corrT_spec (o : Path → ℤ) : ∀ (t : Tree α), t.Regular → ∀ (pref : Path) (cnref : Ref) (off : ℤ),
    (refsT t pref cnref off).1.map (fun e => o e.1 - refval o e.2.1 - e.2.2) =
      corrT t ((pos t).map (fun x => o (pref.reverse ++ x.1))) (refval o cnref) off
  | .leaf ev, _, pref, cnref, off => by simp [refsT, pos, corrT]
  | .node r p ch, h, pref, cnref, off => by
    simp only [Tree.Regular] at h
    obtain ⟨hr, hne, hd, hF⟩ := h
    have key : (refsT (.node r p ch) pref cnref off).1 = (nodeFold ch pref cnref off p r).1 := by
      rw [refsT]; rfl
    rw [key]
    obtain ⟨xs, hxs⟩ : ∃ xs, xs = (pos (.node r p ch)).map (fun x => o (pref.reverse ++ x.1)) := ⟨_, rfl⟩
    have hxs' : xs = (List.range r).flatMap (fun i => (posF ch 0 i).map (fun x => o (pref.reverse ++ x.1))) := by
      rw [hxs]; simp only [pos, List.map_flatMap]
    have blk : ∀ i < r, ∃ l, xs.drop (i * nbOccsF ch) = (posF ch 0 i).map (fun x => o (pref.reverse ++ x.1)) ++ l ∧
        (xs.drop (i * nbOccsF ch)).take (nbOccsF ch) = (posF ch 0 i).map (fun x => o (pref.reverse ++ x.1)) := by
      intro i hi
      rw [hxs']
      exact block_flatMap _ (nbOccsF ch) r i (by intro j _; simp [length_posF]) hi
    rw [← hxs]
    have hlast : ∀ n, 0 < n → n ≤ r → (nodeFold ch pref cnref off p n).2.2 = .key (pref.reverse ++ (0, n - 1) :: lmF ch) := by
      intro n hn hn'
      obtain ⟨m, rfl⟩ : ∃ m, n = m + 1 := ⟨n - 1, by omega⟩
      rw [nodeFold_succ]
      simp only
      rw [(refsF_spec ch hF 0 m pref _ _).1 hne]
      rfl
    have inv : ∀ n, n ≤ r → (nodeFold ch pref cnref off p n).1.map (fun e => o e.1 - refval o e.2.1 - e.2.2) =
        (List.range n).flatMap (fun i => corrF ch ((xs.drop (i * nbOccsF ch)).take (nbOccsF ch))
          (if i = 0 then refval o cnref else (xs.drop ((i - 1) * nbOccsF ch)).headD 0) (if i = 0 then off else p)) := by
      intro n
      induction n with
      | zero => intro _; simp [nodeFold]
      | succ n ih =>
        intro hn
        have hlast' := hlast n
        rw [nodeFold_succ]
        simp only [List.map_append, List.range_succ, List.flatMap_append, List.flatMap_cons, List.flatMap_nil, List.append_nil]
        rw [ih (by omega)]
        congr 1
        rw [corrF_spec o ch hF 0 n pref]
        obtain ⟨l, hl1, hl2⟩ := blk n (by omega)
        rw [hl2]
        congr 1
        by_cases h0 : n = 0
        · simp [h0]
        · simp only [h0, if_false]
          rw [hlast' (by omega) (by omega)]
          obtain ⟨l, hl1, -⟩ := blk (n - 1) (by omega)
          obtain ⟨l', hl'⟩ := posF_head ch hF hne 0 (n - 1)
          rw [hl1]
          have e : (fun x : Path × α => o (pref.reverse ++ x.1)) = (fun k => o (pref.reverse ++ k)) ∘ Prod.fst := rfl
          rw [e, ← List.map_map, hl']
          rfl
    rw [inv r le_rfl]
    simp only [corrT]
theorem corrF_spec (o : Path → ℤ) : ∀ (ch : Forest α), ch.Regular → ∀ (ni i : ℕ) (pref : Path) (next : Ref) (off0 : ℤ),
    (refsF ch ni i pref next off0).1.map (fun e => o e.1 - refval o e.2.1 - e.2.2) =
      corrF ch ((posF ch ni i).map (fun x => o (pref.reverse ++ x.1))) (refval o next) (if ni = 0 then off0 else ch.firstDist)
  | .nil, _, _, _, _, _, _ => by simp [refsF, corrF]
  | .cons d t rest, h, ni, i, pref, next, off0 => by
    simp only [Forest.Regular] at h
    obtain ⟨l, hl⟩ := pos_head t h.1
    simp only [refsF, List.map_append, posF, corrF]
    rw [corrT_spec o t h.1, corrF_spec o rest h.2 (ni + 1) i pref]
    have e1 : List.map (fun x => o (pref.reverse ++ x.1)) (List.map (fun x : Path × α => ((ni, i) :: x.1, x.2)) (pos t)) =
        (pos t).map (fun x => o (((ni, i) :: pref).reverse ++ x.1)) := by
      rw [List.map_map]
      apply List.map_congr_left
      intro x _; simp
    rw [e1]
    rw [List.take_left' (by rw [List.length_map, length_pos]), List.drop_left' (by rw [List.length_map, length_pos])]
    congr 1
    rw [(refsT_spec t h.1 _ _ _).1]
    have e2 : (fun x : Path × α => o (((ni, i) :: pref).reverse ++ x.1)) = (fun k => o (((ni, i) :: pref).reverse ++ k)) ∘ Prod.fst := rfl
    rw [e2, ← List.map_map, hl]
    simp [refval]
end

theorem headD_take {l : List ℤ} {n : ℕ} (h : 0 < n) : (l.take n).headD 0 = l.headD 0 := by
  cases l with
  | nil => simp
  | cons a l =>
    cases n with
    | zero => omega
    | succ n => simp

mutual
theorem nbOccs_pos : ∀ (t : Tree α), t.Regular → 0 < nbOccs t
  | .leaf _, _ => by simp [nbOccs]
  | .node r p ch, h => by
    simp only [Tree.Regular] at h
    simp only [nbOccs]
    exact Nat.mul_pos h.1 (nbOccsF_pos ch h.2.2.2 h.2.1)
theorem nbOccsF_pos : ∀ (ch : Forest α), ch.Regular → ch.NonEmpty → 0 < nbOccsF ch
  | .nil, _, h => by simp [Forest.NonEmpty] at h
  | .cons d t rest, h, _ => by
    simp only [Forest.Regular] at h
    simp only [nbOccsF]
    have := nbOccs_pos t h.1
    omega
end

mutual
theorem corrT_head : ∀ (t : Tree α), t.Regular → ∀ (xs : List ℤ), xs.length = nbOccs t →
    ∃ l, ∀ ref off, corrT t xs ref off = (xs.headD 0 - ref - off) :: l
  | .leaf ev, _, xs, hl => by
    simp only [nbOccs] at hl
    obtain ⟨x, rfl⟩ := List.length_eq_one_iff.mp hl
    exact ⟨[], by intro ref off; simp [corrT]⟩
  | .node r p ch, h, xs, hl => by
    simp only [Tree.Regular] at h
    obtain ⟨hr, hne, -, hF⟩ := h
    have hpos := nbOccsF_pos ch hF hne
    simp only [nbOccs] at hl
    obtain ⟨r', rfl⟩ : ∃ r', r = r' + 1 := ⟨r - 1, by omega⟩
    have hle : nbOccsF ch ≤ xs.length := by rw [hl, Nat.add_mul]; omega
    obtain ⟨l, hl'⟩ := corrF_head ch hF hne (xs.take (nbOccsF ch)) (by rw [List.length_take]; omega)
    refine ⟨l ++ ((List.range r').map Nat.succ).flatMap (fun i =>
      corrF ch ((xs.drop (i * nbOccsF ch)).take (nbOccsF ch))
        (if i = 0 then 0 else (xs.drop ((i - 1) * nbOccsF ch)).headD 0) (if i = 0 then 0 else p)), ?_⟩
    intro ref off
    simp only [corrT, List.range_succ_eq_map, List.flatMap_cons, Nat.zero_mul, List.drop_zero, if_true]
    rw [hl', headD_take hpos, List.cons_append]
    congr 2
    apply List.flatMap_congr
    intro i hi
    obtain ⟨j, -, rfl⟩ := List.mem_map.mp hi
    simp
theorem corrF_head : ∀ (ch : Forest α), ch.Regular → ch.NonEmpty → ∀ (xs : List ℤ), xs.length = nbOccsF ch →
    ∃ l, ∀ ref off, corrF ch xs ref off = (xs.headD 0 - ref - off) :: l
  | .nil, _, h, _, _ => by simp [Forest.NonEmpty] at h
  | .cons d t rest, h, _, xs, hl => by
    simp only [Forest.Regular] at h
    simp only [nbOccsF] at hl
    have hpos := nbOccs_pos t h.1
    obtain ⟨l, hl'⟩ := corrT_head t h.1 (xs.take (nbOccs t)) (by rw [List.length_take]; omega)
    refine ⟨l ++ corrF rest (xs.drop (nbOccs t)) (xs.headD 0) rest.firstDist, ?_⟩
    intro ref off
    simp only [corrF]
    rw [hl', headD_take hpos]
    rfl
end

/-- The corrections computed from times, without keys. -/
theorem computeEFromO_eq (T : Tree α) (hT : T.Regular) (xs : List ℤ) (hl : xs.length = nbOccs T) (ref off : ℤ) :
    computeEFromO T xs = some (corrT T xs ref off).tail := by
  have hlen : (keys T).length = nbOccs T := by
    rw [← length_gen T 0, gen_eq T [] 0, ← oids_eq]; simp
  obtain ⟨o, ho⟩ := exists_fun (keys T) xs (keys_nodup T) (by rw [hl, hlen])
  obtain ⟨v, h0, hv⟩ := exists_corr hT o
  have hE : computeEFromO T xs = some ((keys T).tail.map v) := by
    unfold computeEFromO
    simp only [oids_eq]
    rw [ho, computeEDict_eq hT o v h0 hv]
    simp only [Option.bind_some]
    apply mapM_some_map
    intro k hkk
    exact lookup_zip_map _ _ (List.mem_of_mem_tail hkk)
  rw [hE]
  congr 1
  obtain ⟨l, hl'⟩ := corrT_head T hT xs hl
  rw [hl' ref off]
  have h1 := corrT_spec o T hT [] .root 0
  have hxs : (pos T).map (fun x => o (([] : Path).reverse ++ x.1)) = xs := by
    rw [ho]; simp [keys]
  rw [hxs, hl'] at h1
  obtain ⟨-, h2, h3⟩ := refsT_spec T hT [] .root 0
  simp only [List.reverse_nil, List.nil_append] at h2 h3
  have hk : (refsT T [] .root 0).1.map Prod.fst = keys T := by rw [h2]; rfl
  have htail : (refsT T [] .root 0).1.tail.map (fun e => o e.1 - refval o e.2.1 - e.2.2) = l := by
    have := congrArg List.tail h1
    simpa [List.map_tail] using this
  rw [← hk, ← List.map_tail, List.map_map, List.tail_cons, ← htail]
  apply List.map_congr_left
  rintro ⟨k, r, d⟩ he
  have he' := List.mem_of_mem_tail he
  obtain ⟨q, e1, e2, e3⟩ := h3 _ he'
  simp only [List.nil_append] at e1 e3
  subst e1
  rcases e3 with ⟨a, b⟩ | ⟨q', m, a, b, c⟩
  · exfalso
    -- the first key occurs only once
    obtain ⟨l', hl2⟩ := pos_head T hT
    have hk2 : (refsT T [] .root 0).1.map Prod.fst = lm T :: l' := by rw [hk]; exact hl2
    have hnd : (lm T :: l').Nodup := by rw [← hk2, hk]; exact keys_nodup T
    have : k ∈ l' := by
      have h4 : (refsT T [] .root 0).1.tail.map Prod.fst = l' := by rw [List.map_tail, hk2]; rfl
      rw [← h4]
      exact List.mem_map_of_mem he
    rw [List.nodup_cons] at hnd
    exact hnd.1 (a ▸ this)
  · subst a
    simp only [Function.comp_apply, refval]
    exact hv k q' d he'

/-- Times and corrections agree exactly when the corrections are the ones computed from the times. -/
theorem getOccs_iff (T : Tree α) (hT : T.Regular) (t0 : ℤ) (ts E : List ℤ) (hl : (t0 :: ts).length = nbOccs T) (hE : E.length = ts.length) :
    getOccs T (occsStar T [] 0) t0 E = some (t0 :: ts) ↔ E = (corrT T (t0 :: ts) 0 0).tail := by
  constructor
  · intro h
    obtain ⟨ts', h1, -, h3⟩ := corrections_recovered T hT t0 E (by rw [hE, ← hl]; rfl)
    rw [h] at h1
    simp only [Option.some.injEq] at h1
    rw [← h1, computeEFromO_eq T hT _ hl 0 0] at h3
    simpa using h3.symm
  · intro h
    obtain ⟨E', h1, -, h3⟩ := corrections_roundtrip T hT t0 ts hl
    rw [computeEFromO_eq T hT _ hl 0 0] at h1
    simp only [Option.some.injEq] at h1
    rw [h, h1]; exact h3

end Verif.PTree
