import Verif.Nest.Model
import Verif.Concat.Lemmas
import Mathlib.Tactic.Ring
import Mathlib.Data.List.Nodup

set_option autoImplicit false
set_option linter.unusedSectionVars false

namespace Verif.Nest

open Verif.PTree Verif.Concat Verif.Text

variable {α : Type}

/-! ### Keys -/

/-- The text of a key. -/
def keyText (ps : List ℤ) (rs : List ℕ) : List Char := join '+' (ps.map showInt) ++ '_' :: join '*' (rs.reverse.map showNat)

theorem join_snoc (sep : Char) (l : List (List Char)) (x : List Char) (h : l ≠ []) : join sep (l ++ [x]) = join sep l ++ sep :: x := by
  induction l with
  | nil => exact absurd rfl h
  | cons a l ih =>
    cases l with
    | nil => simp [join]
    | cons b l =>
      have := ih (by simp)
      simp only [List.cons_append, join] at this ⊢
      rw [this]
      simp

theorem nestKey_text (p : ℤ) (ps : List ℤ) (rs : List ℕ) (n : ℕ) (h1 : ps ≠ []) (h2 : rs ≠ []) :
    nestKey p (keyText ps rs) n = keyText (p :: ps) (n :: rs) := by
  unfold nestKey keyText
  rw [List.reverse_cons, List.map_append, List.map_cons, show List.map showNat [n] = [showNat n] from rfl, join_snoc _ _ _ (by simpa using h2)]
  cases ps with
  | nil => exact absurd rfl h1
  | cons q ps => simp [join]

theorem parseKey_text (ps : List ℤ) (rs : List ℕ) (h1 : ps ≠ []) (h2 : rs ≠ []) : parseKey (keyText ps rs) = some (ps, rs) := by
  have hall : ∀ c ∈ ['-', '0', '1', '2', '3', '4', '5', '6', '7', '8', '9'], c ≠ '_' ∧ c ≠ '+' ∧ c ≠ '*' := by decide
  have hi : ∀ z : ℤ, '_' ∉ showInt z ∧ '+' ∉ showInt z := fun z =>
    ⟨fun h => (hall _ (mem_showInt z _ h)).1 rfl, fun h => (hall _ (mem_showInt z _ h)).2.1 rfl⟩
  have hn : ∀ n : ℕ, '_' ∉ showNat n ∧ '*' ∉ showNat n := fun n =>
    ⟨fun h => (hall _ (List.mem_cons_of_mem _ (mem_showNat n _ h))).1 rfl, fun h => (hall _ (List.mem_cons_of_mem _ (mem_showNat n _ h))).2.2 rfl⟩
  have hu1 : '_' ∉ join '+' (ps.map showInt) := by
    intro h
    rcases mem_join _ _ _ h with h | ⟨w, hw, h⟩
    · exact absurd h (by decide)
    · obtain ⟨z, -, rfl⟩ := List.mem_map.1 hw
      exact (hi z).1 h
  have hu2 : '_' ∉ join '*' (rs.reverse.map showNat) := by
    intro h
    rcases mem_join _ _ _ h with h | ⟨w, hw, h⟩
    · exact absurd h (by decide)
    · obtain ⟨z, -, rfl⟩ := List.mem_map.1 hw
      exact (hn z).1 h
  unfold parseKey keyText
  rw [splitOn_append _ _ _ hu1, splitOn_noSep _ _ hu2]
  simp only
  rw [splitOn_join '+' _ (by simpa using h1) (by
      intro w hw; obtain ⟨z, -, rfl⟩ := List.mem_map.1 hw; exact (hi z).2),
    splitOn_join '*' _ (by simpa using h2) (by
      intro w hw; obtain ⟨z, -, rfl⟩ := List.mem_map.1 hw; exact (hn z).2)]
  have e1 : (ps.map showInt).mapM parseInt = some ps := by
    rw [List.mapM_map]
    have := mapM_some_map ps (fun z => parseInt (showInt z)) id (fun z _ => parseInt_showInt z)
    simpa [Function.comp_def] using this
  have e2 : (rs.reverse.map showNat).mapM parseInt = some (rs.reverse.map (fun n : ℕ => (n : ℤ))) := by
    rw [List.mapM_map]
    exact mapM_some_map rs.reverse (fun z => parseInt (showNat z)) _ (fun z _ => parseInt_showNat z)
  rw [e1, e2]
  simp [Function.comp_def]

theorem baseKey_text (c : Cand α) : baseKey c = keyText (cyclePs c.tree) (cycleRs c.tree) := rfl

theorem keyText_inj {ps ps' : List ℤ} {rs rs' : List ℕ} (h1 : ps ≠ []) (h2 : rs ≠ []) (h1' : ps' ≠ []) (h2' : rs' ≠ [])
    (h : keyText ps rs = keyText ps' rs') : ps = ps' ∧ rs = rs' := by
  have := parseKey_text ps rs h1 h2
  rw [h, parseKey_text ps' rs' h1' h2'] at this
  simp only [Option.some.injEq, Prod.mk.injEq] at this
  exact ⟨this.1.symm, this.2.symm⟩

/-! ### Repetitions -/

theorem length_reps (ls : List ℕ) : (reps ls).length = ls.foldr (· * ·) 1 := by
  induction ls with
  | nil => rfl
  | cons l ls ih =>
    rw [reps, List.length_flatMap]
    simp [ih]

theorem nodup_reps (ls : List ℕ) : (reps ls).Nodup := by
  induction ls with
  | nil => simp [reps]
  | cons l ls ih =>
    rw [reps, List.nodup_flatMap]
    refine ⟨fun i _ => ih.map (fun a b h => by simpa using h), ?_⟩
    apply List.Pairwise.imp _ List.nodup_range
    intro a b hab
    rw [Function.onFun, List.disjoint_left]
    intro q hq hq'
    obtain ⟨u, -, rfl⟩ := List.mem_map.1 hq
    obtain ⟨v, -, h⟩ := List.mem_map.1 hq'
    simp only [List.cons.injEq] at h
    exact hab h.1.symm

theorem length_of_mem_reps {ls q : List ℕ} (h : q ∈ reps ls) : q.length = ls.length := by
  induction ls generalizing q with
  | nil => simp [reps] at h; simp [h]
  | cons l ls ih =>
    rw [reps, List.mem_flatMap] at h
    obtain ⟨i, -, h⟩ := h
    obtain ⟨u, hu, rfl⟩ := List.mem_map.1 h
    simp [ih hu]

theorem getElem_reps (l : ℕ) (ls : List ℕ) (i j : ℕ) (hi : i < l) (q : List ℕ) (hq : (reps ls)[j]? = some q) :
    (reps (l :: ls))[i * (reps ls).length + j]? = some (i :: q) := by
  have hj : j < (reps ls).length := (List.getElem?_eq_some_iff.1 hq).1
  obtain ⟨t, ht, -⟩ := block_flatMap (fun i => (reps ls).map (fun q => i :: q)) (reps ls).length l i (by intro k _; simp) hi
  rw [reps, ← List.getElem?_drop, ht, List.getElem?_append_left (by simpa using hj), List.getElem?_map, hq]
  rfl

theorem idxOf_reps {ls : List ℕ} {j : ℕ} {q : List ℕ} (h : (reps ls)[j]? = some q) : (reps ls).idxOf q = j := by
  obtain ⟨hj, rfl⟩ := List.getElem?_eq_some_iff.1 h
  exact (nodup_reps ls).idxOf_getElem j hj

/-- The rank of a list of repetitions is 0 iff they are all 0, and decreasing the last number that is not 0 stays in the list. -/
theorem lastNonzero_reps (ls : List ℕ) : ∀ (j : ℕ) (q : List ℕ), (reps ls)[j]? = some q →
    (lastNonzero q = none ↔ j = 0) ∧ ∀ i, lastNonzero q = some i → i < ls.length ∧ q.modify i (fun x => x - 1) ∈ reps ls := by
  induction ls with
  | nil =>
    intro j q h
    obtain ⟨hj, h⟩ := List.getElem?_eq_some_iff.1 h
    simp only [reps, List.length_singleton, Nat.lt_one_iff] at hj
    subst hj
    simp only [reps, List.getElem_singleton] at h
    subst h
    simp [lastNonzero]
  | cons l ls ih =>
    intro j pp h
    have hm := List.mem_of_getElem? h
    rw [reps, List.mem_flatMap] at hm
    obtain ⟨i, hi, hm⟩ := hm
    obtain ⟨q, hq, rfl⟩ := List.mem_map.1 hm
    have hi' := List.mem_range.1 hi
    obtain ⟨j', hj'⟩ := List.mem_iff_getElem?.1 hq
    have hjj := idxOf_reps (getElem_reps l ls i j' hi' q hj')
    rw [idxOf_reps h] at hjj
    obtain ⟨h1, h2⟩ := ih j' q hj'
    have hmem : ∀ i' < l, ∀ q' ∈ reps ls, i' :: q' ∈ reps (l :: ls) := by
      intro i' hi' q' hq'
      rw [reps, List.mem_flatMap]
      exact ⟨i', List.mem_range.2 hi', List.mem_map_of_mem hq'⟩
    cases hl : lastNonzero q with
    | some k =>
      have hj0 : j' ≠ 0 := by
        intro h0
        rw [h1.2 h0] at hl
        cases hl
      simp only [lastNonzero, hl]
      refine ⟨⟨fun h => (by cases h), fun h => (by omega)⟩, ?_⟩
      intro i'' h''
      simp only [Option.some.injEq] at h''
      subst h''
      obtain ⟨a, b⟩ := h2 k hl
      exact ⟨by simp [a], by simpa using hmem i hi' _ b⟩
    | none =>
      have hj0 : j' = 0 := h1.1 hl
      subst hj0
      have hN : 0 < (reps ls).length := (List.getElem?_eq_some_iff.1 hj').1
      simp only [lastNonzero, hl]
      by_cases hi0 : i = 0
      · simp [hi0, hjj]
      · simp only [hi0, if_false]
        refine ⟨⟨fun h => (by cases h), fun h => ?_⟩, ?_⟩
        · have : 0 < i * (reps ls).length := Nat.mul_pos (by omega) hN
          omega
        · intro i'' h''
          simp only [Option.some.injEq] at h''
          subst h''
          exact ⟨by simp, by simpa using hmem (i - 1) (by omega) q hq⟩

/-! ### Corrections -/

/-- The tree nested in outer cycles. -/
def nestT (T : PTree.Tree α) : List (ℤ × ℕ) → PTree.Tree α
  | [] => T
  | (p, l) :: rest => .node l p (.cons 0 (nestT T rest) .nil)

/-- Number of copies. -/
def copies (outer : List (ℤ × ℕ)) : ℕ := (reps (outer.map Prod.snd)).length

theorem copies_cons (p : ℤ) (l : ℕ) (rest : List (ℤ × ℕ)) : copies ((p, l) :: rest) = l * copies rest := by
  unfold copies
  rw [length_reps, length_reps]; rfl

/-- The corrections, level by level, of the copies from rank `k` on; `tt` are the start times and `ee` the corrections of the copies. -/
def esRec (tt : ℕ → ℤ) (ee : ℕ → List ℤ) : List (ℤ × ℕ) → ℕ → List ℤ
  | [], k => ee k
  | (p, l) :: rest, k => (List.range l).flatMap (fun i =>
      (if i = 0 then [] else [tt (k + i * copies rest) - tt (k + (i - 1) * copies rest) - p]) ++ esRec tt ee rest (k + i * copies rest))

/-- One turn of the loop, on the copies from rank `k` on. -/
def piece (tt : ℕ → ℤ) (ee : ℕ → List ℤ) (outer : List (ℤ × ℕ)) (k : ℕ) (q : List ℕ) (j : ℕ) : List ℤ :=
  if j = 0 then ee (k + j)
  else
    match lastNonzero q with
    | none => []
    | some i => (tt (k + j) - tt (k + (reps (outer.map Prod.snd)).idxOf (q.modify i (fun x => x - 1))) - (outer.map Prod.fst).getD i 0) :: ee (k + j)

theorem zipIdx_reps (l : ℕ) (ls : List ℕ) : (reps (l :: ls)).zipIdx =
    (List.range l).flatMap (fun i => (reps ls).zipIdx.map (fun x => (i :: x.1, i * (reps ls).length + x.2))) := by
  induction l with
  | zero => rfl
  | succ l ih =>
    have h1 : reps ((l + 1) :: ls) = reps (l :: ls) ++ (reps ls).map (fun q => l :: q) := by
      simp only [reps, List.range_succ, List.flatMap_append, List.flatMap_cons, List.flatMap_nil, List.append_nil]
    have h2 : (reps (l :: ls)).length = l * (reps ls).length := by rw [length_reps, length_reps]; rfl
    rw [h1, List.zipIdx_append, ih, List.range_succ, List.flatMap_append]
    congr 1
    simp only [List.flatMap_cons, List.flatMap_nil, List.append_nil, h2, Nat.zero_add]
    rw [List.zipIdx_map, List.zipIdx_eq_map_add]
    simp only [List.map_map]
    apply List.map_congr_left
    intro x _
    simp [Nat.add_comm]

theorem flatMap_piece (tt : ℕ → ℤ) (ee : ℕ → List ℤ) (outer : List (ℤ × ℕ)) (hpos : ∀ x ∈ outer, 1 ≤ x.2) : ∀ k,
    ((reps (outer.map Prod.snd)).zipIdx).flatMap (fun x => piece tt ee outer k x.1 x.2) = esRec tt ee outer k := by
  induction outer with
  | nil => intro k; simp [reps, piece, esRec]
  | cons pl rest ih =>
    obtain ⟨p, l⟩ := pl
    intro k
    have ih := ih (fun x hx => hpos x (List.mem_cons_of_mem _ hx))
    rw [List.map_cons, zipIdx_reps, List.flatMap_assoc, esRec]
    apply List.flatMap_congr
    intro i hi
    have hi' := List.mem_range.1 hi
    rw [← ih, List.flatMap_map]
    have hN : 0 < (reps (rest.map Prod.snd)).length := by
      have : ∀ ls : List ℕ, (∀ x ∈ ls, 1 ≤ x) → 0 < ls.foldr (· * ·) 1 := by
        intro ls
        induction ls with
        | nil => intro _; simp
        | cons a ls ih =>
          intro h
          simp only [List.foldr_cons]
          exact Nat.mul_pos (h a List.mem_cons_self) (ih (fun x hx => h x (List.mem_cons_of_mem _ hx)))
      rw [length_reps]
      apply this
      intro x hx
      obtain ⟨y, hy, rfl⟩ := List.mem_map.1 hx
      exact hpos y (List.mem_cons_of_mem _ hy)
    -- the pieces
    have hpiece : ∀ x ∈ (reps (rest.map Prod.snd)).zipIdx, piece tt ee ((p, l) :: rest) k (i :: x.1) (i * (reps (rest.map Prod.snd)).length + x.2) =
        (if x.2 = 0 then (if i = 0 then [] else [tt (k + i * copies rest) - tt (k + (i - 1) * copies rest) - p]) else []) ++
          piece tt ee rest (k + i * copies rest) x.1 x.2 := by
      rintro ⟨q, j⟩ hx
      have hq : (reps (rest.map Prod.snd))[j]? = some q := by
        have := List.mem_zipIdx_iff_getElem?.1 hx
        simpa using this
      have hcp : copies rest = (reps (rest.map Prod.snd)).length := rfl
      obtain ⟨h1, h2⟩ := lastNonzero_reps _ j q hq
      simp only
      by_cases hj : j = 0
      · subst hj
        have hnone := h1.2 rfl
        unfold piece
        simp only [if_true, Nat.add_zero]
        by_cases hi0 : i = 0
        · subst hi0
          simp
        · have hne : ¬ (i * (reps (rest.map Prod.snd)).length = 0) := by
            have : 0 < i * (reps (rest.map Prod.snd)).length := Nat.mul_pos (by omega) hN
            omega
          simp only [hne, if_false, hi0, lastNonzero, hnone]
          have hidx : (reps (((p, l) :: rest).map Prod.snd)).idxOf ((i :: q).modify 0 (fun x => x - 1)) = (i - 1) * copies rest := by
            have := idxOf_reps (getElem_reps l (rest.map Prod.snd) (i - 1) 0 (by omega) q hq)
            simpa [hcp] using this
          rw [hidx, hcp]
          simp
      · have hne : ¬ (i * (reps (rest.map Prod.snd)).length + j = 0) := by omega
        unfold piece
        simp only [hne, hj, if_false, List.nil_append]
        cases hl : lastNonzero q with
        | none => exact absurd (h1.1 hl) hj
        | some i' =>
          obtain ⟨a, b⟩ := h2 i' hl
          obtain ⟨j', hj'⟩ := List.mem_iff_getElem?.1 b
          have hidx : (reps (((p, l) :: rest).map Prod.snd)).idxOf ((i :: q).modify (i' + 1) (fun x => x - 1)) =
              i * copies rest + (reps (rest.map Prod.snd)).idxOf (q.modify i' (fun x => x - 1)) := by
            have := idxOf_reps (getElem_reps l (rest.map Prod.snd) i j' hi' _ hj')
            rw [idxOf_reps hj']
            simpa [hcp] using this
          simp only [lastNonzero, hl]
          rw [hidx, hcp]
          simp [Nat.add_assoc]
    rw [List.flatMap_congr hpiece]
    -- the extra correction goes to the first piece
    cases hz : (reps (rest.map Prod.snd)).zipIdx with
    | nil =>
      rw [List.zipIdx_eq_nil_iff] at hz
      rw [hz] at hN
      simp at hN
    | cons x xs =>
      have hx0 : x.2 = 0 := by
        have : ((reps (rest.map Prod.snd)).zipIdx)[0]? = some x := by rw [hz]; rfl
        rw [List.getElem?_zipIdx] at this
        cases hg : (reps (rest.map Prod.snd))[0]? with
        | none => rw [hg] at this; simp at this
        | some y =>
          rw [hg] at this
          simp at this
          rw [← this]
      have hxs : ∀ y ∈ xs, y.2 ≠ 0 := by
        intro y hy
        obtain ⟨n, hn⟩ := List.mem_iff_getElem?.1 hy
        have : ((reps (rest.map Prod.snd)).zipIdx)[n + 1]? = some y := by rw [hz]; simpa using hn
        rw [List.getElem?_zipIdx] at this
        cases hg : (reps (rest.map Prod.snd))[n + 1]? with
        | none => rw [hg] at this; simp at this
        | some y' =>
          rw [hg] at this
          simp at this
          rw [← this]
          simp
      rw [List.flatMap_cons, List.flatMap_cons, hx0]
      simp only [if_true, List.append_assoc]
      congr 2
      apply List.flatMap_congr
      intro y hy
      simp [hxs y hy]

theorem corrT_cons (t : PTree.Tree α) (hr : t.Regular) (xs : List ℤ) (hl : xs.length = nbOccs t) (ref off : ℤ) :
    corrT t xs ref off = (xs.headD 0 - ref - off) :: (corrT t xs 0 0).tail := by
  obtain ⟨l, h⟩ := corrT_head t hr xs hl
  rw [h, h]; rfl

theorem nbOccs_nestT (T : PTree.Tree α) (outer : List (ℤ × ℕ)) : nbOccs (nestT T outer) = copies outer * nbOccs T := by
  induction outer with
  | nil => simp [nestT, copies, reps]
  | cons pl rest ih =>
    obtain ⟨p, l⟩ := pl
    simp only [nestT, nbOccs, nbOccsF, ih, copies_cons]
    ring

theorem regular_nestT (T : PTree.Tree α) (hT : T.Regular) (outer : List (ℤ × ℕ)) (hpos : ∀ x ∈ outer, 1 ≤ x.2) : (nestT T outer).Regular := by
  induction outer with
  | nil => exact hT
  | cons pl rest ih =>
    obtain ⟨p, l⟩ := pl
    simp only [nestT, Tree.Regular, Forest.NonEmpty, Forest.firstDist, Forest.Regular, and_true, true_and]
    exact ⟨hpos _ List.mem_cons_self, ih (fun x hx => hpos x (List.mem_cons_of_mem _ hx))⟩

theorem copies_pos (outer : List (ℤ × ℕ)) (hpos : ∀ x ∈ outer, 1 ≤ x.2) : 0 < copies outer := by
  induction outer with
  | nil => simp [copies, reps]
  | cons pl rest ih =>
    obtain ⟨p, l⟩ := pl
    rw [copies_cons]
    exact Nat.mul_pos (hpos _ List.mem_cons_self) (ih (fun x hx => hpos x (List.mem_cons_of_mem _ hx)))

theorem range_mul_flatMap {β : Type} (f : ℕ → List β) (l n k : ℕ) :
    (List.range (l * n)).flatMap (fun j => f (k + j)) = (List.range l).flatMap (fun i => (List.range n).flatMap (fun j => f (k + i * n + j))) := by
  induction l with
  | zero => simp
  | succ l ih =>
    rw [Nat.succ_mul, List.range_add, List.flatMap_append, ih, List.range_succ, List.flatMap_append]
    simp [List.flatMap_map, Nat.add_assoc]

theorem length_esRec (tt : ℕ → ℤ) (ee : ℕ → List ℤ) (N n : ℕ) (he : ∀ j < n, (ee j).length + 1 = N) (outer : List (ℤ × ℕ)) (hpos : ∀ x ∈ outer, 1 ≤ x.2) : ∀ k, k + copies outer ≤ n →
    (esRec tt ee outer k).length + 1 = copies outer * N := by
  induction outer with
  | nil =>
    intro k hk
    have hc : copies [] = 1 := rfl
    rw [hc] at hk ⊢
    rw [esRec, he k (by omega), Nat.one_mul]
  | cons pl rest ih =>
    obtain ⟨p, l⟩ := pl
    intro k hk
    have ih := ih (fun x hx => hpos x (List.mem_cons_of_mem _ hx))
    have hl : 1 ≤ l := hpos _ List.mem_cons_self
    rw [copies_cons] at hk ⊢
    rw [esRec, List.length_flatMap]
    have hterm : ∀ i < l, ((if i = 0 then [] else [tt (k + i * copies rest) - tt (k + (i - 1) * copies rest) - p]) ++ esRec tt ee rest (k + i * copies rest)).length + (if i = 0 then 1 else 0) = copies rest * N := by
      intro i hi
      have : (i + 1) * copies rest ≤ l * copies rest := Nat.mul_le_mul_right _ hi
      rw [Nat.add_mul] at this
      have := ih (k + i * copies rest) (by omega)
      by_cases h0 : i = 0
      · simp only [h0, if_true, List.nil_append] at this ⊢
        exact this
      · simp only [h0, if_false, List.length_append, List.length_cons, List.length_nil]
        omega
    obtain ⟨l', rfl⟩ : ∃ l', l = l' + 1 := ⟨l - 1, by omega⟩
    rw [List.range_succ_eq_map, List.map_cons, List.sum_cons, List.map_map]
    have h0 := hterm 0 (by omega)
    have hs : (List.range l').map ((fun i => ((if i = 0 then [] else [tt (k + i * copies rest) - tt (k + (i - 1) * copies rest) - p]) ++ esRec tt ee rest (k + i * copies rest)).length) ∘ Nat.succ) = (List.range l').map (fun _ => copies rest * N) := by
      apply List.map_congr_left
      intro i hi
      have := hterm (i + 1) (by have := List.mem_range.1 hi; omega)
      simpa [Nat.add_comm] using this
    have hs' : ((List.range l').map (fun _ => copies rest * N)).sum = l' * (copies rest * N) := by simp
    rw [hs, hs']
    rw [if_pos rfl] at h0
    rw [Nat.mul_assoc, Nat.add_mul, Nat.one_mul, Nat.add_right_comm, Nat.add_comm]
    exact congrArg (fun x => l' * (copies rest * N) + x) h0

/-- The corrections of a nested tree. -/
theorem corrT_nest (T : PTree.Tree α) (hT : T.Regular) (tt : ℕ → ℤ) (ee oo : ℕ → List ℤ) (n : ℕ)
    (ho : ∀ j < n, (oo j).length = nbOccs T ∧ (oo j).headD 0 = tt j ∧ ee j = (corrT T (oo j) 0 0).tail)
    (outer : List (ℤ × ℕ)) (hpos : ∀ x ∈ outer, 1 ≤ x.2) : ∀ k ref off, k + copies outer ≤ n →
      corrT (nestT T outer) ((List.range (copies outer)).flatMap (fun j => oo (k + j))) ref off = (tt k - ref - off) :: esRec tt ee outer k := by
  induction outer with
  | nil =>
    intro k ref off hk
    have hc : copies [] = 1 := rfl
    rw [hc] at hk
    obtain ⟨h1, h2, h3⟩ := ho k (by omega)
    simp only [hc, List.range_one, List.flatMap_cons, List.flatMap_nil, List.append_nil, Nat.add_zero, nestT, esRec]
    rw [corrT_cons T hT _ h1, h2, h3]
  | cons pl rest ih =>
    obtain ⟨p, l⟩ := pl
    intro k ref off hk
    have hpos' : ∀ x ∈ rest, 1 ≤ x.2 := fun x hx => hpos x (List.mem_cons_of_mem _ hx)
    have ih := ih hpos'
    have hl : 1 ≤ l := hpos _ List.mem_cons_self
    have hcp := copies_pos rest hpos'
    rw [copies_cons] at hk ⊢
    have hTpos := nbOccs_pos T hT
    -- the blocks
    obtain ⟨blk, hblk⟩ : ∃ blk : ℕ → List ℤ, blk = fun i => (List.range (copies rest)).flatMap (fun j => oo (k + i * copies rest + j)) := ⟨_, rfl⟩
    have hlin : ∀ i < l, ∀ j < copies rest, k + i * copies rest + j < n := by
      intro i hi j hj
      have : (i + 1) * copies rest ≤ l * copies rest := Nat.mul_le_mul_right _ hi
      rw [Nat.add_mul] at this
      omega
    have hblen : ∀ i < l, (blk i).length = nbOccsF (.cons 0 (nestT T rest) .nil) := by
      intro i hi
      rw [hblk]
      simp only [nbOccsF, nbOccs_nestT, Nat.add_zero]
      rw [List.length_flatMap]
      have : (List.range (copies rest)).map (fun j => (oo (k + i * copies rest + j)).length) = (List.range (copies rest)).map (fun _ => nbOccs T) := by
        apply List.map_congr_left
        intro j hj
        exact (ho _ (hlin i hi j (List.mem_range.1 hj))).1
      rw [this]; simp
    have hbhead : ∀ i < l, ∀ y, (blk i ++ y).headD 0 = tt (k + i * copies rest) := by
      intro i hi y
      rw [hblk]
      obtain ⟨m, hm⟩ : ∃ m, copies rest = m + 1 := ⟨copies rest - 1, by omega⟩
      have h0 := ho _ (hlin i hi 0 hcp)
      simp only [Nat.add_zero] at h0
      have hr : List.range (copies rest) = 0 :: (List.range m).map Nat.succ := by rw [hm, List.range_succ_eq_map]
      simp only [hr, List.flatMap_cons, List.append_assoc, Nat.add_zero]
      cases ho' : oo (k + i * copies rest) with
      | nil => rw [ho'] at h0; simp at h0; omega
      | cons a o => rw [← h0.2.1, ho']; rfl
    rw [range_mul_flatMap oo l (copies rest) k]
    have hbe : (fun i => (List.range (copies rest)).flatMap (fun j => oo (k + i * copies rest + j))) = blk := hblk.symm
    rw [hbe]
    simp only [nestT, corrT, esRec]
    have hcongr : (List.range l).flatMap (fun i => corrF (.cons 0 (nestT T rest) .nil)
        ((((List.range l).flatMap blk).drop (i * nbOccsF (.cons 0 (nestT T rest) .nil))).take (nbOccsF (.cons 0 (nestT T rest) .nil)))
        (if i = 0 then ref else (((List.range l).flatMap blk).drop ((i - 1) * nbOccsF (.cons 0 (nestT T rest) .nil))).headD 0) (if i = 0 then off else p)) =
        (List.range l).flatMap (fun i => (tt (k + i * copies rest) - (if i = 0 then ref else tt (k + (i - 1) * copies rest)) - (if i = 0 then off else p)) ::
          esRec tt ee rest (k + i * copies rest)) := by
      apply List.flatMap_congr
      intro i hi
      have hi' := List.mem_range.1 hi
      obtain ⟨-, -, hb⟩ := block_flatMap blk _ l i hblen hi'
      rw [hb]
      simp only [corrF, List.append_nil]
      have hfull : (blk i).take (nbOccs (nestT T rest)) = blk i := by
        apply List.take_of_length_le
        rw [hblen i hi']; simp [nbOccsF]
      rw [hfull]
      have hih := ih (k + i * copies rest)
      have hbi : blk i = (List.range (copies rest)).flatMap (fun j => oo (k + i * copies rest + j)) := by rw [hblk]
      rw [hbi, hih _ _ (by
        have : (i + 1) * copies rest ≤ l * copies rest := Nat.mul_le_mul_right _ hi'
        rw [Nat.add_mul] at this
        omega)]
      by_cases h0 : i = 0
      · simp [h0]
      · simp only [h0, if_false]
        obtain ⟨y, hb', -⟩ := block_flatMap blk _ l (i - 1) hblen (by omega)
        rw [hb', hbhead (i - 1) (by omega)]
    rw [hcongr]
    obtain ⟨l', rfl⟩ : ∃ l', l = l' + 1 := ⟨l - 1, by omega⟩
    rw [List.range_succ_eq_map, List.flatMap_cons, List.flatMap_cons]
    simp only [if_true, Nat.zero_mul, Nat.add_zero, List.nil_append, List.cons_append]
    congr 2
    apply List.flatMap_congr
    intro i hi
    obtain ⟨j, -, rfl⟩ := List.mem_map.mp hi
    simp

theorem gen_nest (T : PTree.Tree α) (outer : List (ℤ × ℕ)) : ∀ time,
    (gen (nestT T outer) time).map Prod.snd = (List.range (copies outer)).flatMap (fun _ => (gen T 0).map Prod.snd) := by
  induction outer with
  | nil =>
    intro time
    have h1 := gen_shift T 0 time
    rw [zero_add] at h1
    simp [nestT, copies, reps, h1]
  | cons pl rest ih =>
    obtain ⟨p, l⟩ := pl
    intro time
    simp only [nestT, gen, genF, List.append_nil, List.map_flatMap]
    rw [copies_cons, ← Nat.zero_add (l * copies rest)]
    have := range_mul_flatMap (fun _ => (gen T 0).map Prod.snd) l (copies rest) 0
    rw [Nat.zero_add, this]
    apply List.flatMap_congr
    intro i _
    exact ih _

end Verif.Nest
