import Verif.Fold.Inv
import Mathlib.Tactic.IntervalCases

/-!
# Chains and triples: properties (C65, C66)
-/

set_option autoImplicit false
set_option linter.unusedSectionVars false

namespace Verif.Fold

/-- What a chain and a triple are, in the occurrences `occs`, with positions shifted by `off` in the case of chains. -/
theorem foldSub_ok (P : Par) (fuel : ℕ) (occs : List ℤ) (off : ℕ) (hs : occs.Pairwise (· < ·)) (hf : occs.length + 2 ≤ fuel) :
    ∃ chains triples, foldSub P fuel occs off = some (chains, triples) ∧
      (∀ c ∈ chains, 4 ≤ c.2.length ∧ c.2.Pairwise (· < ·) ∧ (∀ k ∈ c.2, k < occs.length) ∧ c.1 = c.2.map (fun k => occs.getD k 0) ∧ P.effChain c.1 = true ∧
        ∀ i a b d, c.2[i]? = some a → c.2[i + 1]? = some b → c.2[i + 2]? = some d → Near P.small P.maxP occs a b d) ∧
      (∀ t ∈ triples, ∃ a b c x y z, t.2.2 = [a + off, b + off, c + off] ∧ Near P.small P.maxP occs a b c ∧ occs[a]? = some x ∧ occs[b]? = some y ∧ occs[c]? = some z ∧
        t.1 = |(z - y) - (y - x)| ∧ t.2.1 = min (z - y) (y - x) ∧ P.effTrip t.1 t.2.1 = true) ∧
      (chains.flatMap (fun c => innerPairs c.2)).Nodup ∧
      ∀ c ∈ chains, ∀ t ∈ triples, ∀ k l, (k, l) ∈ consecutive c.2.tail → t.2.2.tail ≠ [k + off, l + off] := by
  obtain ⟨s, e, h1, h2, h3, h4, h5⟩ := centers_ok (P := P) (fuel := fuel) hs hf
  obtain ⟨cs, trip', e', g1, g2, g3, -⟩ := chainLoop_ok s.bck h3 s.fwd.length s.fwd s.trip (Nat.le_refl _) h2 h4 h5
  refine ⟨(cs.map (fun pos => (pos.map (fun c => occs.getD c 0), pos))).filter (fun c => P.effChain c.1),
    (trip'.filter (fun x => P.effTrip x.2.1 x.2.2.1)).map (fun x => (x.2.1, x.2.2.1, [x.2.2.2 + off, x.1.1 + off, x.1.2 + off])),
    by rw [foldSub, e]; simp only [Option.bind_some, e', Option.map_some], ?_, ?_, ?_, ?_⟩
  · intro c hc
    obtain ⟨hc, hE⟩ := List.mem_filter.1 hc
    obtain ⟨pos, hp, rfl⟩ := List.mem_map.1 hc
    obtain ⟨k1, k2, -⟩ := g2 pos hp
    obtain ⟨k3, k4⟩ := nearChain_pairwise (by omega) k2
    exact ⟨k1, k3, k4, rfl, hE, fun i a b d => nearChain_get k2 i a b d⟩
  · intro t ht
    obtain ⟨x, hx, rfl⟩ := List.mem_map.1 ht
    obtain ⟨hx, hE⟩ := List.mem_filter.1 hx
    have hg := h1 x (g1.subset hx)
    have hn := hg.near
    obtain ⟨-, -, u, v, w, hu, hv, hw, q1, q2, -⟩ := hg
    exact ⟨_, _, _, u, v, w, rfl, hn, hu, hv, hw, q1, q2, hE⟩
  · have : ∀ (l : List (List ℕ)) (q : Chain → Bool), List.Sublist (((l.map (fun pos => (pos.map (fun c => occs.getD c 0), pos))).filter q).flatMap (fun c => innerPairs c.2)) (l.flatMap innerPairs) := by
      intro l q
      induction l with
      | nil => simp
      | cons a l ih =>
        rw [List.map_cons, List.filter_cons]
        split
        · simp only [List.flatMap_cons]
          exact (List.Sublist.refl _).append ih
        · simp only [List.flatMap_cons]
          exact ih.trans (List.sublist_append_right _ _)
    exact g3.sublist (this cs _)
  · intro c hc t ht k l hkl heq
    obtain ⟨hc, -⟩ := List.mem_filter.1 hc
    obtain ⟨pos, hp, rfl⟩ := List.mem_map.1 hc
    obtain ⟨x, hx, rfl⟩ := List.mem_map.1 ht
    obtain ⟨hx, -⟩ := List.mem_filter.1 hx
    simp only [List.tail_cons, List.cons.injEq, and_true] at heq
    refine (g2 pos hp).2.2 (k, l) hkl ?_
    have : x.1 = (k, l) := by ext <;> simp <;> omega
    rw [← this]
    exact List.mem_map_of_mem hx

/-- C65: on fewer than 2000 occurrences in increasing order, the search ends; every chain it returns has at least four occurrences, given in order at the positions returned, with consecutive gaps which differ by
less than the bound; every triple has three positions in order, with gaps which differ by less than the bound, and carries the difference of the gaps and the smaller gap. -/
theorem fold_sound (P : Par) (fuel : ℕ) (occs : List ℤ) (hs : occs.Pairwise (· < ·)) (hn : occs.length < 2000) (hf : occs.length + 2 ≤ fuel) :
    ∃ chains triples, extractFold P fuel occs = some (chains, triples) ∧
      (∀ c ∈ chains, 4 ≤ c.2.length ∧ c.2.Pairwise (· < ·) ∧ c.1.map some = c.2.map (fun k => occs[k]?) ∧ P.effChain c.1 = true ∧
        ∀ i a b d, c.2[i]? = some a → c.2[i + 1]? = some b → c.2[i + 2]? = some d → Near P.small P.maxP occs a b d) ∧
      (∀ t ∈ triples, ∃ a b c x y z, t.2.2 = [a, b, c] ∧ Near P.small P.maxP occs a b c ∧ occs[a]? = some x ∧ occs[b]? = some y ∧ occs[c]? = some z ∧
        t.1 = |(z - y) - (y - x)| ∧ t.2.1 = min (z - y) (y - x) ∧ P.effTrip t.1 t.2.1 = true) := by
  obtain ⟨chains, triples, e, h1, h2, -, -⟩ := foldSub_ok P fuel occs 0 hs hf
  refine ⟨chains, triples, by rw [extractFold, foldWith, if_pos hn, e], ?_, ?_⟩
  · intro c hc
    obtain ⟨k1, k2, k3, k4, k5, k6⟩ := h1 c hc
    refine ⟨k1, k2, ?_, k5, k6⟩
    rw [k4, List.map_map]
    refine List.map_congr_left ?_
    intro k hk
    have := k3 k hk
    simp [List.getD_eq_getElem?_getD, List.getElem?_eq_getElem this]
  · intro t ht
    simpa using h2 t ht

/-- C66: no two chains, and no two places of a chain, share two consecutive inner occurrences, and the last two occurrences of a triple are not consecutive in a chain (the first occurrence of the chain apart). -/
theorem fold_distinct (P : Par) (fuel : ℕ) (occs : List ℤ) (hs : occs.Pairwise (· < ·)) (hn : occs.length < 2000) (hf : occs.length + 2 ≤ fuel) (chains : List Chain) (triples : List Triple)
    (h : extractFold P fuel occs = some (chains, triples)) :
    (chains.flatMap (fun c => innerPairs c.2)).Nodup ∧ ∀ c ∈ chains, ∀ t ∈ triples, ∀ k l, (k, l) ∈ consecutive c.2.tail → t.2.2.tail ≠ [k, l] := by
  obtain ⟨chains', triples', e, -, -, h3, h4⟩ := foldSub_ok P fuel occs 0 hs hf
  rw [extractFold, foldWith, if_pos hn, e] at h
  simp only [Option.some.injEq, Prod.mk.injEq] at h
  obtain ⟨rfl, rfl⟩ := h
  exact ⟨h3, by simpa using h4⟩

/-- An example of parameters: gaps differ by at most 2. -/
def exPar : Par := ⟨fun d => d < 3, fun _ _ => true, fun _ => true, none⟩

example : [1, 3, 5, 7, 9, 20, 40, 41, 60, 80, 100].Pairwise (fun a b : ℤ => a < b) ∧
    extractFold exPar 13 [1, 3, 5, 7, 9, 20, 40, 41, 60, 80, 100] =
      some ([([1, 3, 5, 7, 9], [0, 1, 2, 3, 4]), ([1, 20, 40, 60, 80, 100], [0, 5, 6, 8, 9, 10])], [(2, 19, [5, 7, 8])]) := by
  refine ⟨by decide, by decide +kernel⟩

/-! ### Equal occurrences -/

theorem seenLoop_zero : ∀ (f : ℕ) (seen : List ℤ), seenLoop 0 0 f (0 :: seen) 0 = none := by
  intro f
  induction f with
  | zero => intro seen; rfl
  | succ f ih =>
    intro seen
    rw [seenLoop, if_pos (by omega)]
    simp only [Int.toNat_zero, List.getElem?_cons_zero, mul_zero, if_true, neg_zero, List.cons_append]
    exact ih _

/-- C65 needs distinct occurrences: with five equal ones the search never ends, however long it runs. -/
theorem fold_diverges (fuel : ℕ) : extractFold exPar fuel [5, 5, 5, 5, 5] = none := by
  have e0 : ∀ f, seenLoop 0 0 f [] 0 = none ∨ seenLoop 0 0 f [] 0 = some ([], 0) := by
    intro f
    cases f with
    | zero => exact Or.inl rfl
    | succ f => exact Or.inr rfl
  have hA : aft exPar [5, 5, 5, 5, 5] 1 = [0, 0, 0] ∧ bef exPar [5, 5, 5, 5, 5] 1 = [0] ∧ aft exPar [5, 5, 5, 5, 5] 2 = [0, 0] ∧ bef exPar [5, 5, 5, 5, 5] 2 = [0, 0] := by decide
  have h2 : ∀ s, center exPar fuel [5, 5, 5, 5, 5] s 2 = none := by
    intro s
    unfold center
    rw [hA.2.2.1, hA.2.2.2]
    have : scan exPar fuel [0, 0] [0, 0] 5 0 0 [] = none := by
      rw [scan]
      simp only [List.getElem?_cons_zero, List.getElem?_cons_succ, closer, add_zero, lt_self_iff_false, decide_false, Bool.false_eq_true, if_false, abs_zero, exPar,
        Nat.zero_add, neg_zero, min_self, max_self]
      rw [if_pos (by decide)]
      rcases e0 fuel with e | e
      · rw [e]
      · rw [e]
        simp only [List.nil_append]
        rw [if_pos (by omega), scan]
        simp only [List.getElem?_cons_zero, List.getElem?_cons_succ, closer, List.getElem?_nil, Bool.false_eq_true, if_false, add_zero, abs_zero, neg_zero, min_self, max_self]
        rw [if_pos (by decide), seenLoop_zero]
        rfl
    simp only [List.length_cons, List.length_nil, Nat.reduceAdd, this, Option.map_none]
  have hc : centers exPar fuel [5, 5, 5, 5, 5] = none := by
    unfold centers
    have : List.range' 1 (([5, 5, 5, 5, 5] : List ℤ).length - 1) = [1, 2, 3, 4] := by decide
    rw [this, List.foldlM_cons]
    cases center exPar fuel [5, 5, 5, 5, 5] ⟨[], [], [], []⟩ 1 with
    | none => rfl
    | some s => simp only [Option.bind_eq_bind, Option.bind_some, List.foldlM_cons, h2, Option.bind_none, Option.map_none]
  rw [extractFold, foldWith, if_pos (by decide), foldSub, hc]
  rfl

/-! ### Long lists -/

theorem near_block {small : ℤ → Bool} {maxP : Option ℤ} {occs : List ℤ} {n m a b c : ℕ} (h : Near small maxP ((occs.drop n).take m) a b c) : Near small maxP occs (a + n) (b + n) (c + n) := by
  have key : ∀ {k : ℕ} {x : ℤ}, ((occs.drop n).take m)[k]? = some x → occs[k + n]? = some x := by
    intro k x h
    rw [List.getElem?_take] at h
    split at h
    · rw [List.getElem?_drop, Nat.add_comm] at h; exact h
    · cases h
  obtain ⟨h1, h2, x, y, z, hx, hy, hz, h3⟩ := h
  exact ⟨by omega, by omega, x, y, z, key hx, key hy, key hz, h3⟩

/-- What is true of the chains and triples of block `j`. -/
def BlockOk (P : Par) (occs : List ℤ) (B j : ℕ) (chains : List Chain) (triples : List Triple) : Prop :=
  (∀ c ∈ chains, 4 ≤ c.2.length ∧ c.2.Pairwise (· < ·) ∧ (∀ k ∈ c.2, k < B) ∧ c.1.map some = c.2.map (fun k => occs[j * B + k]?) ∧ P.effChain c.1 = true ∧
      ∀ i a b d, c.2[i]? = some a → c.2[i + 1]? = some b → c.2[i + 2]? = some d → Near P.small P.maxP occs (j * B + a) (j * B + b) (j * B + d)) ∧
    ∀ t ∈ triples, ∃ a b c x y z, t.2.2 = [a, b, c] ∧ Near P.small P.maxP occs a b c ∧ c < (j + 1) * B ∧ occs[a]? = some x ∧ occs[b]? = some y ∧ occs[c]? = some z ∧
      t.1 = |(z - y) - (y - x)| ∧ t.2.1 = min (z - y) (y - x) ∧ P.effTrip t.1 t.2.1 = true

theorem block_ok (P : Par) (fuel : ℕ) (occs : List ℤ) (B j : ℕ) (hs : occs.Pairwise (· < ·)) (hf : B + 2 ≤ fuel) :
    ∃ chains triples, foldSub P fuel ((occs.drop (j * B)).take B) (j * B) = some (chains, triples) ∧ BlockOk P occs B j chains triples := by
  have hlen : ((occs.drop (j * B)).take B).length ≤ B := by simp
  obtain ⟨chains, triples, e, h1, h2, -, -⟩ := foldSub_ok P fuel ((occs.drop (j * B)).take B) (j * B) (hs.sublist ((List.take_sublist _ _).trans (List.drop_sublist _ _))) (by omega)
  have key : ∀ {k : ℕ} {x : ℤ}, ((occs.drop (j * B)).take B)[k]? = some x → occs[k + j * B]? = some x := by
    intro k x h
    rw [List.getElem?_take] at h
    split at h
    · rw [List.getElem?_drop, Nat.add_comm] at h; exact h
    · cases h
  refine ⟨chains, triples, e, ?_, ?_⟩
  · intro c hc
    obtain ⟨k1, k2, k3, k4, k5, k6⟩ := h1 c hc
    refine ⟨k1, k2, fun k hk => (k3 k hk).trans_le hlen, ?_, k5, ?_⟩
    · rw [k4, List.map_map]
      refine List.map_congr_left ?_
      intro k hk
      have hk' := k3 k hk
      have e1 := List.getElem?_eq_getElem hk'
      simp only [Function.comp, List.getD_eq_getElem?_getD, e1, Option.getD_some]
      rw [Nat.add_comm]
      exact (key e1).symm
    · intro i a b d ha hb hd
      have := near_block (k6 i a b d ha hb hd)
      rw [Nat.add_comm, Nat.add_comm b, Nat.add_comm d] at this
      exact this
  · intro t ht
    obtain ⟨a, b, c, x, y, z, ht', hn, hx, hy, hz, h3⟩ := h2 t ht
    refine ⟨_, _, _, x, y, z, ht', near_block hn, ?_, key hx, key hy, key hz, h3⟩
    have := (List.getElem?_eq_some_iff.1 hz).1
    rw [Nat.add_mul]
    omega

/-- C65 on 2000 occurrences or more, in part: the search ends, and the answers are those of the blocks of 1500 occurrences, in order; what follows the last full block is ignored. Triples carry their
positions; the positions of a chain are counted from the beginning of its block. Missing: positions of chains in the whole list, see `fold_positions`. -/
theorem fold_blocks_partial (P : Par) (fuel : ℕ) (occs : List ℤ) (hs : occs.Pairwise (· < ·)) (hn : 2000 ≤ occs.length) (hf : 1502 ≤ fuel) :
    ∃ parts : List (List Chain × List Triple), extractFold P fuel occs = some (parts.flatMap Prod.fst, parts.flatMap Prod.snd) ∧ parts.length = occs.length / 1500 ∧
      ∀ j x, parts[j]? = some x → BlockOk P occs 1500 j x.1 x.2 := by
  have hb : ∀ (n i : ℕ), ∃ parts : List (List Chain × List Triple), blocks P fuel 1500 occs (List.range' i n) = some (parts.flatMap Prod.fst, parts.flatMap Prod.snd) ∧ parts.length = n ∧
      ∀ j x, parts[j]? = some x → BlockOk P occs 1500 (i + j) x.1 x.2 := by
    intro n
    induction n with
    | zero => intro i; exact ⟨[], rfl, rfl, by simp⟩
    | succ n ih =>
      intro i
      obtain ⟨parts, e, hl, h⟩ := ih (i + 1)
      obtain ⟨c, t, e', h'⟩ := block_ok P fuel occs 1500 i hs (by omega)
      refine ⟨(c, t) :: parts, ?_, by simp [hl], ?_⟩
      · rw [List.range'_succ, blocks, e', e]
        simp
      · intro j x hj
        cases j with
        | zero => simp only [List.getElem?_cons_zero, Option.some.injEq] at hj; rw [← hj]; exact h'
        | succ j => rw [show i + (j + 1) = i + 1 + j by omega]; exact h j x (by simpa using hj)
  obtain ⟨parts, e, hl, h⟩ := hb (occs.length / 1500 - 1) 1
  obtain ⟨c, t, e', h'⟩ := block_ok P fuel occs 1500 0 hs (by omega)
  simp only [Nat.zero_mul, List.drop_zero] at e'
  refine ⟨(c, t) :: parts, ?_, by simp only [List.length_cons, hl]; omega, ?_⟩
  · rw [extractFold, foldWith, if_neg (by omega), e', e]
    simp
  · intro j x hj
    cases j with
    | zero => simp only [List.getElem?_cons_zero, Option.some.injEq] at hj; rw [← hj]; exact h'
    | succ j => rw [show j + 1 = 1 + j by omega]; exact h j x (by simpa using hj)

/-- The positions of the chains of all blocks but the first are wrong: none of the occurrences of such a chain is the occurrence at the position given for it. -/
theorem block_positions (P : Par) (occs : List ℤ) (hs : occs.Pairwise (· < ·)) (B j : ℕ) (hj : 1 ≤ j) (chains : List Chain) (triples : List Triple) (h : BlockOk P occs B j chains triples)
    (c : Chain) (hc : c ∈ chains) (i k : ℕ) (x : ℤ) (hk : c.2[i]? = some k) (hx : c.1[i]? = some x) : occs[k]? ≠ some x := by
  obtain ⟨-, -, h3, h4, -⟩ := h.1 c hc
  intro hx'
  have e := congrArg (fun l => l[i]?) h4
  simp only [List.getElem?_map, hk, hx, Option.map_some, Option.some.injEq] at e
  obtain ⟨l1, e1⟩ := List.getElem?_eq_some_iff.1 hx'
  obtain ⟨l2, e2⟩ := List.getElem?_eq_some_iff.1 e.symm
  have hkB := h3 k (List.mem_of_getElem? hk)
  have : B ≤ j * B := Nat.le_mul_of_pos_left B (by omega)
  have := List.pairwise_iff_getElem.1 hs k (j * B + k) l1 l2 (by omega)
  omega

/-! ### A list of 3000 occurrences -/

/-- Neighbours only. -/
def longPar : Par := ⟨fun d => d < 3, fun _ _ => true, fun _ => true, some 2⟩

/-- The times `n`, `n + 1`, ... -/
def times (n m : ℕ) : List ℤ := (List.range' n m).map (fun k : ℕ => (k : ℤ))

theorem times_length (n m : ℕ) : (times n m).length = m := by rw [times, List.length_map, List.length_range']

theorem times_sorted (n m : ℕ) : (times n m).Pairwise (· < ·) := by
  unfold times
  rw [List.pairwise_map]
  refine (List.pairwise_lt_range' (s := n) (n := m)).imp ?_
  intro a b h
  exact_mod_cast h

theorem set_keys {k k' : ℕ × ℕ} {v : ℤ × ℤ × ℕ} {d : Dict} (h : k' ∈ d.map Prod.fst) : k' ∈ (Dict.set k v d).map Prod.fst := key_set.2 (Or.inr h)

theorem upd_keeps {aft bef : List ℤ} {i : ℕ} {x : ℕ × ℕ} {s : St} {k : ℕ × ℕ} (h : k ∈ s.fwd.map Prod.fst) : k ∈ (upd aft bef i s x).fwd.map Prod.fst := by
  have h1 : ∀ a c dE dp, k ∈ (updFwd a i c dE dp s).fwd.map Prod.fst := by
    intro a c dE dp
    unfold updFwd
    split
    · split
      · exact h
      · exact set_keys h
    · split
      · exact set_keys h
      · exact h
  unfold upd updTest
  simp only
  split
  · exact h1 _ _ _ _
  · split
    · exact h1 _ _ _ _
    · exact h1 _ _ _ _

theorem center_keeps {P : Par} {fuel : ℕ} {occs : List ℤ} {i : ℕ} {s s' : St} {k : ℕ × ℕ} (h : k ∈ s.fwd.map Prod.fst) (hc : center P fuel occs s i = some s') : k ∈ s'.fwd.map Prod.fst := by
  unfold center at hc
  obtain ⟨l, -, rfl⟩ := Option.map_eq_some_iff.1 hc
  have : k ∈ (l.foldl (upd (aft P occs i) (bef P occs i) i) s).fwd.map Prod.fst := by
    clear hc
    revert s
    induction l with
    | nil => intro s h; exact h
    | cons x l ih => intro s h; exact ih (upd_keeps h)
  unfold flush
  split
  · exact this
  · exact this

theorem centers_keeps {P : Par} {fuel : ℕ} {occs : List ℤ} {k : ℕ × ℕ} : ∀ {is : List ℕ} {s s' : St}, k ∈ s.fwd.map Prod.fst → is.foldlM (center P fuel occs) s = some s' → k ∈ s'.fwd.map Prod.fst := by
  intro is
  induction is with
  | nil => intro s s' h e; simp only [List.foldlM_nil, Option.pure_def, Option.some.injEq] at e; rw [← e]; exact h
  | cons i is ih =>
    intro s s' h e
    rw [List.foldlM_cons] at e
    cases hc : center P fuel occs s i with
    | none => rw [hc] at e; cases e
    | some s1 => rw [hc] at e; exact ih (center_keeps h hc) e

set_option maxRecDepth 100000 in
theorem times_center1 : center longPar 2000 (times 1500 1500) ⟨[], [], [], []⟩ 1 = some ⟨[((1, 2), (0, 1, 0))], [], [], []⟩ := by
  have h : aft longPar (times 1500 1500) 1 = [1] ∧ bef longPar (times 1500 1500) 1 = [-1] := by decide +kernel
  unfold center
  rw [h.1, h.2]
  rfl

set_option maxRecDepth 100000 in
theorem times_center2 : center longPar 2000 (times 1500 1500) ⟨[((1, 2), (0, 1, 0))], [], [], []⟩ 2 = some ⟨[((2, 3), (0, 1, 1))], [((1, 2), (0, 1, 3))], [((1, 2), (0, 1, 0))], []⟩ := by
  have h : aft longPar (times 1500 1500) 2 = [1] ∧ bef longPar (times 1500 1500) 2 = [-1] := by decide +kernel
  unfold center
  rw [h.1, h.2]
  rfl

theorem times_chain : ∃ chains triples, foldSub longPar 2000 (times 1500 1500) 1500 = some (chains, triples) ∧ chains ≠ [] := by
  obtain ⟨s, e, h1, h2, h3, h4, h5⟩ := centers_ok (P := longPar) (fuel := 2000) (times_sorted 1500 1500) (by rw [times_length]; omega)
  have hk : (1, 2) ∈ s.fwd.map Prod.fst := by
    have e0 := e
    unfold centers at e0
    obtain ⟨s', e', rfl⟩ := Option.map_eq_some_iff.1 e0
    clear e0
    have hl : (times 1500 1500).length - 1 = 1497 + 1 + 1 := by rw [times_length]
    rw [hl, List.range'_succ, List.range'_succ, List.foldlM_cons, times_center1, Option.bind_eq_bind, Option.bind_some, List.foldlM_cons, times_center2, Option.bind_eq_bind, Option.bind_some] at e'
    exact centers_keeps (s' := s') (s := ⟨[((2, 3), (0, 1, 1))], [((1, 2), (0, 1, 3))], [((1, 2), (0, 1, 0))], []⟩) List.mem_cons_self e'
  obtain ⟨cs, trip', e', -, -, -, -⟩ := chainLoop_ok s.bck h3 s.fwd.length s.fwd s.trip (Nat.le_refl _) h2 h4 h5
  have hcs : cs ≠ [] := by
    rintro rfl
    have hne : s.fwd.length ≠ 0 := by
      intro h
      rw [List.length_eq_zero_iff.1 h] at hk
      simp at hk
    obtain ⟨n, hn⟩ : ∃ n, s.fwd.length = n + 1 := ⟨s.fwd.length - 1, by omega⟩
    rw [hn, chainLoop] at e'
    cases hm : minKey (s.fwd.map Prod.fst) with
    | none => rw [minKey_none hm] at hk; simp at hk
    | some kf =>
      rw [hm] at e'
      simp only at e'
      split at e'
      · obtain ⟨r, -, hr⟩ := Option.map_eq_some_iff.1 e'
        simp at hr
      · cases e'
  refine ⟨(cs.map (fun pos => (pos.map (fun c => (times 1500 1500).getD c 0), pos))).filter (fun c => longPar.effChain c.1),
    (trip'.filter (fun x => longPar.effTrip x.2.1 x.2.2.1)).map (fun x => (x.2.1, x.2.2.1, [x.2.2.2 + 1500, x.1.1 + 1500, x.1.2 + 1500])),
    by rw [foldSub, e]; simp only [Option.bind_some, e', Option.map_some], ?_⟩
  cases cs with
  | nil => exact absurd rfl hcs
  | cons c cs => simp [longPar]

/-- C65 fails on long lists: among 3000 regular occurrences a chain is returned with positions at which the occurrences are all different from those of the chain. -/
theorem fold_positions : ∃ (chains : List Chain) (triples : List Triple), extractFold longPar 2000 (times 0 3000) = some (chains, triples) ∧
    ∃ c ∈ chains, 4 ≤ c.2.length ∧ ∀ (i k : ℕ) (x : ℤ), c.2[i]? = some k → c.1[i]? = some x → (times 0 3000)[k]? ≠ some x := by
  have hd : ((times 0 3000).drop (1 * 1500)).take 1500 = times 1500 1500 := by decide +kernel
  obtain ⟨c1, t1, e1, hne⟩ := times_chain
  obtain ⟨c1', t1', e1', hb⟩ := block_ok longPar 2000 (times 0 3000) 1500 1 (times_sorted 0 3000) (by omega)
  rw [hd, Nat.one_mul, e1] at e1'
  simp only [Option.some.injEq, Prod.mk.injEq] at e1'
  obtain ⟨rfl, rfl⟩ := e1'
  obtain ⟨c0, t0, e0, -⟩ := block_ok longPar 2000 (times 0 3000) 1500 0 (times_sorted 0 3000) (by omega)
  simp only [Nat.zero_mul, List.drop_zero] at e0
  obtain ⟨c, hc⟩ := List.exists_mem_of_ne_nil c1 hne
  refine ⟨c0 ++ c1, t0 ++ t1, ?_, c, List.mem_append_right _ hc, (hb.1 c hc).1, fun i k x => block_positions longPar (times 0 3000) (times_sorted 0 3000) 1500 1 (Nat.le_refl _) c1 t1 hb c hc i k x⟩
  have hl : (times 0 3000).length = 3000 := times_length _ _
  rw [extractFold, foldWith, if_neg (by omega), e0, hl]
  have : List.range' 1 (3000 / 1500 - 1) = [1] := by decide
  rw [this, blocks, hd, Nat.one_mul, e1, blocks]
  simp

example : (times 0 3000).Pairwise (· < ·) ∧ 2000 ≤ (times 0 3000).length := ⟨times_sorted 0 3000, by rw [times_length]; omega⟩

end Verif.Fold
