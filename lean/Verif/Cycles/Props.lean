import Verif.Cycles.Lemmas
import Mathlib.Algebra.Order.Ring.Rat

/-!
# Extraction of cycles: properties (C39, C58)
-/

set_option autoImplicit false
set_option linter.unusedSectionVars false

namespace Verif.Cycles

variable {C : Type*} [AddCommGroup C] [LinearOrder C] [IsOrderedAddMonoid C]

/-- C39. For every number of occurrences `n ≥ 1` and all costs, the table is computed without error, and the segmentation read from it covers positions `0..n-1`
by consecutive segments with the least cost among all such segmentations. -/
theorem dp_optimal (cyc : ℕ → ℕ → C) (res : C) (n : ℕ) (hn : 1 ≤ n) :
    ∃ t l, computeTable cyc res n = some t ∧ recover t true n 0 (n - 1) = some l ∧ Covers 0 l n ∧
      ∀ l', Covers 0 l' n → cost cyc res l ≤ cost cyc res l' := by
  obtain ⟨t, ht, hF⟩ := computeTable_ok cyc res n
  obtain ⟨l, v, h1, _, h3, h4, h5⟩ := recover_ok hF (n - 1) 0 (n - 1) n (by omega) (by omega) (by omega) (by omega)
  rw [show n - 1 + 1 = n by omega] at h3
  refine ⟨t, l, ht, h1, h3, fun l' hl' => ?_⟩
  obtain ⟨v', h6, h7⟩ := part_opt hF 0 (n - 1) (by omega) (by omega) (by omega)
  rw [h4] at h6
  cases h6
  rw [h5]
  exact h7 l' (by rwa [show n - 1 + 1 = n by omega])

/-- C39. From three occurrences on, the score stored for the whole list is that least cost. -/
theorem dp_score (cyc : ℕ → ℕ → C) (res : C) (n : ℕ) (hn : 3 ≤ n) :
    ∃ t v sp, computeTable cyc res n = some t ∧ t 0 (n - 1) = some (v, sp) ∧ (∃ l, Covers 0 l n ∧ cost cyc res l = v) ∧
      ∀ l', Covers 0 l' n → v ≤ cost cyc res l' := by
  obtain ⟨t, ht, hF⟩ := computeTable_ok cyc res n
  obtain ⟨v, sp, h1, h2, _⟩ := hF.2 0 (n - 1) (by omega) (by omega) (by omega)
  obtain ⟨l, w, _, _, h3, h4, h5⟩ := recover_ok hF (n - 1) 0 (n - 1) n (by omega) (by omega) (by omega) (by omega)
  have e : n - 1 + 1 = n := by omega
  rw [e] at h2 h3
  refine ⟨t, v, sp, ht, h1, ⟨l, h3, ?_⟩, h2⟩
  unfold part at h4
  rw [if_neg (by omega), h1] at h4
  rw [h5]
  exact (Option.some.inj h4).symm

/-- C39. Without singletons, exactly the segments of at least three occurrences are returned. -/
theorem dp_cycles (cyc : ℕ → ℕ → C) (res : C) (n : ℕ) (hn : 1 ≤ n) (f : ℕ) (hf : n ≤ f) :
    ∃ t l, computeTable cyc res n = some t ∧ recover t true n 0 (n - 1) = some l ∧
      recover t false f 0 (n - 1) = some (l.filter (fun s => s.1 + 2 ≤ s.2)) := by
  obtain ⟨t, ht, hF⟩ := computeTable_ok cyc res n
  obtain ⟨l, v, h1, _, _⟩ := recover_ok hF (n - 1) 0 (n - 1) n (by omega) (by omega) (by omega) (by omega)
  refine ⟨t, l, ht, h1, ?_⟩
  -- more fuel gives the same result
  have hmono : ∀ (g : ℕ) (a z : ℕ) (l : List (ℕ × ℕ)), recover t true g a z = some l → recover t true (g + 1) a z = some l := by
    intro g
    induction g with
    | zero => intro a z l h; cases h
    | succ g ih =>
      intro a z l h
      rw [recover] at h ⊢
      cases htz : t a z with
      | none => rw [htz] at h; exact h
      | some x =>
        obtain ⟨w, sp⟩ := x
        rw [htz] at h
        cases sp with
        | whole => exact h
        | residual => exact h
        | «at» im =>
          simp only at h ⊢
          cases hl : recover t true g a im with
          | none => rw [hl] at h; cases h
          | some l1 =>
            cases hr : recover t true g (im + 1) z with
            | none => rw [hl, hr] at h; cases h
            | some l2 =>
              rw [hl, hr] at h
              rw [ih _ _ _ hl, ih _ _ _ hr]
              exact h
  have hmono' : ∀ d, recover t true (n + d) 0 (n - 1) = some l := by
    intro d
    induction d with
    | zero => exact h1
    | succ d ih => exact hmono _ _ _ _ ih
  obtain ⟨l2, v2, h3, h4, _⟩ := recover_ok hF (n - 1) 0 (n - 1) f (by omega) (by omega) (by omega) (by omega)
  have := hmono' (f - n)
  rw [show n + (f - n) = f by omega, h3] at this
  rw [h4, Option.some.inj this]

/-- A cost table on six occurrences where the best is a cycle on the first four and two residuals. -/
example : ((computeTable (C := ℤ) (fun a z => if a = 0 ∧ z = 3 then 5 else 30) 4 6).bind (fun t => recover t true 6 0 5)) =
    some [(0, 3), (4, 4), (5, 5)] := by decide
example : Covers 0 [(0, 3), (4, 4), (5, 5)] 6 ∧ cost (C := ℤ) (fun a z => if a = 0 ∧ z = 3 then 5 else 30) 4 [(0, 3), (4, 4), (5, 5)] = 13 := by
  refine ⟨⟨rfl, by decide, rfl, by decide, rfl, by decide, rfl⟩, by decide⟩

/-! ### Blocks -/

/-- Splits in order, disjoint, ending before `e`. -/
def Chain (l : List (ℕ × ℕ)) : Prop := l.Pairwise (fun s s' => s.2 < s'.1) ∧ ∀ s ∈ l, s.1 ≤ s.2

theorem combineLoop_chain : ∀ (pre rest adj : List (ℕ × ℕ)), Chain (pre ++ rest) → Chain adj → (∀ s ∈ pre, ∀ a ∈ adj, s.2 < a.1) →
    Chain (combineLoop pre rest adj) ∧ ∀ e : ℕ, (∀ s ∈ rest, s.2 < e) → (∀ s ∈ pre, s.2 < e) → (∀ s ∈ adj, s.2 < e) →
      ∀ s ∈ combineLoop pre rest adj, s.2 < e := by
  intro pre rest adj
  induction pre, rest, adj using combineLoop.induct with
  | case1 pre rest =>
    intro h1 _ _
    rw [combineLoop]
    refine ⟨⟨(List.pairwise_append.1 h1.1).1, fun s hs => h1.2 s (List.mem_append_left _ hs)⟩, fun e _ h _ => h⟩
  | case2 pre a adj =>
    intro h1 h2 h3
    rw [combineLoop]
    refine ⟨⟨?_, ?_⟩, ?_⟩
    · rw [List.pairwise_append]
      exact ⟨(List.pairwise_append.1 h1.1).1, h2.1, h3⟩
    · intro s hs
      rcases List.mem_append.1 hs with h | h
      · exact h1.2 s (List.mem_append_left _ h)
      · exact h2.2 s h
    · intro e _ hp ha s hs
      rcases List.mem_append.1 hs with h | h
      · exact hp s h
      · exact ha s h
  | case3 pre s rest a adj hlt ih =>
    intro h1 h2 h3
    rw [combineLoop, if_pos hlt]
    have hlt' : ∀ b ∈ a :: adj, s.2 < b.1 := by
      intro b hb
      rcases List.mem_cons.1 hb with h | h
      · rw [h]; exact hlt
      · have h4 := (List.pairwise_cons.1 h2.1).1 b h
        have h5 := h2.2 a List.mem_cons_self
        omega
    obtain ⟨hc, he⟩ := ih (by simpa using h1) h2 (by
      intro x hx b hb
      rcases List.mem_append.1 hx with h | h
      · exact h3 x h b hb
      · rw [List.mem_singleton] at h; rw [h]; exact hlt' b hb)
    refine ⟨hc, fun e hr hp ha => he e (fun x hx => hr x (List.mem_cons_of_mem _ hx)) ?_ ha⟩
    intro x hx
    rcases List.mem_append.1 hx with h | h
    · exact hp x h
    · rw [List.mem_singleton] at h; rw [h]; exact hr s List.mem_cons_self
  | case4 pre s rest a adj hlt hle =>
    intro h1 h2 h3
    rw [combineLoop, if_neg hlt, if_pos hle]
    refine ⟨⟨?_, ?_⟩, ?_⟩
    · rw [List.pairwise_append]
      exact ⟨(List.pairwise_append.1 h1.1).1, h2.1, h3⟩
    · intro x hx
      rcases List.mem_append.1 hx with h | h
      · exact h1.2 x (List.mem_append_left _ h)
      · exact h2.2 x h
    · intro e _ hp ha x hx
      rcases List.mem_append.1 hx with h | h
      · exact hp x h
      · exact ha x h
  | case5 pre s rest a adj hlt hle hle' ih =>
    intro h1 h2 h3
    rw [combineLoop, if_neg hlt, if_neg hle, if_pos hle']
    obtain ⟨hc, he⟩ := ih h1 ⟨(List.pairwise_cons.1 h2.1).2, fun x hx => h2.2 x (List.mem_cons_of_mem _ hx)⟩
      (fun x hx b hb => h3 x hx b (List.mem_cons_of_mem _ hb))
    exact ⟨hc, fun e hr hp ha => he e hr hp (fun x hx => ha x (List.mem_cons_of_mem _ hx))⟩
  | case6 pre s rest a adj hlt hle hle' =>
    intro h1 h2 h3
    rw [combineLoop, if_neg hlt, if_neg hle, if_neg hle']
    have h2a := h2.2 a List.mem_cons_self
    obtain ⟨hp1, _, hp3⟩ := List.pairwise_append.1 h1.1
    refine ⟨⟨?_, ?_⟩, ?_⟩
    · rw [List.pairwise_append]
      refine ⟨hp1, ?_, ?_⟩
      · have h5 := List.pairwise_cons.1 h2.1
        exact List.pairwise_cons.2 ⟨h5.1, h5.2⟩
      · intro x hx b hb
        rcases List.mem_cons.1 hb with h | h
        · rw [h]; exact hp3 x hx s List.mem_cons_self
        · exact h3 x hx b (List.mem_cons_of_mem _ h)
    · intro x hx
      rcases List.mem_append.1 hx with h | h
      · exact h1.2 x (List.mem_append_left _ h)
      · rcases List.mem_cons.1 h with h | h
        · rw [h]; simp only; omega
        · exact h2.2 x (List.mem_cons_of_mem _ h)
    · intro e _ hp ha x hx
      rcases List.mem_append.1 hx with h | h
      · exact hp x h
      · rcases List.mem_cons.1 h with h | h
        · rw [h]; exact ha a List.mem_cons_self
        · exact ha x (List.mem_cons_of_mem _ h)

theorem combineSplits_chain (splits adj : List (ℕ × ℕ)) (h1 : Chain splits) (h2 : Chain adj) :
    Chain (combineSplits splits adj) ∧ ∀ e : ℕ, (∀ s ∈ splits, s.2 < e) → (∀ s ∈ adj, s.2 < e) → ∀ s ∈ combineSplits splits adj, s.2 < e := by
  unfold combineSplits
  split
  · split
    · exact ⟨h2, fun e _ h => h⟩
    · obtain ⟨ha, hb⟩ := combineLoop_chain [] splits adj h1 h2 (by simp)
      exact ⟨ha, fun e h h' => hb e h (by simp) h'⟩
  · exact ⟨h1, fun e h _ => h⟩

theorem covers_chain (l : List (ℕ × ℕ)) : ∀ a e : ℕ, Covers a l e → Chain l ∧ ∀ s ∈ l, a ≤ s.1 ∧ s.2 < e := by
  induction l with
  | nil => intro a e _; exact ⟨⟨List.Pairwise.nil, by simp⟩, by simp⟩
  | cons s l ih =>
    rintro a e ⟨h1, h2, h3⟩
    obtain ⟨⟨h4, h5⟩, h6⟩ := ih _ _ h3
    have := h3.le
    refine ⟨⟨List.pairwise_cons.2 ⟨fun x hx => by have := (h6 x hx).1; omega, h4⟩, ?_⟩, ?_⟩
    · intro x hx
      rcases List.mem_cons.1 hx with h | h
      · rw [h]; exact h2
      · exact h5 x h
    · intro x hx
      rcases List.mem_cons.1 hx with h | h
      · rw [h]; omega
      · have := h6 x h; omega

theorem blockSplits_ok (cyc : List ℤ → C) (res : C) (occs : List ℤ) :
    ∃ b, blockSplits cyc res occs = some b ∧ Chain b ∧ (∀ s ∈ b, s.2 < occs.length) := by
  rcases Nat.eq_zero_or_pos occs.length with h0 | hpos
  · have : occs = [] := List.eq_nil_of_length_eq_zero h0
    subst this
    exact ⟨[], rfl, ⟨List.Pairwise.nil, by simp⟩, by simp⟩
  · obtain ⟨t, ht, hF⟩ := computeTable_ok (fun ia iz => cyc (segment occs (ia, iz))) res occs.length
    obtain ⟨l, v, h1, h2, h3, _⟩ := recover_ok hF (occs.length - 1) 0 (occs.length - 1) (occs.length + 1) (by omega) (by omega) (by omega) (by omega)
    obtain ⟨⟨h4, h5⟩, h6⟩ := covers_chain _ _ _ h3
    refine ⟨_, by unfold blockSplits; rw [ht]; exact h2, ⟨h4.filter _, fun s hs => h5 s (List.mem_of_mem_filter hs)⟩, fun s hs => ?_⟩
    have := (h6 s (List.mem_of_mem_filter hs)).2
    omega

theorem blockLoop_ok (cyc : List ℤ → C) (res : C) (occs : List ℤ) :
    ∀ (f pstart : ℕ) (splits : List (ℕ × ℕ)), occs.length < f + pstart → 1 ≤ f → Chain splits → (∀ s ∈ splits, s.2 < occs.length) →
    ∃ l, blockLoop cyc res occs f pstart splits = some l ∧ Chain l ∧ ∀ s ∈ l, s.2 < occs.length := by
  intro f
  induction f with
  | zero => intro _ _ _ h; omega
  | succ f ih =>
    intro pstart splits hf _ hc hb
    rw [blockLoop]
    split
    · next hlt =>
      obtain ⟨b, h1, h2, h3⟩ := blockSplits_ok cyc res ((occs.drop pstart).take 100)
      rw [h1]
      simp only
      have hadj : Chain (b.map (fun s => (s.1 + pstart, s.2 + pstart))) := by
        refine ⟨?_, ?_⟩
        · rw [List.pairwise_map]
          exact h2.1.imp (fun h => by simp only; omega)
        · intro s hs
          obtain ⟨x, hx, rfl⟩ := List.mem_map.1 hs
          have := h2.2 x hx
          simp only; omega
      have hadjb : ∀ s ∈ b.map (fun s => (s.1 + pstart, s.2 + pstart)), s.2 < occs.length := by
        intro s hs
        obtain ⟨x, hx, rfl⟩ := List.mem_map.1 hs
        have := h3 x hx
        rw [List.length_take, List.length_drop] at this
        simp only; omega
      obtain ⟨h4, h5⟩ := combineSplits_chain splits _ hc hadj
      exact ih _ _ (by omega) (by omega) h4 (h5 _ hb hadjb)
    · exact ⟨splits, rfl, hc, hb⟩

theorem dynSplits_ok (cyc : List ℤ → C) (res : C) (occs : List ℤ) :
    ∃ l, dynSplits cyc res occs = some l ∧ Chain l ∧ ∀ s ∈ l, s.2 < occs.length := by
  unfold dynSplits
  split
  · exact blockLoop_ok cyc res occs _ 0 [] (by omega) (by omega) ⟨List.Pairwise.nil, by simp⟩ (by simp)
  · exact blockSplits_ok cyc res occs

/-- The occurrences of ordered disjoint segments form a sublist of the occurrences. -/
theorem segments_sublist (occs : List ℤ) : ∀ (l : List (ℕ × ℕ)) (p : ℕ), Chain l → (∀ s ∈ l, p ≤ s.1) →
    ((l.map (segment occs)).flatten).Sublist (occs.drop p) := by
  intro l
  induction l with
  | nil => intro p _ _; simp
  | cons s l ih =>
    intro p hc hp
    have hc' : Chain l := ⟨(List.pairwise_cons.1 hc.1).2, fun x hx => hc.2 x (List.mem_cons_of_mem _ hx)⟩
    have h1 := ih (s.2 + 1) hc' (fun x hx => (List.pairwise_cons.1 hc.1).1 x hx)
    have hs := hc.2 s List.mem_cons_self
    have hps := hp s List.mem_cons_self
    rw [List.map_cons, List.flatten_cons]
    have e : occs.drop s.1 = segment occs s ++ occs.drop (s.2 + 1) := by
      unfold segment
      conv_lhs => rw [← List.take_append_drop (s.2 + 1 - s.1) (occs.drop s.1), List.drop_drop]
      congr 2
      omega
    have h2 : (occs.drop s.1).Sublist (occs.drop p) := by
      have : occs.drop s.1 = (occs.drop p).drop (s.1 - p) := by rw [List.drop_drop]; congr 1; omega
      rw [this]
      exact List.drop_sublist _ _
    refine List.Sublist.trans ?_ h2
    rw [e]
    exact List.Sublist.append_left h1 _

/-- C58. For every list of distinct occurrence times and all costs, the extraction succeeds; each cycle is a run of at least three consecutive occurrences, and the
cycles and the residual together hold each occurrence exactly once. -/
theorem cycles_partition (cyc : List ℤ → C) (res : C) (occs : List ℤ) (hn : occs.Nodup) :
    ∃ cycles residual, computeCycles cyc res occs = some (cycles, residual) ∧
      (∀ c ∈ cycles, c <:+: occs ∧ 3 ≤ c.length) ∧ (cycles.flatten ++ residual).Perm occs ∧ residual.Pairwise (· ≤ ·) := by
  obtain ⟨l, hl, hc, hb⟩ := dynSplits_ok cyc res occs
  obtain ⟨fl, hfl⟩ : ∃ fl, fl = l.filter (fun s => s.1 + 1 < s.2) := ⟨_, rfl⟩
  obtain ⟨cs, hcs⟩ : ∃ cs, cs = (fl.map (segment occs)).insertionSort (fun a b : List ℤ => a.headD 0 ≤ b.headD 0) := ⟨_, rfl⟩
  have hperm : cs.Perm (fl.map (segment occs)) := by rw [hcs]; exact List.perm_insertionSort _ _
  have hcf : Chain fl := by rw [hfl]; exact ⟨hc.1.filter _, fun s hs => hc.2 s (List.mem_of_mem_filter hs)⟩
  have hsub : ((fl.map (segment occs)).flatten).Sublist occs := by simpa using segments_sublist occs fl 0 hcf (by simp)
  have hfn : cs.flatten.Nodup := (hperm.flatten.nodup_iff).2 (hsub.nodup hn)
  have hmem : ∀ o ∈ cs.flatten, o ∈ occs := fun o ho => hsub.subset (hperm.flatten.mem_iff.1 ho)
  refine ⟨cs, (occs.dedup.filter (fun o => o ∉ cs.flatten)).insertionSort (· ≤ ·), ?_, fun c hcm => ?_, ?_, List.pairwise_insertionSort _ _⟩
  · unfold computeCycles
    rw [hl]
    simp only [Option.map_some, ← hfl, ← hcs]
  · obtain ⟨s, hs, rfl⟩ := List.mem_map.1 (hperm.mem_iff.1 hcm)
    rw [hfl, List.mem_filter] at hs
    have h1 := hb s hs.1
    have h2 : s.1 + 1 < s.2 := by simpa using hs.2
    refine ⟨?_, ?_⟩
    · unfold segment
      exact (List.take_prefix _ _).isInfix.trans (List.drop_suffix _ _).isInfix
    · unfold segment
      rw [List.length_take, List.length_drop]
      omega
  · rw [List.Nodup.dedup hn]
    refine (List.Perm.append_left _ (List.perm_insertionSort _ _)).trans ?_
    have h1 : cs.flatten.Perm (occs.filter (fun o => o ∈ cs.flatten)) := by
      rw [List.perm_ext_iff_of_nodup hfn (hn.filter _)]
      intro o
      rw [List.mem_filter]
      simp only [decide_eq_true_eq]
      exact ⟨fun h => ⟨hmem o h, h⟩, fun h => h.2⟩
    refine (List.Perm.append_right _ h1).trans ?_
    have := List.filter_append_perm (fun o => decide (o ∈ cs.flatten)) occs
    refine List.Perm.trans (List.Perm.of_eq ?_) this
    congr 1
    apply List.filter_congr
    intro o _
    simp only [decide_not]

example : (computeCycles (C := ℤ) (fun c => if c = [2, 4, 6, 8] then 5 else 30) 4 [2, 4, 6, 8, 11, 30]) =
    some ([[2, 4, 6, 8]], [11, 30]) := by decide

/-- Combining the splits of two blocks can lose a cycle: when the last split of the next block lies inside one of the previous block, the latter is dropped too. -/
theorem combine_loses_split : combineSplits [(0, 20), (70, 95)] [(82, 90)] = [(0, 20)] := by
  simp [combineSplits, combineLoop]

/-- With 205 occurrences the blocks stop at position 179: whatever the costs, the last 25 occurrences are never part of a cycle. -/
theorem tail_never_examined (cyc : List ℤ → C) (res : C) (occs : List ℤ) (hn : occs.length = 205) :
    ∃ l, dynSplits cyc res occs = some l ∧ ∀ s ∈ l, s.2 < 180 := by
  obtain ⟨b0, h1, h2, h3⟩ := blockSplits_ok cyc res ((occs.drop 0).take 100)
  obtain ⟨b1, h4, h5, h6⟩ := blockSplits_ok cyc res ((occs.drop 80).take 100)
  have hch : ∀ (b : List (ℕ × ℕ)) (p : ℕ), Chain b → Chain (b.map (fun s => (s.1 + p, s.2 + p))) := by
    intro b p h
    refine ⟨?_, ?_⟩
    · rw [List.pairwise_map]
      exact h.1.imp (fun h => by simp only; omega)
    · intro s hs
      obtain ⟨x, hx, rfl⟩ := List.mem_map.1 hs
      have := h.2 x hx
      simp only; omega
  obtain ⟨h7, h8⟩ := combineSplits_chain [] _ ⟨List.Pairwise.nil, by simp⟩ (hch b0 0 h2)
  obtain ⟨h9, h10⟩ := combineSplits_chain _ _ h7 (hch b1 80 h5)
  unfold dynSplits
  rw [if_pos (by omega), hn, blockLoop, if_pos (by omega), h1]
  simp only
  rw [blockLoop, if_pos (by omega), h4]
  simp only
  rw [blockLoop, if_neg (by omega)]
  refine ⟨_, rfl, h10 180 (h8 180 (by simp) ?_) ?_⟩
  · intro s hs
    obtain ⟨x, hx, rfl⟩ := List.mem_map.1 hs
    have := h3 x hx
    rw [List.length_take] at this
    simp only; omega
  · intro s hs
    obtain ⟨x, hx, rfl⟩ := List.mem_map.1 hs
    have := h6 x hx
    rw [List.length_take] at this
    simp only; omega

end Verif.Cycles
