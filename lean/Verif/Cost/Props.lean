import Verif.Cost.Code
import Verif.Cost.Cycle

set_option autoImplicit false
set_option linter.unusedSectionVars false

namespace Verif.Cost

open Verif.PTree

variable {α : Type} [DecidableEq α]

/-- The probability of a word. -/
noncomputable def pr (S : List (ℤ × α)) (w : Word α) : ℝ := (w.map (fun a => weight S a.1 a.2)).prod

theorem pr_append (S : List (ℤ × α)) (x y : Word α) : pr S (x ++ y) = pr S x * pr S y := by simp [pr]

theorem pr_cons (S : List (ℤ × α)) (a : Kind × Val α) (y : Word α) : pr S (a :: y) = weight S a.1 a.2 * pr S y := by simp [pr]

theorem pr_nil (S : List (ℤ × α)) : pr S ([] : Word α) = 1 := by simp [pr]

theorem two_neg_logb {x : ℝ} (h : 0 < x) : (2 : ℝ) ^ (-Real.logb 2 x) = x⁻¹ := by
  rw [Real.rpow_neg (by norm_num), Real.rpow_logb (by norm_num) (by norm_num) h]

theorem two_neg_add (x y : ℝ) : (2 : ℝ) ^ (-(x + y)) = (2 : ℝ) ^ (-x) * (2 : ℝ) ^ (-y) := by
  rw [neg_add, Real.rpow_add (by norm_num)]

/-- The cost of events and brackets under successive children. -/
noncomputable def eventBitsF (S : List (ℤ × α)) (ch : Forest α) : ℝ :=
  ((leafEventsF ch).map (fun a => Real.logb 2 (3 * (S.length : ℝ) / (countEv S a : ℝ)))).sum + 2 * (nbBlocksF ch : ℝ) * Real.logb 2 3

mutual
theorem pr_tok (S : List (ℤ × α)) : ∀ t : PTree.Tree α, (∀ a ∈ leafEvents t, 0 < countEv S a) → pr S (tokT t) = (2 : ℝ) ^ (-eventBits S t)
  | .leaf a, h => by
    have hc : 0 < countEv S a := h a (by simp [leafEvents])
    have h1 : (0 : ℝ) < (countEv S a : ℝ) := by exact_mod_cast hc
    have h2 : (0 : ℝ) < (S.length : ℝ) := by exact_mod_cast hc.trans_le (countEv_le S a)
    simp only [tokT, pr_cons, pr_nil, weight, eventBits, leafEvents, nbBlocks, List.map_cons, List.map_nil, List.sum_cons, List.sum_nil, Nat.cast_zero, mul_zero, zero_mul, add_zero, mul_one]
    rw [two_neg_logb (by positivity), inv_div]
  | .node r p ch, h => by
    have ih := pr_tokF S ch (by simpa [leafEvents] using h)
    simp only [tokT, pr_cons, pr_append, pr_nil, weight, ih, mul_one]
    have e : eventBits S (.node r p ch) = Real.logb 2 3 + (eventBitsF S ch + Real.logb 2 3) := by
      simp only [eventBits, eventBitsF, leafEvents, nbBlocks]
      push_cast
      ring
    rw [e, two_neg_add, two_neg_add, two_neg_logb (by norm_num)]
    norm_num
theorem pr_tokF (S : List (ℤ × α)) : ∀ ch : Forest α, (∀ a ∈ leafEventsF ch, 0 < countEv S a) → pr S (tokF ch) = (2 : ℝ) ^ (-eventBitsF S ch)
  | .nil, _ => by simp [tokF, pr_nil, eventBitsF, leafEventsF, nbBlocksF]
  | .cons d t rest, h => by
    simp only [leafEventsF, List.mem_append] at h
    have i1 := pr_tok S t (fun a ha => h a (Or.inl ha))
    have i2 := pr_tokF S rest (fun a ha => h a (Or.inr ha))
    have e : eventBitsF S (.cons d t rest) = eventBits S t + eventBitsF S rest := by
      simp only [eventBits, eventBitsF, leafEventsF, nbBlocksF, List.map_append, List.sum_append]
      push_cast
      ring
    rw [tokF, pr_append, i1, i2, e, two_neg_add]
end

theorem pr_wF (S : List (ℤ × α)) : ∀ l : List Field, (∀ f ∈ l, Fits f) → pr S (wF l) = (2 : ℝ) ^ (-bits l)
  | [], _ => by simp [wF, pr_nil, bits]
  | f :: l, h => by
    have hf := h f (by simp)
    have ih := pr_wF S l (fun g hg => h g (by simp [hg]))
    have hp : (0 : ℝ) < (f.2 : ℝ) := by exact_mod_cast hf.1.trans_lt hf.2
    rw [bits_cons, two_neg_add, ← ih, two_neg_logb hp]
    show pr S ((Kind.unif f.2, Sum.inr f.1) :: wF l) = _
    rw [pr_cons, weight, if_pos (show 0 ≤ f.1 ∧ f.1 < f.2 from hf), one_div]

theorem pr_wE (S : List (ℤ × α)) : ∀ E : List ℤ, pr S (wE E) = (2 : ℝ) ^ (-(corrBits E : ℝ))
  | [] => by simp [wE, pr_nil, corrBits]
  | e :: E => by
    have ih := pr_wE S E
    have hc : (corrBits (e :: E) : ℝ) = ((2 + e.natAbs : ℕ) : ℝ) + (corrBits E : ℝ) := by
      have : corrBits (e :: E) = ((2 + e.natAbs : ℕ) : ℤ) + corrBits E := by
        simp only [corrBits, List.length_cons, List.map_cons, List.sum_cons]
        push_cast
        ring
      rw [this, Int.cast_add, Int.cast_natCast]
    rw [hc, two_neg_add, ← ih]
    show pr S ((Kind.cor, Sum.inr e) :: wE E) = _
    rw [pr_cons, weight, Real.rpow_neg (by norm_num), Real.rpow_natCast, inv_pow]

/-- A pattern with its start and corrections, all of whose occurrences are distinct occurrences of the data. -/
structure Fitted (S : List (ℤ × α)) (z : PTree.Tree α × ℤ × List ℤ) : Prop where
  block : ∃ r p ch, z.1 = .node r p ch
  regular : z.1.Regular
  proper : Proper z.1
  corrs : z.2.2.length + 1 = nbOccs z.1
  occs : ∃ cov, getCovSeq z.1 z.2.1 z.2.2 = some cov ∧ cov.Nodup ∧ ∀ x ∈ cov, x ∈ S

/-- C73. The code length of a pattern is never undefined and never negative. -/
theorem cost_nonneg (S : List (ℤ × α)) (D : Details α) (hD : IsDetails S D) (z : PTree.Tree α × ℤ × List ℤ) (hz : Fitted S z) :
    ∃ c : ℝ, codeLength z.1 z.2.1 (some z.2.2) D = some c ∧ 0 ≤ c := by
  obtain ⟨T, t0, E⟩ := z
  obtain ⟨⟨r, p, ch, rfl⟩, hT, hP, hl, cov, hc, hn, hS⟩ := hz
  obtain ⟨h1, h2, -, h4⟩ := cost_message_aux S D hD r p ch hT hP t0 E hl cov hc hS hn
  refine ⟨_, h1, ?_⟩
  have b1 : 0 ≤ bits (message S D r p ch t0 (cov.map Prod.fst)) := by
    unfold bits
    apply List.sum_nonneg
    intro x hx
    obtain ⟨f, hf, rfl⟩ := List.mem_map.1 hx
    have := h2 f hf
    exact Real.logb_nonneg (by norm_num) (by have := this.1.trans_lt this.2; exact_mod_cast (by omega : (1 : ℤ) ≤ f.2))
  have b2 : 0 ≤ eventBits S (.node r p ch) := by
    unfold eventBits
    have l3 : 0 ≤ Real.logb 2 3 := Real.logb_nonneg (by norm_num) (by norm_num)
    refine add_nonneg ?_ (by positivity)
    apply List.sum_nonneg
    intro x hx
    obtain ⟨a, ha, rfl⟩ := List.mem_map.1 hx
    have hpos : (0 : ℝ) < (countEv S a : ℝ) := by exact_mod_cast h4 a ha
    have hle : (countEv S a : ℝ) ≤ (S.length : ℝ) := by exact_mod_cast countEv_le S a
    refine Real.logb_nonneg (by norm_num) ?_
    rw [le_div_iff₀ hpos]
    linarith
  have b3 : 0 ≤ (corrBits E : ℝ) := by
    have : 0 ≤ corrBits E := by
      unfold corrBits
      have : 0 ≤ (E.map (fun e => |e|)).sum := List.sum_nonneg (fun x hx => by
        obtain ⟨e, _, rfl⟩ := List.mem_map.1 hx
        exact abs_nonneg e)
      omega
    exact_mod_cast this
  linarith

/-- C74. The code lengths are those of a code that can be decoded: over any finite set of distinct patterns, two to the minus code length sums to at most one. -/
theorem cost_kraft (S : List (ℤ × α)) (D : Details α) (hD : IsDetails S D) (Z : Finset (PTree.Tree α × ℤ × List ℤ)) (hZ : ∀ z ∈ Z, Fitted S z)
    (c : PTree.Tree α × ℤ × List ℤ → ℝ) (hc : ∀ z ∈ Z, codeLength z.1 z.2.1 (some z.2.2) D = some (c z)) : ∑ z ∈ Z, (2 : ℝ) ^ (-c z) ≤ 1 := by
  obtain ⟨enc, henc⟩ : ∃ enc : PTree.Tree α × ℤ × List ℤ → Word α, ∀ r p ch t0 E, enc (.node r p ch, t0, E) = word S D r p ch t0 E :=
    ⟨fun z => match z with | (.node r p ch, t0, E) => word S D r p ch t0 E | _ => [], fun _ _ _ _ _ => rfl⟩
  have key : ∀ z ∈ Z, (2 : ℝ) ^ (-c z) = pr S (enc z) := by
    intro z hz
    have hc := hc z hz
    have hz := hZ z hz
    obtain ⟨T, t0, E⟩ := z
    obtain ⟨⟨r, p, ch, rfl⟩, hT, hP, hl, cov, hcv, hn, hS⟩ := hz
    obtain ⟨h1, h2, h3, h4⟩ := cost_message_aux S D hD r p ch hT hP t0 E hl cov hcv hS hn
    have he := Option.some.inj (hc.symm.trans h1)
    rw [he, henc, word, pr_append, pr_append, pr_append]
    have h3' : message S D r p ch t0 (cov.map Prod.fst) = fieldsR S (.node r p ch) ++ tailFields D r p ch t0 E := by
      rw [h3, tailFields, List.append_assoc]
    rw [h3'] at h2 ⊢
    rw [pr_tok S _ h4, pr_wF S _ (fun f hf => h2 f (List.mem_append_left _ hf)), pr_wF S _ (fun f hf => h2 f (List.mem_append_right _ hf)), pr_wE, bits_append,
      two_neg_add, two_neg_add, two_neg_add]
    ring
  rw [Finset.sum_congr rfl key]
  refine kraft (weight S) (weight_nonneg S) (weight_sum S) (Z.sup (fun z => (enc z).length)) Z enc (fun z hz => Finset.le_sup (f := fun z => (enc z).length) hz) ?_
  intro z hz z' hz' hne
  have hz := hZ z hz
  have hz' := hZ z' hz'
  obtain ⟨T, t0, E⟩ := z
  obtain ⟨T', t0', E'⟩ := z'
  obtain ⟨⟨r, p, ch, rfl⟩, hT, -, hl, -⟩ := hz
  obtain ⟨⟨r', p', ch', rfl⟩, hT', -, hl', -⟩ := hz'
  rw [henc, henc]
  exact word_sep S D r p ch t0 E r' p' ch' t0' E' hT hT' hl hl' hne

/-- C74. At most `2 ^ b` patterns cost at most `b` bits. -/
theorem cost_count (S : List (ℤ × α)) (D : Details α) (hD : IsDetails S D) (b : ℕ) (Z : Finset (PTree.Tree α × ℤ × List ℤ)) (hZ : ∀ z ∈ Z, Fitted S z)
    (hb : ∀ z ∈ Z, ∃ c : ℝ, codeLength z.1 z.2.1 (some z.2.2) D = some c ∧ c ≤ b) : Z.card ≤ 2 ^ b := by
  classical
  choose! c hc using hb
  have h := cost_kraft S D hD Z hZ c (fun z hz => (hc z hz).1)
  have h2 : ∑ z ∈ Z, ((2 : ℝ) ^ b)⁻¹ ≤ ∑ z ∈ Z, (2 : ℝ) ^ (-c z) := by
    apply Finset.sum_le_sum
    intro z hz
    rw [← Real.rpow_natCast, ← Real.rpow_neg (by norm_num)]
    exact Real.rpow_le_rpow_of_exponent_le (by norm_num) (neg_le_neg (hc z hz).2)
  rw [Finset.sum_const, nsmul_eq_mul] at h2
  have h3 : (Z.card : ℝ) * ((2 : ℝ) ^ b)⁻¹ ≤ 1 := h2.trans h
  have hp : (0 : ℝ) < (2 : ℝ) ^ b := by positivity
  rw [← div_eq_mul_inv, div_le_one hp] at h3
  exact_mod_cast h3

/-- C74. The same for an occurrence left to itself: the costs of the pairs of a time in the window and an event of the data are those of a code. -/
theorem residual_kraft (S : List (ℤ × α)) (D : Details α) (hD : IsDetails S D) (hS : S ≠ []) (Z : Finset (ℤ × α)) (hZ : ∀ z ∈ Z, D.tStart ≤ z.1 ∧ z.1 ≤ D.tEnd ∧ 0 < countEv S z.2)
    (c : α → ℝ) (hc : ∀ z ∈ Z, costOne D z.2 = some (c z.2)) : ∑ z ∈ Z, (2 : ℝ) ^ (-c z.2) ≤ 1 := by
  have hlen : (0 : ℝ) < (S.length : ℝ) := by exact_mod_cast List.length_pos_iff.2 hS
  have hw : 0 ≤ D.deltaT := by
    obtain ⟨x, l, rfl⟩ := List.exists_cons_of_ne_nil hS
    have := hD.window x (by simp)
    unfold Details.deltaT
    omega
  have hdt : (0 : ℝ) < ((D.deltaT + 1 : ℤ) : ℝ) := by exact_mod_cast (by omega : 0 < D.deltaT + 1)
  have key : ∀ z ∈ Z, (2 : ℝ) ^ (-c z.2) = ((countEv S z.2 : ℝ) / (S.length : ℝ)) * ((D.deltaT + 1 : ℤ) : ℝ)⁻¹ := by
    intro z hz
    have hp := (hZ z hz).2.2
    have hpos : (0 : ℝ) < (countEv S z.2 : ℝ) := by exact_mod_cast hp
    have h := hc z hz
    rw [costOne, log2_some (by omega : 0 < D.deltaT + 1)] at h
    have ho : orgFreq D z.2 = some ((countEv S z.2 : ℝ) / (S.length : ℝ)) := by
      rw [orgFreq, hD.lookup hp, hD.total]; rfl
    simp only [ho, Option.bind_eq_bind, Option.bind_some] at h
    rw [log2, if_pos (by positivity)] at h
    simp only [Option.bind_some, Option.pure_def, Option.some.injEq] at h
    rw [← h, two_neg_add, neg_neg, Real.rpow_logb (by norm_num) (by norm_num) (by positivity), two_neg_logb hdt]
  rw [Finset.sum_congr rfl key]
  have hsub : Z ⊆ (Finset.Icc D.tStart D.tEnd) ×ˢ (S.map Prod.snd).toFinset := by
    intro z hz
    have := hZ z hz
    rw [Finset.mem_product, Finset.mem_Icc, List.mem_toFinset]
    exact ⟨⟨this.1, this.2.1⟩, List.count_pos_iff.1 this.2.2⟩
  refine le_trans (Finset.sum_le_sum_of_subset_of_nonneg hsub (fun z _ _ => by positivity)) ?_
  rw [← Finset.sum_mul, Finset.sum_product]
  simp only []
  rw [Finset.sum_const, ← Finset.sum_div]
  have e1 : ∑ a ∈ (S.map Prod.snd).toFinset, (countEv S a : ℝ) = (S.length : ℝ) := by
    rw [← Nat.cast_sum]
    congr 1
    simp only [countEv]
    rw [List.sum_toFinset_count_eq_length, List.length_map]
  rw [e1, div_self hlen.ne', Int.card_Icc, nsmul_eq_mul, mul_one]
  have e2 : (((D.tEnd + 1 - D.tStart).toNat : ℕ) : ℝ) = ((D.deltaT + 1 : ℤ) : ℝ) := by
    have : ((D.tEnd + 1 - D.tStart).toNat : ℤ) = D.deltaT + 1 := by unfold Details.deltaT at *; omega
    exact_mod_cast this
  rw [e2, mul_inv_cancel₀ hdt.ne']

/-! ### Cases -/

/-- Two events, six occurrences. -/
def exS : List (ℤ × ℕ) := [(2, 0), (3, 1), (6, 0), (8, 1), (10, 0), (11, 1)]

/-- Event 0 then event 1 after one time unit, three times every four time units. -/
def exT : PTree.Tree ℕ := .node 3 4 (.cons 0 (.leaf 0) (.cons 1 (.leaf 1) .nil))

theorem exS_details : IsDetails exS ⟨[(0, 3), (1, 3)], 2, 11⟩ where
  keys := by decide
  counts := by
    intro a n
    simp only [List.mem_cons, List.not_mem_nil, or_false, Prod.mk.injEq]
    constructor
    · rintro (⟨rfl, rfl⟩ | ⟨rfl, rfl⟩) <;> decide
    · rintro ⟨rfl, h⟩
      have : a ∈ exS.map Prod.snd := List.count_pos_iff.1 h
      simp only [exS, List.map_cons, List.map_nil, List.mem_cons, List.not_mem_nil, or_false] at this
      rcases (by omega : a = 0 ∨ a = 1) with rfl | rfl <;> decide
  window := by decide

theorem exT_fitted : Fitted exS (exT, 2, [0, 0, 1, 0, 0]) where
  block := ⟨_, _, _, rfl⟩
  regular := by simp [exT, Tree.Regular, Forest.Regular, Forest.NonEmpty, Forest.firstDist]
  proper := by simp [exT, Proper, ProperF]
  corrs := by decide
  occs := ⟨exS, by decide, by decide, by decide⟩

/-- The numbers sent: 3 repetitions among 3, the period 4 among 4, the start 2 among the 2 possible, the duration 1 of a repetition among 2, the distance 1 among 2. -/
example : message exS ⟨[(0, 3), (1, 3)], 2, 11⟩ 3 4 (.cons 0 (.leaf 0) (.cons 1 (.leaf 1) .nil)) 2 [2, 3, 6, 8, 10, 11] = [(2, 3), (3, 4), (0, 2), (1, 2), (1, 2)] := by decide
example : corrBits [0, 0, 1, 0, 0] = 11 ∧ leafEvents exT = [0, 1] ∧ nbBlocks exT = 1 := by decide
example : ∃ c : ℝ, codeLength exT 2 (some [0, 0, 1, 0, 0]) ⟨[(0, 3), (1, 3)], 2, 11⟩ = some c ∧ 0 ≤ c := cost_nonneg exS _ exS_details (exT, 2, [0, 0, 1, 0, 0]) exT_fitted

/-- A second pattern of the same data. -/
theorem exC_fitted : Fitted exS (cycle 3 4 1, 3, [1, -1]) where
  block := ⟨_, _, _, rfl⟩
  regular := by simp [Tree.Regular, Forest.Regular, Forest.NonEmpty, Forest.firstDist]
  proper := by simp [Proper, ProperF]
  corrs := by decide
  occs := ⟨[(3, 1), (8, 1), (11, 1)], by decide, by decide, by decide⟩
/-- The two have costs summing as stated. -/
example : ∃ c c' : ℝ, codeLength exT 2 (some [0, 0, 1, 0, 0]) ⟨[(0, 3), (1, 3)], 2, 11⟩ = some c ∧ codeLength (cycle 3 4 1) 3 (some [1, -1]) ⟨[(0, 3), (1, 3)], 2, 11⟩ = some c' ∧
    (2 : ℝ) ^ (-c) + (2 : ℝ) ^ (-c') ≤ 1 := by
  classical
  obtain ⟨c, h, -⟩ := cost_nonneg exS _ exS_details (exT, 2, [0, 0, 1, 0, 0]) exT_fitted
  obtain ⟨c', h', -⟩ := cost_nonneg exS _ exS_details (cycle 3 4 1, 3, [1, -1]) exC_fitted
  refine ⟨c, c', h, h', ?_⟩
  have hne : ((exT, 2, [0, 0, 1, 0, 0]) : PTree.Tree ℕ × ℤ × List ℤ) ≠ (cycle 3 4 1, 3, [1, -1]) := by simp
  have := cost_kraft exS _ exS_details {(exT, 2, [0, 0, 1, 0, 0]), (cycle 3 4 1, 3, [1, -1])} (by
    intro z hz
    rcases Finset.mem_insert.1 hz with rfl | hz
    · exact exT_fitted
    · rw [Finset.mem_singleton.1 hz]; exact exC_fitted) (fun z => if z = (exT, 2, [0, 0, 1, 0, 0]) then c else c') (by
    intro z hz
    rcases Finset.mem_insert.1 hz with rfl | hz
    · rw [if_pos rfl]; exact h
    · rw [Finset.mem_singleton.1 hz, if_neg hne.symm]; exact h')
  rw [Finset.sum_insert (by rw [Finset.mem_singleton]; exact hne), Finset.sum_singleton, if_pos rfl, if_neg hne.symm] at this
  exact this

end Verif.Cost
