import Verif.Graph.EncodeLemmas

/-!
# Description of patterns: weights of descriptions
-/

set_option autoImplicit false
set_option linter.unusedSectionVars false

namespace Verif.Graph

variable {σ : Type} [DecidableEq σ]

theorem half_sum (u : ℕ → ℕ) (hu : ∀ x : ℕ, universalInt0 x = .ok (u x)) (N : ℕ) : ∑ k ∈ Finset.Icc 1 N, (1 / 2 : ℝ) ^ u k ≤ 1 / 2 := by
  have h := universalInt0_kraft u hu (N + 1)
  have h0 : u 0 = 1 := by
    have h1 := hu 0
    have h2 : universalInt0 0 = .ok 1 := by decide
    exact (Except.ok.inj (h2.symm.trans h1)).symm
  rw [Finset.sum_range_succ', h0] at h
  have e : ∑ k ∈ Finset.Icc 1 N, (1 / 2 : ℝ) ^ u k = ((∑ k ∈ Finset.range N, (1 / 2 : ℚ) ^ u (k + 1) : ℚ) : ℝ) := by
    push_cast
    rw [Finset.range_eq_Ico, Finset.sum_Ico_add' (fun k => (1 / 2 : ℝ) ^ u k) 0 N 1, zero_add]
    refine Finset.sum_congr ?_ (fun _ _ => rfl)
    ext; simp only [Finset.mem_Ico, Finset.mem_Icc]; omega
  rw [e]
  have h3 : ∑ k ∈ Finset.range N, (1 / 2 : ℚ) ^ u (k + 1) ≤ 1 / 2 := by linarith
  refine le_trans (Rat.cast_le.mpr h3) (by norm_num)

theorem weight_label (M c k N uk : ℕ) (hc : 0 < c) (hM : 0 < M) (hk : k ≤ N) : (2 : ℝ) ^ (-(labelLen M c + uk + Real.logb 2 (N.choose k))) = (c : ℝ) / M * (1 / 2 : ℝ) ^ uk / N.choose k := by
  have h1 : (0 : ℝ) < N.choose k := by exact_mod_cast Nat.choose_pos hk
  have h2 : (0 : ℝ) < c := by exact_mod_cast hc
  have h3 : (0 : ℝ) < M := by exact_mod_cast hM
  have e : -(labelLen M c + uk + Real.logb 2 (N.choose k)) = Real.logb 2 c - Real.logb 2 M - uk - Real.logb 2 (N.choose k) := by unfold labelLen; ring
  rw [e, Real.rpow_sub (by norm_num), Real.rpow_sub (by norm_num), Real.rpow_sub (by norm_num), Real.rpow_logb (by norm_num) (by norm_num) h1, Real.rpow_logb (by norm_num) (by norm_num) h2,
    Real.rpow_logb (by norm_num) (by norm_num) h3, Real.rpow_natCast]
  congr 1
  rw [one_div, inv_pow, div_eq_mul_inv]

theorem weight_labels (u : ℕ → ℕ) (M N : ℕ) (data names : List σ) (hsub : ∀ l ∈ names, l ∈ data) (hM : ∀ l ∈ data, 0 < M) (hN : ∀ l, names.count l ≤ N) :
    (2 : ℝ) ^ (-(∑ l ∈ names.toFinset, (labelLen M (data.count l) + u (names.count l) + Real.logb 2 (N.choose (names.count l))))) =
      ∏ l ∈ data.toFinset, placeWeight (fun k => (1 / 2 : ℝ) ^ u k) ((data.count l : ℝ) / M) N (names.count l) := by
  rw [← Finset.sum_neg_distrib, Real.rpow_sum_of_pos (by norm_num)]
  have hs : names.toFinset ⊆ data.toFinset := fun l hl => List.mem_toFinset.mpr (hsub l (List.mem_toFinset.mp hl))
  rw [← Finset.prod_subset hs]
  · refine Finset.prod_congr rfl (fun l hl => ?_)
    rw [List.mem_toFinset] at hl
    have h1 : names.count l ≠ 0 := (List.count_pos_iff.mpr hl).ne'
    rw [weight_label _ _ _ _ _ (List.count_pos_iff.mpr (hsub l hl)) (hM l (hsub l hl)) (hN l), placeWeight, if_neg h1]
  · intro l _ hl
    rw [List.mem_toFinset] at hl
    rw [placeWeight, if_pos (List.count_eq_zero_of_not_mem hl)]

/-- What is written for a pattern. -/
def written (g : LGraph σ) (x : LGraph σ × Finset ℕ) : Written g.vertexNames.toFinset g.edgeNames.toFinset := ⟨x.1.nodes.length, x.2, fun l _ => vset x.1 l, fun l _ => eset x.1 l⟩

theorem written_inj (g : LGraph σ) (x y : LGraph σ × Finset ℕ) (hx : FromData g x.1) (hy : FromData g y.1) (h : written g x = written g y) : x.1.Same y.1 ∧ x.2 = y.2 := by
  unfold written at h
  obtain ⟨h1, h2⟩ := Sigma.mk.inj h
  have h2 := eq_of_heq h2
  obtain ⟨h3, h4⟩ := Prod.mk.inj h2
  obtain ⟨h4, h5⟩ := Prod.mk.inj h4
  have hv : ∀ p : LGraph σ, FromData g p → ∀ v l, p.HasV v l → l ∈ g.vertexNames.toFinset := by
    rintro p hp v l ⟨n, hn, -, hl⟩
    exact List.mem_toFinset.mpr (hp.1 l (List.mem_flatMap.mpr ⟨n, hn, hl⟩))
  have he : ∀ p : LGraph σ, FromData g p → ∀ u v l, p.HasE u v l → l ∈ g.edgeNames.toFinset := by
    rintro p hp u v l ⟨n, hn, -, -, hl⟩
    exact List.mem_toFinset.mpr (hp.2 l (List.mem_flatMap.mpr ⟨n, hn, hl⟩))
  refine ⟨⟨h1, fun v l => ?_, fun u v l => ?_⟩, h3⟩
  · by_cases hl : l ∈ g.vertexNames.toFinset
    · have := congrFun (congrFun h4 l) hl
      rw [← mem_vset, ← mem_vset, this]
    · exact ⟨fun h => absurd (hv _ hx v l h) hl, fun h => absurd (hv _ hy v l h) hl⟩
  · by_cases hl : l ∈ g.edgeNames.toFinset
    · have := congrFun (congrFun h5 l) hl
      have e1 := mem_eset x.1 l (u, v)
      have e2 := mem_eset y.1 l (u, v)
      rw [this] at e1
      exact e1.symm.trans e2
    · exact ⟨fun h => absurd (he _ hx u v l h) hl, fun h => absurd (he _ hy u v l h) hl⟩

theorem freq_sum (L : List σ) (M : ℕ) : ∑ l ∈ L.toFinset, (L.count l : ℝ) / M = (L.length : ℝ) / M := by
  rw [← Finset.sum_div]
  congr 1
  exact_mod_cast List.sum_toFinset_count_eq_length L

/-- The sum of the weights of descriptions, with weights `h` for the sets of ports. -/
theorem kraft_sum (g : LGraph σ) (hg : g.Hashable) (hdis : ∀ s ∈ g.edgeNames, s ∉ g.vertexNames) (t : LabelTable σ) (ht : labelCodes g = .ok t) (h : ℕ → ℕ → ℝ) (hh0 : ∀ n k, 0 ≤ h n k)
    (hh : ∀ n, ∑ P ∈ (Finset.Icc 1 n).powerset, h n P.card ≤ 1) (L : List (LGraph σ × Finset ℕ)) (hL : ∀ x ∈ L, Tidy x.1 ∧ x.1.nodes ≠ [] ∧ FromData g x.1 ∧ ∀ v ∈ x.2, v ∈ x.1.verts)
    (hdiff : L.Pairwise (fun x y => ¬ (x.1.Same y.1 ∧ x.2 = y.2))) (len : LGraph σ × Finset ℕ → ℝ) (hlen : ∀ x ∈ L, encode t x.1 = .ok (len x)) :
    (L.map (fun x => (2 : ℝ) ^ (-len x) * h x.1.nodes.length x.2.card)).sum ≤ 1 := by
  classical
  obtain ⟨u, hu⟩ : ∃ u : ℕ → ℕ, ∀ x : ℕ, universalInt0 x = .ok (u x) := ⟨fun x => (universalInt0_ok x).choose, fun x => (universalInt0_ok x).choose_spec⟩
  obtain ⟨q, hq⟩ : ∃ q : ℕ → ℝ, q = fun k => (1 / 2 : ℝ) ^ u k := ⟨_, rfl⟩
  have hq0 : ∀ k, 0 ≤ q k := fun k => by rw [hq]; positivity
  have hq1 : ∀ N, ∑ k ∈ Finset.Icc 1 N, q k ≤ 1 / 2 := fun N => by rw [hq]; exact half_sum u hu N
  obtain ⟨a, ha⟩ : ∃ a : σ → ℝ, a = fun l => (g.vertexNames.count l : ℝ) / g.total := ⟨_, rfl⟩
  obtain ⟨b, hb⟩ : ∃ b : σ → ℝ, b = fun l => (g.edgeNames.count l : ℝ) / g.total := ⟨_, rfl⟩
  have ha0 : ∀ l ∈ g.vertexNames.toFinset, 0 ≤ a l := fun l _ => by rw [ha]; positivity
  have hb0 : ∀ l ∈ g.edgeNames.toFinset, 0 ≤ b l := fun l _ => by rw [hb]; positivity
  have hab : ∑ l ∈ g.vertexNames.toFinset, a l + ∑ l ∈ g.edgeNames.toFinset, b l ≤ 1 := by
    rw [ha, hb, freq_sum, freq_sum, ← add_div]
    refine div_le_one_of_le₀ ?_ (by positivity)
    have : g.total = g.vertexNames.length + g.edgeNames.length := by
      unfold LGraph.total
      rw [List.filter_eq_self.mpr (fun s hs => decide_eq_true (hdis s hs))]
    rw [this]; push_cast; rfl
  have hW := fun w => writtenWeight_nonneg q hq0 h hh0 g.vertexNames.toFinset g.edgeNames.toFinset a b ha0 hb0 w
  have hone : ∀ x ∈ L, (2 : ℝ) ^ (-len x) * h x.1.nodes.length x.2.card ≤ writtenWeight q h _ _ a b (written g x) := by
    intro x hx
    obtain ⟨h1, h2, h3, h4⟩ := hL x hx
    have hT : t.vertex.length + t.edge.length ≠ 0 := by
      intro e
      have := hlen x hx
      obtain ⟨pv, -, -, pv3⟩ := countVertex_eq x.1 h1.hash
      obtain ⟨pe, -, -, pe3⟩ := countEdge_eq x.1 h1.hash
      rw [encode, pv3, pe3] at this
      simp only [Except.bind] at this
      rw [if_pos e] at this
      cases this
    have he := encode_ok u hu g hg t ht hT x.1 h1.hash h3 (count_vertex_le h1) (count_edge_le h1)
    rw [hlen x hx] at he
    rw [Except.ok.inj he]
    have hT1 : (1 : ℝ) ≤ t.vertex.length + t.edge.length := by exact_mod_cast Nat.one_le_iff_ne_zero.mpr hT
    have hT2 : 0 ≤ Real.logb 2 (t.vertex.length + t.edge.length) := Real.logb_nonneg (by norm_num) hT1
    unfold writtenWeight written
    rw [mul_comm (q _), mul_assoc, mul_comm]
    refine mul_le_mul_of_nonneg_left ?_ (hh0 _ _)
    have w1 := weight_labels u g.total x.1.nodes.length g.vertexNames x.1.vertexNames h3.1 (fun l hl => total_pos (.inl hl)) (count_vertex_le h1)
    have w2 := weight_labels u g.total (x.1.nodes.length ^ 2) g.edgeNames x.1.edgeNames h3.2 (fun l hl => total_pos (.inr hl)) (count_edge_le h1)
    have r1 : ∏ l ∈ g.vertexNames.toFinset.attach, placeWeight q (a l.1) x.1.nodes.length (vset x.1 l.1).card = ∏ l ∈ g.vertexNames.toFinset, placeWeight q (a l) x.1.nodes.length (x.1.vertexNames.count l) := by
      rw [← Finset.prod_attach g.vertexNames.toFinset]
      exact Finset.prod_congr rfl (fun l _ => by rw [card_vset h1])
    have r2 : ∏ l ∈ g.edgeNames.toFinset.attach, placeWeight q (b l.1) (x.1.nodes.length ^ 2) (eset x.1 l.1).card = ∏ l ∈ g.edgeNames.toFinset, placeWeight q (b l) (x.1.nodes.length ^ 2) (x.1.edgeNames.count l) := by
      rw [← Finset.prod_attach g.edgeNames.toFinset]
      exact Finset.prod_congr rfl (fun l _ => by rw [card_eset h1])
    simp only
    rw [r1, r2, hq, ha, hb, ← w1, ← w2]
    simp only
    have e3 : (1 / 2 : ℝ) ^ u x.1.nodes.length = (2 : ℝ) ^ (-(u x.1.nodes.length : ℝ)) := by
      rw [Real.rpow_neg (by norm_num), Real.rpow_natCast, one_div, inv_pow]
    rw [e3, ← Real.rpow_add (by norm_num), ← Real.rpow_add (by norm_num)]
    exact Real.rpow_le_rpow_of_exponent_le (by norm_num) (by linarith)
  obtain ⟨M, hM⟩ : ∃ M, ∀ x ∈ L, x.1.nodes.length ≤ M := by
    refine ⟨(L.map (fun x => x.1.nodes.length)).sum, fun x hx => List.single_le_sum (by simp) _ (List.mem_map.mpr ⟨x, hx, rfl⟩)⟩
  have hnd : (L.map (written g)).Nodup := by
    rw [List.Nodup, List.pairwise_map]
    exact hdiff.imp_of_mem (fun {x y} hx hy hn e => hn (written_inj g x y (hL x hx).2.2.1 (hL y hy).2.2.1 e))
  calc (L.map (fun x => (2 : ℝ) ^ (-len x) * h x.1.nodes.length x.2.card)).sum
      ≤ (L.map (fun x => writtenWeight q h _ _ a b (written g x))).sum := List.sum_le_sum hone
    _ = ((L.map (written g)).map (writtenWeight q h _ _ a b)).sum := by rw [List.map_map]; rfl
    _ = ∑ w ∈ (L.map (written g)).toFinset, writtenWeight q h _ _ a b w := (List.sum_toFinset _ hnd).symm
    _ ≤ ∑ w ∈ allWritten g.vertexNames.toFinset g.edgeNames.toFinset M, writtenWeight q h _ _ a b w := by
        refine Finset.sum_le_sum_of_subset_of_nonneg (fun w hw => ?_) (fun w _ _ => hW w)
        rw [List.mem_toFinset] at hw
        obtain ⟨x, hx, rfl⟩ := List.mem_map.mp hw
        obtain ⟨h1, h2, h3, h4⟩ := hL x hx
        unfold allWritten written
        rw [Finset.mem_sigma, Finset.mem_product, Finset.mem_product, Finset.mem_Icc]
        refine ⟨⟨List.length_pos_of_ne_nil h2, hM x hx⟩, ?_, ?_, ?_⟩
        · exact Finset.mem_powerset.mpr (fun v hv => (tidy_mem h1 v).mp (h4 v hv))
        · exact Finset.mem_pi.mpr (fun l _ => Finset.mem_powerset.mpr (vset_sub h1 l))
        · exact Finset.mem_pi.mpr (fun l _ => Finset.mem_powerset.mpr (eset_sub h1 l))
    _ ≤ 1 := sum_written q hq0 hq1 h hh0 hh _ _ a b ha0 hb0 hab M

theorem port_weights (n : ℕ) : ∑ P ∈ (Finset.Icc 1 n).powerset, (1 : ℝ) / (n + 1) / n.choose P.card ≤ 1 := by
  have := Finset.sum_powerset_apply_card (fun k => (1 : ℝ) / (n + 1) / n.choose k) (x := Finset.Icc 1 n)
  rw [this]
  have hc : (Finset.Icc 1 n).card = n := by simp
  rw [hc]
  have : ∀ k ∈ Finset.range (n + 1), n.choose k • ((1 : ℝ) / (n + 1) / n.choose k) = 1 / (n + 1) := by
    intro k hk
    have h0 : (n.choose k : ℝ) ≠ 0 := by exact_mod_cast (Nat.choose_pos (by rw [Finset.mem_range] at hk; omega)).ne'
    rw [nsmul_eq_mul]
    field_simp
  rw [Finset.sum_congr rfl this, Finset.sum_const, Finset.card_range, nsmul_eq_mul]
  push_cast
  rw [mul_one_div_cancel (by positivity)]

end Verif.Graph
