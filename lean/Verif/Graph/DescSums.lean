import Verif.Graph.DescLemmas

/-!
# The description of the rewritten graph: sums over the kinds of nodes
-/

set_option autoImplicit false
set_option linter.unusedSectionVars false

namespace Verif.Graph

variable {σ : Type} [DecidableEq σ] {nm : Names σ}

/-- The value of the prequential code. -/
noncomputable def pv (l : List ℕ) : ℝ := rise (l.length * (1 / 2)) l.sum - (l.map (rise (1 / 2))).sum

theorem prequential_pv (l : List ℕ) : prequential l (1 / 2) = .ok (pv l) := prequential_ok l (1 / 2) (by norm_num)

theorem pv_perm {l l' : List ℕ} (h : l.Perm l') : pv l = pv l' := by
  unfold pv
  rw [h.length_eq, h.sum_eq, (h.map _).sum_eq]

theorem plugIn_pv {α : Type} [DecidableEq α] (A : List α) (hA : A.Nodup) (w : List α) (hw : ∀ a ∈ w, a ∈ A) : plugIn A (1 / 2) [] w = pv (A.map (fun a => w.count a)) := by
  have h := prequential_is_adaptive A hA (1 / 2) (by norm_num) w hw
  rw [prequential_pv] at h
  exact (Except.ok.inj h).symm

theorem pv_short (l : List ℕ) (h : l.length ≤ 1) : pv l = 0 := by
  obtain ⟨x, h1, -, h2⟩ := prequential_nonneg l (1 / 2) (by norm_num)
  rw [prequential_pv] at h1
  rw [Except.ok.inj h1]
  exact h2 h

theorem mapM_pv (L : List (List ℕ)) : L.mapM (fun l => prequential l (1 / 2)) = .ok (L.map pv) := by
  induction L with
  | nil => rfl
  | cons l t ih => rw [List.mapM_cons, prequential_pv, ih]; rfl

theorem sum_map_sub' {α : Type} (l : List α) (f g : α → ℝ) : (l.map (fun a => f a - g a)).sum = (l.map f).sum - (l.map g).sum := by
  induction l with
  | nil => simp
  | cons a t ih => simp only [List.map_cons, List.sum_cons, ih]; ring

theorem dict_eq (d : List (σ × ℕ)) (h : (d.map Prod.fst).Nodup) : d = (d.map Prod.fst).map (fun k => (k, countOf d k)) := by
  induction d with
  | nil => rfl
  | cons x t ih =>
    obtain ⟨a, n⟩ := x
    rw [List.map_cons, List.nodup_cons] at h
    rw [List.map_cons, List.map_cons]
    congr 1
    · simp [countOf]
    · conv_lhs => rw [ih h.2]
      refine List.map_congr_left (fun k hk => ?_)
      have : k ≠ a := fun e => h.1 (e ▸ hk)
      have e : (k == a) = false := by simpa using this
      simp [countOf, List.lookup_cons, e]

theorem foldl_bump_eq (l : List σ) : ∃ ks : List σ, ks.Nodup ∧ (∀ s, s ∈ ks ↔ s ∈ l) ∧ l.foldl (fun acc a => bump a acc) [] = ks.map (fun k => (k, l.count k)) := by
  obtain ⟨h1, -, h3, h4⟩ := foldl_bump l [] (by simp) (by simp)
  refine ⟨(l.foldl (fun acc a => bump a acc) []).map Prod.fst, h3, fun s => by rw [h4]; simp, ?_⟩
  conv_lhs => rw [dict_eq _ h3]
  refine List.map_congr_left (fun k _ => ?_)
  rw [h1]; simp [countOf]

theorem count_row (ps : List (Piece σ)) (i : ℕ) : (ps.map Piece.kind).count (.row i) = rowUsage ps i := by
  unfold rowUsage
  rw [List.count_eq_countP, List.countP_map, ← List.countP_eq_length_filter]
  exact List.countP_congr (fun pc _ => by simp)

theorem count_vertex (ps : List (Piece σ)) (l : σ) : (ps.map Piece.kind).count (.vertex l) = (ps.filterMap Piece.vertexLabel?).count l := by
  induction ps with
  | nil => rfl
  | cons pc t ih =>
    rw [List.map_cons, List.count_cons, ih, List.filterMap_cons]
    cases pc <;> simp [Piece.kind, Piece.vertexLabel?, List.count_cons]

theorem count_edge (ps : List (Piece σ)) (l : σ) : (ps.map Piece.kind).count (.edge l) = (ps.filterMap Piece.edgeLabel?).count l := by
  induction ps with
  | nil => rfl
  | cons pc t ih =>
    rw [List.map_cons, List.count_cons, ih, List.filterMap_cons]
    cases pc <;> simp [Piece.kind, Piece.edgeLabel?, List.count_cons]

theorem mem_vertex (ps : List (Piece σ)) (l : σ) : l ∈ ps.filterMap Piece.vertexLabel? ↔ ∃ pc ∈ ps, pc.kind = .vertex l := by
  rw [List.mem_filterMap]
  constructor <;> rintro ⟨pc, h, e⟩ <;> refine ⟨pc, h, ?_⟩ <;> cases pc <;> simp_all [Piece.kind, Piece.vertexLabel?]

theorem mem_edge (ps : List (Piece σ)) (l : σ) : l ∈ ps.filterMap Piece.edgeLabel? ↔ ∃ pc ∈ ps, pc.kind = .edge l := by
  rw [List.mem_filterMap]
  constructor <;> rintro ⟨pc, h, e⟩ <;> refine ⟨pc, h, ?_⟩ <;> cases pc <;> simp_all [Piece.kind, Piece.edgeLabel?]

theorem mem_usedRows (n : ℕ) (ps : List (Piece σ)) (i : ℕ) : i ∈ usedRows n ps ↔ i < n ∧ ∃ pc ∈ ps, pc.kind = .row i := by
  unfold usedRows rowUsage
  rw [List.mem_filter, List.mem_range, decide_eq_true_eq, Ne, List.length_eq_zero_iff, List.filter_eq_nil_iff]
  simp

theorem sum_group {α : Type} [DecidableEq α] (K : List α) (hK : K.Nodup) (f : α → ℝ) (w : List α) (hw : ∀ a ∈ w, a ∈ K) : (w.map f).sum = (K.map (fun k => (w.count k : ℝ) * f k)).sum := by
  induction w with
  | nil => simp
  | cons b t ih =>
    rw [List.map_cons, List.sum_cons, ih (fun a ha => hw a (List.mem_cons_of_mem _ ha))]
    have h1 : (K.map (fun a => ((b :: t).count a : ℝ) * f a)) = K.map (fun a => (if a = b then f b else 0) + (t.count a : ℝ) * f a) := by
      refine List.map_congr_left (fun a _ => ?_)
      rw [List.count_cons]
      by_cases h : a = b
      · subst h; simp; ring
      · simp [h, Ne.symm h]
    rw [h1, List.sum_map_add]
    congr 1
    have hb : b ∈ K := hw b (List.mem_cons_self ..)
    clear h1 ih hw
    induction K with
    | nil => simp at hb
    | cons c K ih =>
      rw [List.nodup_cons] at hK
      rw [List.map_cons, List.sum_cons]
      by_cases h : c = b
      · subst h
        have : (K.map (fun a => if a = c then f c else 0)) = K.map (fun _ => (0 : ℝ)) := List.map_congr_left (fun a ha => by rw [if_neg]; rintro rfl; exact hK.1 ha)
        rw [this]; simp
      · rw [if_neg h, zero_add]
        exact ih hK.2 ((List.mem_cons.mp hb).resolve_left (Ne.symm h))

/-- The kinds in use, in the order of the code. -/
def kindList (n : ℕ) (ps : List (Piece σ)) (vs es : List σ) : List (PKind σ) := (usedRows n ps).map .row ++ vs.map .vertex ++ es.map .edge

theorem kindList_perm {n : ℕ} {ps : List (Piece σ)} {vs es : List σ} {A : Alphabet σ} (hA : A.Of ps) (hn : ∀ pc ∈ ps, ∀ i, pc.kind = .row i → i < n) (hv : vs.Nodup)
    (hvm : ∀ s, s ∈ vs ↔ s ∈ ps.filterMap Piece.vertexLabel?) (he : es.Nodup) (hem : ∀ s, s ∈ es ↔ s ∈ ps.filterMap Piece.edgeLabel?) : A.kinds.Perm (kindList n ps vs es) := by
  refine (List.perm_ext_iff_of_nodup hA.kinds.1 ?_).mpr ?_
  · unfold kindList
    rw [List.nodup_append, List.nodup_append]
    refine ⟨⟨?_, hv.map (fun x y h => by injection h), ?_⟩, he.map (fun x y h => by injection h), ?_⟩
    · exact (List.nodup_range.filter _).map (fun x y h => by injection h)
    · intro a ha b hb hab
      obtain ⟨x, -, rfl⟩ := List.mem_map.mp ha
      obtain ⟨y, -, rfl⟩ := List.mem_map.mp hb
      cases hab
    · intro a ha b hb hab
      obtain ⟨y, -, rfl⟩ := List.mem_map.mp hb
      rcases List.mem_append.mp ha with ha | ha <;> obtain ⟨x, -, rfl⟩ := List.mem_map.mp ha <;> cases hab
  · intro k
    rw [hA.kinds.2]
    unfold kindList
    rw [List.mem_append, List.mem_append, List.mem_map, List.mem_map, List.mem_map]
    constructor
    · rintro ⟨pc, hpc, hk⟩
      cases k with
      | row i => exact .inl (.inl ⟨i, (mem_usedRows n ps i).mpr ⟨hn pc hpc i hk, pc, hpc, hk⟩, rfl⟩)
      | vertex l => exact .inl (.inr ⟨l, (hvm l).mpr ((mem_vertex ps l).mpr ⟨pc, hpc, hk⟩), rfl⟩)
      | edge l => exact .inr ⟨l, (hem l).mpr ((mem_edge ps l).mpr ⟨pc, hpc, hk⟩), rfl⟩
    · rintro ((⟨i, hi, rfl⟩ | ⟨l, hl, rfl⟩) | ⟨l, hl, rfl⟩)
      · exact ((mem_usedRows n ps i).mp hi).2
      · exact (mem_vertex ps l).mp ((hvm l).mp hl)
      · exact (mem_edge ps l).mp ((hem l).mp hl)

/-- The labels on the edges of vertex singletons. -/
theorem labels_vertex {A : Alphabet σ} {ps : List (Piece σ)} (hA : A.Of ps) (l : σ) (h : ∃ pc ∈ ps, pc.kind = .vertex l) : (A.labels (.vertex l)).Perm [1] := by
  refine (List.perm_ext_iff_of_nodup (hA.labels _).1 (by simp)).mpr (fun a => ?_)
  rw [(hA.labels _).2, List.mem_singleton]
  unfold labelsOf
  rw [List.mem_flatMap]
  constructor
  · rintro ⟨pc, hpc, ha⟩
    have hk := of_decide_eq_true (List.mem_filter.mp hpc).2
    cases pc <;> simp_all [Piece.kind, Piece.ports]
  · rintro rfl
    obtain ⟨pc, hpc, hk⟩ := h
    refine ⟨pc, List.mem_filter.mpr ⟨hpc, by simp [hk]⟩, ?_⟩
    cases pc <;> simp_all [Piece.kind, Piece.ports]

/-- The labels on the edges of edge singletons. -/
theorem labels_edge {A : Alphabet σ} {ps : List (Piece σ)} (hA : A.Of ps) (l : σ) (h : ∃ pc ∈ ps, pc.kind = .edge l) : (A.labels (.edge l)).Perm [1, 2] := by
  refine (List.perm_ext_iff_of_nodup (hA.labels _).1 (by simp)).mpr (fun a => ?_)
  rw [(hA.labels _).2]
  unfold labelsOf
  rw [List.mem_flatMap]
  constructor
  · rintro ⟨pc, hpc, ha⟩
    have hk := of_decide_eq_true (List.mem_filter.mp hpc).2
    cases pc <;> simp_all [Piece.kind, Piece.ports]
  · intro ha
    obtain ⟨pc, hpc, hk⟩ := h
    refine ⟨pc, List.mem_filter.mpr ⟨hpc, by simp [hk]⟩, ?_⟩
    cases pc <;> simp_all [Piece.kind, Piece.ports]

theorem labels_edge_count (ps : List (Piece σ)) (l : σ) : (labelsOf ps (.edge l)).count 1 = (ps.map Piece.kind).count (.edge l) ∧ (labelsOf ps (.edge l)).count 2 = (ps.map Piece.kind).count (.edge l) := by
  unfold labelsOf
  induction ps with
  | nil => exact ⟨rfl, rfl⟩
  | cons pc t ih =>
    rw [List.filter_cons, List.map_cons, List.count_cons]
    by_cases h : pc.kind = .edge l
    · rw [if_pos (by simpa using h), List.flatMap_cons, List.count_append, List.count_append, ih.1, ih.2, h]
      cases pc <;> simp_all [Piece.kind, Piece.ports, Nat.add_comm]
    · rw [if_neg (by simpa using h), ih.1, ih.2]
      simp [h]

theorem labelsOf_mem {A : Alphabet σ} {ps : List (Piece σ)} (hA : A.Of ps) (k : PKind σ) : ∀ a ∈ labelsOf ps k, a ∈ A.labels k := fun a ha => ((hA.labels k).2 a).mpr ha

/-- The row of a kind. -/
def PKind.row? : PKind σ → Option ℕ
  | .row i => some i
  | _ => none

/-- C85, for any pieces: what is reported is the length of the message, except that the numbers of the pattern vertices are coded in place of how often they are ports. -/
theorem rewriteDesc_eq (hnm : nm.Ok) (n : ℕ) (ps : List (Piece σ)) (hne : ps ≠ []) (hn : ∀ pc ∈ ps, ∀ i, pc.kind = .row i → i < n) (hp : ∀ pc ∈ ps, (pc.ports.map Prod.fst).Nodup)
    (hl : ∀ pc ∈ ps, ∀ v, (pc.node nm).label ≠ nm.vertex v) (A : Alphabet σ) (hA : A.Of ps) (a : ℕ) (ha : universalInt0 ps.length = .ok a) :
    rewriteDesc n ps (rewriteGraph nm ps) = .ok (messageBits a A ps +
      ((A.kinds.filterMap PKind.row?).map (fun i => pv (A.labels (.row i)) - plugIn (A.labels (.row i)) (1 / 2) [] (labelsOf ps (.row i)))).sum) := by
  obtain ⟨V, D, hT, hD⟩ := rewrite_tally hnm ps hp hl
  obtain ⟨hdeg, hports⟩ := hT.degrees hnm
  have hpat := rewrite_patterns nm ps
  have hnodes : (rewriteGraph nm ps).nodes ≠ [] := by
    intro e
    rw [e] at hpat
    exact hne (List.length_eq_zero_iff.mp hpat.symm)
  obtain ⟨vs, hv, hvm, hve⟩ := foldl_bump_eq (ps.filterMap Piece.vertexLabel?)
  obtain ⟨es, he, hem, hee⟩ := foldl_bump_eq (ps.filterMap Piece.edgeLabel?)
  have hvu : vertexUsage ps = vs.map (fun k => (k, (ps.filterMap Piece.vertexLabel?).count k)) := hve
  have heu : edgeUsage ps = es.map (fun k => (k, (ps.filterMap Piece.edgeLabel?).count k)) := hee
  have hpu : ∀ i, ∃ ks : List ℕ, ks.Perm (A.labels (.row i)) ∧ (portUsage ps i).map Prod.fst = ks := by
    intro i
    obtain ⟨ks, h1, h2, h3⟩ := foldl_bump_eq (labelsOf ps (.row i))
    refine ⟨ks, (List.perm_ext_iff_of_nodup h1 (hA.labels _).1).mpr (fun x => (h2 x).trans ((hA.labels _).2 x).symm), ?_⟩
    change (List.map Prod.fst (List.foldl _ [] (labelsOf ps (.row i)))) = ks
    rw [h3, List.map_map]
    exact List.map_id'' (fun _ => rfl) ks
  have hK := kindList_perm hA hn hv hvm he hem
  have hin : ∀ k ∈ ps.map Piece.kind, k ∈ kindList n ps vs es := by
    intro k hk
    obtain ⟨pc, hpc, rfl⟩ := List.mem_map.mp hk
    exact hK.subset ((hA.kinds.2 _).mpr ⟨pc, hpc, rfl⟩)
  have hKn : (kindList n ps vs es).Nodup := hK.nodup_iff.mp hA.kinds.1
  -- kinds of the nodes
  have h2 : plugIn A.kinds (1 / 2) [] (ps.map Piece.kind) = pv ((usedRows n ps).map (rowUsage ps) ++ (vertexUsage ps).map Prod.snd ++ (edgeUsage ps).map Prod.snd) := by
    rw [plugIn_pv A.kinds hA.kinds.1 _ (fun k hk => hK.symm.subset (hin k hk)), pv_perm (hK.map _)]
    congr 1
    unfold kindList
    rw [List.map_append, List.map_append, List.map_map, List.map_map, List.map_map, hvu, heu, List.map_map, List.map_map]
    refine congrArg₂ _ (congrArg₂ _ ?_ ?_) ?_
    · exact List.map_congr_left (fun i _ => count_row ps i)
    · exact List.map_congr_left (fun l _ => count_vertex ps l)
    · exact List.map_congr_left (fun l _ => count_edge ps l)
  -- ends of the edges
  have hVA : V.Perm A.ports := (List.perm_ext_iff_of_nodup hT.nodup hA.ports.1).mpr (fun v => by rw [hT.used, hD, hA.ports.2])
  have h3 : plugIn A.ports (1 / 2) [] (destinations ps) = pv (rewriteGraph nm ps).portDegrees := by
    rw [plugIn_pv A.ports hA.ports.1 _ (fun v hv => (hA.ports.2 v).mpr hv), hdeg, hD, pv_perm (hVA.map _)]
  -- numbers of edges
  have h1 : (ps.map (fun pc => Real.logb 2 ((A.labels pc.kind).length + 1))).sum = edgesPerVertex n ps := by
    have : ps.map (fun pc => Real.logb 2 ((A.labels pc.kind).length + 1)) = (ps.map Piece.kind).map (fun k => Real.logb 2 ((A.labels k).length + 1)) := by rw [List.map_map]; rfl
    rw [this, sum_group (kindList n ps vs es) hKn _ _ hin]
    unfold edgesPerVertex kindList
    congr 1
    rw [List.map_append, List.map_append, List.map_map, List.map_map, List.map_map, hvu, heu, List.map_map, List.map_map]
    refine congrArg₂ _ (congrArg₂ _ ?_ ?_) ?_
    · refine List.map_congr_left (fun i _ => ?_)
      obtain ⟨ks, h1, h2⟩ := hpu i
      have h4 : (portUsage ps i).length = (A.labels (.row i)).length := by rw [← h1.length_eq, ← h2, List.length_map]
      simp only [Function.comp]
      rw [count_row, h4]
    · refine List.map_congr_left (fun l hl => ?_)
      simp only [Function.comp]
      rw [count_vertex, (labels_vertex hA l ((mem_vertex ps l).mp ((hvm l).mp hl))).length_eq]
      simp
    · refine List.map_congr_left (fun l hl => ?_)
      simp only [Function.comp]
      rw [count_edge, (labels_edge hA l ((mem_edge ps l).mp ((hem l).mp hl))).length_eq]
      norm_num
  -- labels of the edges
  have h4 : (A.kinds.map (fun k => plugIn (A.labels k) (1 / 2) [] (labelsOf ps k))).sum +
      ((A.kinds.filterMap PKind.row?).map (fun i => pv (A.labels (.row i)) - plugIn (A.labels (.row i)) (1 / 2) [] (labelsOf ps (.row i)))).sum = ((edgesLabel n ps).map pv).sum := by
    rw [(hK.map _).sum_eq, ((hK.filterMap PKind.row?).map _).sum_eq]
    unfold kindList edgesLabel
    have hfm : ((usedRows n ps).map PKind.row ++ vs.map PKind.vertex ++ es.map PKind.edge).filterMap (PKind.row? (σ := σ)) = usedRows n ps := by
      rw [List.filterMap_append, List.filterMap_append, List.filterMap_map, List.filterMap_map, List.filterMap_map]
      simp [Function.comp_def, PKind.row?]
    rw [hfm]
    simp only [List.map_append, List.sum_append, List.map_map]
    have e1 : (vs.map ((fun k => plugIn (A.labels k) (1 / 2) [] (labelsOf ps k)) ∘ PKind.vertex)).sum = 0 := by
      rw [List.sum_eq_zero]
      intro x hx
      obtain ⟨l, hl, rfl⟩ := List.mem_map.mp hx
      simp only [Function.comp]
      rw [plugIn_pv _ (hA.labels _).1 _ (labelsOf_mem hA _)]
      refine pv_short _ ?_
      rw [List.length_map, (labels_vertex hA l ((mem_vertex ps l).mp ((hvm l).mp hl))).length_eq]; simp
    have e2 : es.map ((fun k => plugIn (A.labels k) (1 / 2) [] (labelsOf ps k)) ∘ PKind.edge) = (edgeUsage ps).map (pv ∘ fun x => [x.2, x.2]) := by
      rw [heu, List.map_map]
      refine List.map_congr_left (fun l hl => ?_)
      simp only [Function.comp]
      rw [plugIn_pv _ (hA.labels _).1 _ (labelsOf_mem hA _), pv_perm ((labels_edge hA l ((mem_edge ps l).mp ((hem l).mp hl))).map _)]
      simp only [List.map_cons, List.map_nil]
      rw [(labels_edge_count ps l).1, (labels_edge_count ps l).2, count_edge]
    have e3 : (usedRows n ps).map (pv ∘ fun i => (portUsage ps i).map Prod.fst) = (usedRows n ps).map (fun i => pv (A.labels (.row i))) := by
      refine List.map_congr_left (fun i _ => ?_)
      obtain ⟨ks, h1, h2⟩ := hpu i
      simp only [Function.comp]
      rw [h2, pv_perm h1]
    have e4 : ((usedRows n ps).map (fun i => pv (A.labels (.row i)) - plugIn (A.labels (.row i)) (1 / 2) [] (labelsOf ps (.row i)))).sum =
        ((usedRows n ps).map (fun i => pv (A.labels (.row i)))).sum - ((usedRows n ps).map ((fun k => plugIn (A.labels k) (1 / 2) [] (labelsOf ps k)) ∘ PKind.row)).sum := by
      exact sum_map_sub' _ _ _
    rw [e1, e2, e3, e4]
    ring
  unfold rewriteDesc
  rw [if_neg hnodes, hpat, ha]
  change ((prequential _ _).bind _) = _
  rw [prequential_pv]
  change ((prequential _ _).bind _) = _
  rw [prequential_pv]
  change (Except.bind (List.mapM _ _) _) = _
  rw [mapM_pv]
  change Except.ok _ = _
  congr 1
  unfold messageBits
  rw [h1, h2, h3, hports, hVA.length_eq, ← h4]
  ring

end Verif.Graph
