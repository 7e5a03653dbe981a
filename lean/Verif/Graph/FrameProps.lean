import Verif.Graph.FrameModel
import Verif.Graph.CodeProps

/-!
# The table of patterns shown by GraphMDL (C174): properties
-/

set_option autoImplicit false
set_option linter.unusedSectionVars false

namespace Verif.Graph

variable {σ : Type} [DecidableEq σ]

/-- How many nodes of the rewritten graph stand for a kind. -/
def uses (ps : List (Piece σ)) (k : PKind σ) : ℕ := (ps.map Piece.kind).count k

/-- The line shows the row `i`: how often it is used, the code length of its share of the nodes, and the vertices that are ports with how often they are and with the code lengths of their shares. -/
structure ShowsRow (ps : List (Piece σ)) (i : ℕ) (x : Line σ) : Prop where
  pattern : x.pattern = .inl i
  usage : x.usage = uses ps (.row i)
  code : ∃ c, x.code = some c ∧ (2 : ℝ) ^ (-c) = share ps (.row i)
  ports : ∃ u d, x.portUsage = some u ∧ x.portCode = some d ∧ x.portCount = some (labelsOf ps (.row i)).dedup.length ∧ (u.map Prod.fst).Nodup ∧ (d.map Prod.fst).Nodup ∧
    (∀ a k, (a, k) ∈ u ↔ 0 < k ∧ (labelsOf ps (.row i)).count a = k) ∧ (∀ a, a ∈ d.map Prod.fst ↔ a ∈ labelsOf ps (.row i)) ∧
    ∀ a c, (a, c) ∈ d → (2 : ℝ) ^ (-c) = ((labelsOf ps (.row i)).count a : ℝ) / (labelsOf ps (.row i)).length

theorem displayRow_shows (n : ℕ) (ps : List (Piece σ)) (hn : ∀ pc ∈ ps, ∀ i, pc.kind = .row i → i < n) (i : ℕ) (h : InUse ps (.row i)) : ∃ x, displayRow n ps i = .ok x ∧ ShowsRow ps i x := by
  obtain ⟨d, hd, hd1, hd2, hd3, -⟩ := port_codes ps i
  obtain ⟨ks, h1, h2, h3⟩ := foldl_bump_eq (labelsOf ps (.row i))
  have hpu : portUsage ps i = ks.map (fun k => (k, (labelsOf ps (.row i)).count k)) := h3
  refine ⟨_, by rw [displayRow, rowCode_ok n ps hn i h, hd]; rfl, rfl, ?_, ⟨_, rfl, code_share h⟩, _, _, rfl, rfl, ?_, ?_, hd1, ?_, hd2, hd3⟩
  · simp only [uses, count_row]
  · rw [hpu, List.length_map]
    refine congrArg some ?_
    refine List.Perm.length_eq ((List.perm_ext_iff_of_nodup h1 (List.nodup_dedup _)).mpr (fun a => ?_))
    rw [h2, List.mem_dedup]
  · rw [hpu, List.map_map]
    simpa [Function.comp_def] using h1
  · intro a k
    rw [hpu, List.mem_map]
    constructor
    · rintro ⟨b, hb, e⟩
      obtain ⟨rfl, rfl⟩ := Prod.mk.inj e
      exact ⟨List.count_pos_iff.mpr ((h2 b).mp hb), rfl⟩
    · rintro ⟨hk, rfl⟩
      exact ⟨a, (h2 a).mpr (List.count_pos_iff.mp hk), rfl⟩

theorem mapM_forall₂ {α β : Type} (f : α → Except String β) (R : α → β → Prop) (l : List α) (hf : ∀ x ∈ l, ∃ y, f x = .ok y ∧ R x y) : ∃ r, l.mapM f = .ok r ∧ List.Forall₂ R l r := by
  induction l with
  | nil => exact ⟨[], rfl, .nil⟩
  | cons a t ih =>
    obtain ⟨y, hy, hr⟩ := hf a (List.mem_cons_self ..)
    obtain ⟨r, hr1, hr2⟩ := ih (fun x hx => hf x (List.mem_cons_of_mem _ hx))
    exact ⟨y :: r, by rw [List.mapM_cons, hy, hr1]; rfl, .cons hr hr2⟩

/-- C174, the part that holds. After any cover the table can be shown: one line for every row in use, in the order of the rows, with its usage, code length and ports;
then one line for every label with a singleton in use, with an empty code length and the code length of the singleton in the column of the usage. -/
theorem table_lines_partial (g : DGraph σ) (rows : List (Row σ)) (m m' : Marks σ) (rows' : List (Row σ)) (ps : List (Piece σ)) (hc : cover g rows m = .ok (m', rows', ps)) (hne : ps ≠ []) :
    ∃ is a b, displayCt rows.length ps = .ok (a ++ b) ∧ is.Pairwise (· < ·) ∧ (∀ i, i ∈ is ↔ InUse ps (.row i)) ∧ List.Forall₂ (ShowsRow ps) is a ∧
      (b.map Line.pattern).Nodup ∧ (∀ q, q ∈ b.map Line.pattern ↔ ∃ l, q = .inr l ∧ (InUse ps (.vertex l) ∨ InUse ps (.edge l))) ∧
      ∀ x ∈ b, ∀ l, x.pattern = .inr l → x.code = none ∧ x.portCount = none ∧ x.portUsage = none ∧ x.portCode = none ∧
        (InUse ps (.edge l) → (2 : ℝ) ^ (-x.usage) = share ps (.edge l)) ∧ (¬ InUse ps (.edge l) → (2 : ℝ) ^ (-x.usage) = share ps (.vertex l)) := by
  have hn := cover_rows_lt g rows m _ hc
  obtain ⟨-, -, d, h1, h2, h3, h4⟩ := code_lengths g rows m m' rows' ps hc hne
  have hmem : ∀ i, i ∈ (List.range rows.length).filter (fun i => decide (rowUsage ps i ≠ 0)) ↔ InUse ps (.row i) := by
    intro i
    rw [List.mem_filter, decide_eq_true_eq, List.mem_range, inUse_iff, count_row]
    constructor
    · rintro ⟨-, h⟩; omega
    · intro h
      have hi : InUse ps (.row i) := (inUse_iff ps _).mpr (by rw [count_row]; exact h)
      obtain ⟨pc, hpc, hk⟩ := hi
      exact ⟨hn pc hpc i hk, by omega⟩
  obtain ⟨a, ha, hf⟩ := mapM_forall₂ (displayRow rows.length ps) (ShowsRow ps) _ (fun i hi => displayRow_shows rows.length ps hn i ((hmem i).mp hi))
  have hempty : (a ++ d.map singletonLine).isEmpty = false := by
    rw [List.isEmpty_eq_false_iff]
    intro h
    obtain ⟨ha0, hd0⟩ := List.append_eq_nil_iff.mp h
    rw [List.map_eq_nil_iff] at hd0
    obtain ⟨pc, hpc⟩ := List.exists_mem_of_ne_nil ps hne
    cases hk : pc.kind with
    | row i =>
      have := (hmem i).mpr ⟨pc, hpc, hk⟩
      rw [ha0] at hf
      rw [List.forall₂_nil_right_iff.mp hf] at this
      cases this
    | edge l => have := (h3 l).mpr (Or.inr ⟨pc, hpc, hk⟩); rw [hd0] at this; cases this
    | vertex l => have := (h3 l).mpr (Or.inl ⟨pc, hpc, hk⟩); rw [hd0] at this; cases this
  refine ⟨_, a, d.map singletonLine, ?_, List.Pairwise.filter _ List.pairwise_lt_range, hmem, hf, ?_, ?_, ?_⟩
  · rw [displayCt, ha, h1]
    simp only [Except.bind]
    rw [hempty]; rfl
  · have e : (d.map singletonLine).map Line.pattern = (d.map Prod.fst).map Sum.inr := by rw [List.map_map, List.map_map]; rfl
    rw [e]
    exact h2.map Sum.inr_injective
  · intro q
    have e : (d.map singletonLine).map Line.pattern = (d.map Prod.fst).map Sum.inr := by rw [List.map_map, List.map_map]; rfl
    rw [e, List.mem_map]
    constructor
    · rintro ⟨l, hl, rfl⟩; exact ⟨l, rfl, (h3 l).mp hl⟩
    · rintro ⟨l, rfl, hl⟩; exact ⟨l, (h3 l).mpr hl, rfl⟩
  · intro x hx l hl
    obtain ⟨⟨l', c⟩, hlc, rfl⟩ := List.mem_map.mp hx
    have : l' = l := Sum.inr.inj hl
    subst this
    exact ⟨rfl, rfl, rfl, rfl, (h4 l' c hlc).1, (h4 l' c hlc).2⟩

/-- C174, the negation of the rest. The number in the column of the usage of a singleton is its usage only in the cases in which the number of nodes is `usage * 2 ^ usage`. -/
theorem singleton_usage_iff (g : DGraph σ) (rows : List (Row σ)) (m m' : Marks σ) (rows' : List (Row σ)) (ps : List (Piece σ)) (hc : cover g rows m = .ok (m', rows', ps)) (t : List (Line σ)) (ht : displayCt rows.length ps = .ok t)
    (x : Line σ) (hx : x ∈ t) (l : σ) (hl : x.pattern = .inr l) :
    (InUse ps (.edge l) → (x.usage = uses ps (.edge l) ↔ ps.length = uses ps (.edge l) * 2 ^ uses ps (.edge l))) ∧
    (¬ InUse ps (.edge l) → (x.usage = uses ps (.vertex l) ↔ ps.length = uses ps (.vertex l) * 2 ^ uses ps (.vertex l))) := by
  have key : ∀ (k : PKind σ) (c : ℝ), InUse ps k → (2 : ℝ) ^ (-c) = share ps k → (c = uses ps k ↔ ps.length = uses ps k * 2 ^ uses ps k) := by
    intro k c hk hs
    have hu : (0 : ℝ) < uses ps k := by exact_mod_cast (inUse_iff ps k).mp hk
    have hL : (0 : ℝ) < ps.length := by obtain ⟨pc, hpc, -⟩ := hk; exact_mod_cast List.length_pos_of_mem hpc
    have hs' : (2 : ℝ) ^ c = ps.length / uses ps k := by
      have h := hs
      rw [Real.rpow_neg (by norm_num)] at h
      rw [← inv_inv ((2 : ℝ) ^ c), h, share, inv_div]
      rfl
    rw [eq_div_iff hu.ne'] at hs'
    constructor
    · intro e
      rw [e, Real.rpow_natCast] at hs'
      have : (ps.length : ℝ) = ((uses ps k * 2 ^ uses ps k : ℕ) : ℝ) := by push_cast; linarith
      exact_mod_cast this
    · intro e
      have e' : (ps.length : ℝ) = (uses ps k : ℝ) * 2 ^ uses ps k := by exact_mod_cast e
      have h2 : (2 : ℝ) ^ c = 2 ^ (uses ps k : ℝ) := by
        rw [Real.rpow_natCast]
        exact mul_right_cancel₀ hu.ne' (by rw [hs', e']; ring)
      exact (Real.rpow_right_inj (by norm_num) (by norm_num)).mp h2
  have hne : ps ≠ [] := by
    rintro rfl
    have hno : ∀ k : PKind σ, ¬ InUse ([] : List (Piece σ)) k := by rintro k ⟨pc, hpc, -⟩; cases hpc
    have : displayCt rows.length ([] : List (Piece σ)) = .error "ValueError" := by
      have e : (List.range rows.length).filter (fun i => decide (rowUsage ([] : List (Piece σ)) i ≠ 0)) = [] := by
        rw [List.filter_eq_nil_iff]; intro i _; simp [rowUsage]
      rw [displayCt, e]; rfl
    rw [this] at ht; cases ht
  obtain ⟨is, a, b, h1, -, -, hf, -, hb, hs⟩ := table_lines_partial g rows m m' rows' ps hc hne
  rw [h1] at ht
  cases ht
  have hxb : x ∈ b := by
    rcases List.mem_append.mp hx with h | h
    · exfalso
      have : ∀ {is : List ℕ} {a : List (Line σ)}, List.Forall₂ (ShowsRow ps) is a → ∀ x ∈ a, ∃ i, x.pattern = .inl i := by
        intro is a hf
        induction hf with
        | nil => intro x hx; cases hx
        | cons h _ ih =>
          intro x hx
          rcases List.mem_cons.mp hx with rfl | hx
          · exact ⟨_, h.pattern⟩
          · exact ih x hx
      obtain ⟨i, hi⟩ := this hf x h
      rw [hi] at hl; cases hl
    · exact h
  obtain ⟨-, -, -, -, he, hv⟩ := hs x hxb l hl
  refine ⟨fun h => key _ _ h (he h), fun h => ?_⟩
  have hin : InUse ps (.vertex l) := by
    obtain ⟨l', e, h'⟩ := (hb x.pattern).mp (List.mem_map_of_mem hxb)
    rw [hl] at e
    cases e
    exact h'.resolve_right h
  exact key _ _ hin (hv h)

/-- A path with three vertices of one label: both labels of the table have a number other than their usage. -/
theorem singleton_usage_wrong : ∃ m' rows' ps t, cover pathGraph [] Marks.fresh = .ok (m', rows', ps) ∧ displayCt 0 ps = .ok t ∧
    ∃ x ∈ t, x.pattern = .inr 9 ∧ uses ps (.vertex 9) = 3 ∧ ¬ InUse ps (.edge 9) ∧ x.usage ≠ 3 ∧ x.code = none := by
  obtain ⟨m', rows', ps, h1, -⟩ := cover_partial pathGraph (by decide) [] (by simp) Marks.fresh .fresh
  have e1 : (cover pathGraph [] Marks.fresh).toOption.map (fun x => x.2.2) = some [.edge 0 1 1, .edge 1 2 1, .vertex 0 9, .vertex 1 9, .vertex 2 9] := by decide +kernel
  have h0 := h1
  rw [h1] at e1
  have e1 : ps = _ := Option.some.inj e1
  subst e1
  obtain ⟨is, a, b, h2, -, -, -, -, hb, hs⟩ := table_lines_partial pathGraph [] Marks.fresh m' rows' _ h0 (by simp)
  obtain ⟨x, hx, hp⟩ := List.mem_map.mp ((hb (.inr 9)).mpr ⟨9, rfl, Or.inl ⟨.vertex 0 9, by simp, rfl⟩⟩)
  have hne : ¬ InUse [(.edge 0 1 1 : Piece ℕ), .edge 1 2 1, .vertex 0 9, .vertex 1 9, .vertex 2 9] (.edge 9) := by
    rw [inUse_iff]; decide
  have hu : uses [(.edge 0 1 1 : Piece ℕ), .edge 1 2 1, .vertex 0 9, .vertex 1 9, .vertex 2 9] (.vertex 9) = 3 := by decide
  have h3 := (singleton_usage_iff pathGraph [] Marks.fresh m' rows' _ h0 _ h2 x (List.mem_append_right _ hx) 9 hp).2 hne
  refine ⟨m', rows', _, _, h0, h2, x, List.mem_append_right _ hx, hp, hu, hne, fun h => ?_, (hs x hx 9 hp).1⟩
  rw [hu] at h3
  have := h3.mp (by rw [h]; norm_num)
  simp at this

/-- The hypotheses of `table_lines_partial` hold for the path covered by one row: the table has a line for the row. -/
example : ∃ m' rows' ps t, cover pathGraph [pathRow] Marks.fresh = .ok (m', rows', ps) ∧ displayCt 1 ps = .ok t ∧ ∃ x ∈ t, ShowsRow ps 0 x := by
  obtain ⟨m', rows', ps, h1, -⟩ := cover_partial pathGraph (by decide) [pathRow] (by intro r hr; rw [List.mem_singleton] at hr; subst hr; exact pathRow_ok) Marks.fresh .fresh
  have e1 : (cover pathGraph [pathRow] Marks.fresh).toOption.map (fun x => decide (0 < (x.2.2.map Piece.kind).count (.row 0))) = some true := by decide +kernel
  rw [h1] at e1
  have e1 := of_decide_eq_true (Option.some.inj e1)
  have hu : InUse ps (.row 0) := (inUse_iff ps _).mpr e1
  obtain ⟨is, a, b, h2, -, h3, h4, -⟩ := table_lines_partial pathGraph [pathRow] Marks.fresh m' rows' ps h1 (by rintro rfl; simp at e1)
  obtain ⟨k, hk, e⟩ := List.getElem_of_mem ((h3 0).mpr hu)
  have hl := h4.length_eq
  exact ⟨m', rows', ps, _, h1, h2, a[k]'(by omega), List.mem_append_left _ (List.getElem_mem _), by have := List.Forall₂.get h4 hk (by omega); simpa [e] using this⟩

end Verif.Graph
