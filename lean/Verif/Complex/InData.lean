import Verif.Complex.Init
import Verif.Concat.Props

/-!
# Candidates made of occurrences of the data
-/

set_option autoImplicit false
set_option linter.unusedSectionVars false

namespace Verif.Complex

open Verif.PTree Verif.Concat Verif.PattKey Verif.CandPool Verif.DataSeq

variable {K : Type} [Field K] [LinearOrder K]

theorem nest_out (cands : List (Cand ℤ)) (hd : ∀ c ∈ cands, Shape c) (F : Forest ℤ) (hF : ∀ c ∈ cands, c.ch = F) (env : Nest.Env) (henv : Nest.EnvOk env) (I : List (ℤ × ℕ) → Nest.Elem → Prop)
    (hI : Nest.Kept env cands I) (n : ℕ) (hn : n = cands.length) (r : List (Cand ℤ) × Finset ℕ) (h : Nest.nestCmplx n env cands = .ok r) :
    ∀ c ∈ r.1, Shape c ∧ ∃ idxs cs, idxs ≠ [] ∧ idxs.mapM (fun i => cands[i]?) = some cs ∧ ((∀ c ∈ cs, Describes c) → Describes c) ∧ pairs c = cs.flatMap pairs ∧ c.O = cs.flatMap (fun c => c.O) ∧ (∀ x ∈ cs, x ∈ cands) ∧ cs ≠ [] ∧
      ∃ outer T t, (∀ x ∈ outer, 1 ≤ x.2) ∧ c.tree = Nest.nestT T outer ∧ (∀ x ∈ cs, x.tree = T) ∧ cs.length = Nest.copies outer ∧ I outer (t, idxs) := by
  subst hn
  obtain ⟨r', cov, h1, -, h2⟩ := Nest.nest_kept cands hd F hF env henv I hI cands.length (le_refl _)
  rw [h1] at h
  cases h
  intro c hc
  obtain ⟨k1, idxs, cs, k2, k3, k4, k5, k6, -, k8⟩ := h2 c hc
  have hm : ∀ x ∈ cs, x ∈ cands := by
    intro x hx
    obtain ⟨i, -, hi⟩ := Nest.mapM_mem k3 hx
    exact List.mem_of_getElem? hi
  refine ⟨k1, idxs, cs, k2, k3, k4, nest_pairs (fun x hx => hd x (hm x hx)) k5 k6, k5, hm, ?_, k8⟩
  rintro rfl
  have := (Nest.mapM_get k3).1
  exact k2 (List.eq_nil_of_length_eq_zero (by simpa using this))

/-- Cycles outside have three repetitions or more. -/
theorem kept_three (env : Nest.Env) (cands : List (Cand ℤ)) : Nest.Kept env cands (fun outer _ => ∀ x ∈ outer, 3 ≤ x.2) where
  init := by intro i c t0 _ _ x hx; cases hx
  step := by
    intro outer elems pos p t0 kids h1 _ h3 h4 _ _ _ _ _ x hx
    rcases List.mem_cons.1 hx with rfl | hx
    · exact h3
    · obtain ⟨k, hk⟩ := List.exists_mem_of_length_pos (l := pos) (by omega)
      exact h1 _ (List.getElem_mem (h4 k hk)) x hx

theorem nestT_root {c : Cand ℤ} {T : PTree.Tree ℤ} {outer : List (ℤ × ℕ)} (h : c.tree = Nest.nestT T outer) : (outer = [] ∧ c.tree = T) ∨ ∃ p l rest, outer = (p, l) :: rest ∧ c.r = l ∧ c.p = p ∧ c.ch = .cons 0 (Nest.nestT T rest) .nil := by
  cases outer with
  | nil => exact Or.inl ⟨rfl, h⟩
  | cons x rest =>
    obtain ⟨p, l⟩ := x
    rw [Cand.tree, Nest.nestT, PTree.Tree.node.injEq] at h
    exact Or.inr ⟨p, l, rest, rfl, h.1, h.2.1, h.2.2⟩

/-- The candidates of the pool keep to the data. -/
theorem inData_closed (W : World K) (henv : ∀ l, Nest.EnvOk (W.env l)) (D : ℤ × ℤ → Prop) (hcost : ∀ x, D x → (W.dcosts.lookup x.2).isSome) : Closed W (InData D) (InData D) (InData D) where
  shape := fun c h => h.1
  cost := fun c h x hx => hcost x (h.2.2 x hx)
  concat := by
    intro cs p0 r0 c' h2 h3 hP _ _ hc
    obtain ⟨c'', e1, e2, e3, -, -, e6⟩ := concat_pairs cs (by rintro rfl; simp at h2) p0 r0 (by omega) (fun c hc => (hP c hc).1.1) (fun c hc => (hP c hc).2)
    rw [hc] at e1
    cases e1
    refine ⟨e2, by omega, ?_⟩
    intro x hx
    rw [e6] at hx
    obtain ⟨c, hc, hx⟩ := mem_concat_pairs (fun c hc => (hP c hc).1.1) (fun c hc => (hP c hc).2) hx
    exact (hP c hc).1.2.2 x hx
  nest := by
    intro l F r hl h c hc
    have hP : ∀ c ∈ l.map (fun c => c.cand.toCand), InData D c ∧ c.ch = F := by
      intro c hc
      obtain ⟨x, hx, rfl⟩ := List.mem_map.1 hc
      exact hl x hx
    obtain ⟨k1, idxs, cs, -, -, -, k4, -, k5, k6, outer, T, t, -, k8, k9, -, k11⟩ := nest_out _ (fun c hc => (hP c hc).1.1) F (fun c hc => (hP c hc).2) (W.env l) (henv l) _ (kept_three _ _) l.length (by simp) r h c hc
    refine ⟨k1, ?_, ?_⟩
    · rcases nestT_root k8 with ⟨-, e⟩ | ⟨p, m, rest, rfl, e, -⟩
      · obtain ⟨x, hx⟩ := List.exists_mem_of_ne_nil _ k6
        have := k9 x hx
        rw [← e, Cand.tree, Cand.tree, PTree.Tree.node.injEq] at this
        rw [← this.1]
        exact (hP x (k5 x hx)).1.2.1
      · rw [e]
        exact k11 _ List.mem_cons_self
    · intro x hx
      rw [k4] at hx
      obtain ⟨y, hy, hx⟩ := List.mem_flatMap.1 hx
      exact (hP y (k5 y hy)).1.2.2 x hx
  factShape := fun c h => h.1
  fact := by
    intro c f fuel fs h hf e hm
    obtain ⟨fs', e1, e2⟩ := factorize_sound c h.1 fuel hf
    rw [e] at e1
    cases e1
    obtain ⟨d1, d2, d3, -⟩ := e2 f hm
    exact ⟨d1.shape, by rw [d3]; exact h.2.1, fun x hx => h.2.2 x (d2.mem_iff.1 hx)⟩

/-! ### One round -/

/-- A candidate with one child under its root that describes its occurrences. -/
def SimpleOk (D : ℤ × ℤ → Prop) (c : Cand ℤ) : Prop := InData D c ∧ Describes c ∧ OneChild c.ch

theorem allButLast_one {α : Type} : ∀ l : List (Forest α), (∀ F ∈ l, OneChild F) → AllButLast l
  | [], _ => trivial
  | [_], _ => trivial
  | F :: G :: rest, h => ⟨h F List.mem_cons_self, allButLast_one (G :: rest) (fun x hx => h x (List.mem_cons_of_mem _ hx))⟩

/-- Combinations of simple cycles describe their occurrences. -/
theorem first_closed (W : World K) (henv : ∀ l, Nest.EnvOk (W.env l)) (D : ℤ × ℤ → Prop) (hcost : ∀ x, D x → (W.dcosts.lookup x.2).isSome) :
    Closed W (SimpleOk D) (fun c => InData D c ∧ Describes c) (fun c => InData D c ∧ Describes c) where
  shape := fun c h => h.1.1
  cost := fun c h x hx => hcost x (h.1.2.2 x hx)
  concat := by
    intro cs p0 r0 c' h2 h3 hP hd hp hc
    refine ⟨(inData_closed W henv D hcost).concat cs p0 r0 c' h2 h3 (fun c hc => ⟨(hP c hc).1.1, (hP c hc).2⟩) hd hp hc, ?_⟩
    cases cs with
    | nil => simp at h2
    | cons c0 cs =>
      obtain ⟨c0, f0⟩ := c0
      obtain ⟨c'', e1, e2, -⟩ := concat_describes_partial c0 f0 cs p0 r0 (by omega) (fun c hc => (hP c hc).1.2.1) (fun c hc => (hP c hc).2) (allButLast_one _ (by
        intro F hF
        obtain ⟨c, hc, rfl⟩ := List.mem_map.1 hF
        exact (hP c hc).1.2.2))
      rw [hc] at e1
      cases e1
      exact e2
  nest := by
    intro l F r hl h c hc
    refine ⟨(inData_closed W henv D hcost).nest l F r (fun c hc => ⟨(hl c hc).1.1, (hl c hc).2⟩) h c hc, ?_⟩
    have hP : ∀ c ∈ l.map (fun c => c.cand.toCand), SimpleOk D c ∧ c.ch = F := by
      intro c hc
      obtain ⟨x, hx, rfl⟩ := List.mem_map.1 hc
      exact hl x hx
    obtain ⟨-, idxs, cs, -, -, k3, -, -, k5, -⟩ := nest_out _ (fun c hc => (hP c hc).1.1.1) F (fun c hc => (hP c hc).2) (W.env l) (henv l) _ (kept_three _ _) l.length (by simp) r h c hc
    exact k3 (fun x hx => (hP x (k5 x hx)).1.2.1)
  factShape := fun c h => h.1.1
  fact := by
    intro c f fuel fs h hf e hm
    refine ⟨(inData_closed W henv D hcost).fact c f fuel fs h.1 hf e hm, ?_⟩
    obtain ⟨fs', e1, e2⟩ := factorize_sound c h.1.1 fuel hf
    rw [e] at e1
    cases e1
    exact (e2 f hm).1

/-! ### Simple cycles -/

theorem ofCyc_describes (a : ℕ) (c : Mine.Cyc K) (h : c.occs ≠ []) : Describes (ofCyc a c).cand.toCand := by
  obtain ⟨t0, ts, e⟩ := List.exists_cons_of_ne_nil h
  have hreg : (PTree.Tree.node (ts.length + 1) c.p (.cons 0 (.leaf a) .nil)).Regular := by
    simp [Tree.Regular, Forest.Regular, Forest.NonEmpty, Forest.firstDist]
  have hocc := (getOccs_iff (.node (ts.length + 1) c.p (.cons 0 (.leaf a) .nil)) hreg t0 ts (Miner.computeE (t0 :: ts) c.p) (by simp [nbOccs, nbOccsF]) (by rw [Miner.length_computeE]; simp)).mpr
    (Miner.simple_corr a c.p t0 ts).symm
  have hmap : (ofCyc a c).cand.toCand = mapC (fun n : ℕ => (n : ℤ)) ⟨ts.length + 1, c.p, .cons 0 (.leaf a) .nil, t0 :: ts, Miner.computeE (t0 :: ts) c.p⟩ := by
    simp [ofCyc, AnyCand.toCand, mapC, mapF, mapT, e]
  rw [hmap, describes_mapC]
  exact ⟨hreg, by simp [Cand.tree, nbOccs, nbOccsF], by simp [Miner.length_computeE], t0, rfl, hocc⟩

/-- An occurrence of the data. -/
def InSeqs {ε : Type} [LinearOrder ε] (ds : Built ε) (x : ℤ × ℤ) : Prop := ∃ a < ds.listEv.length, x.2 = (a : ℤ) ∧ x.1 ∈ getSequence ds a

theorem pairs_ofCyc (a : ℕ) (c : Mine.Cyc K) : pairs (ofCyc a c).cand.toCand = c.occs.map (fun t => (t, (a : ℤ))) := by
  rw [← evOccs_pairs]; rfl

theorem ofCyc_simple {ε : Type} [LinearOrder ε] (ds : Built ε) (a : ℕ) (ha : a < ds.listEv.length) (c : Mine.Cyc K) (h : Mine.Good (getSequence ds a) c) : SimpleOk (InSeqs ds) (ofCyc a c).cand.toCand := by
  have hne : c.occs ≠ [] := by
    intro e
    have := h.2.1
    rw [e] at this
    simp at this
  have hd := ofCyc_describes a c hne
  refine ⟨⟨hd.shape, h.2.1, ?_⟩, hd, trivial⟩
  intro x hx
  rw [pairs_ofCyc] at hx
  obtain ⟨t, ht, rfl⟩ := List.mem_map.1 hx
  exact ⟨a, ha, rfl, h.1.subset ht⟩

/-! ### Selection -/

theorem choose_spec [IsStrictOrderedRing K] {W : World K} {D : ℤ × ℤ → Prop} (hcost : ∀ x, D x → (W.dcosts.lookup x.2).isSome) (s : CPool K) (h : PoolInv W (InData D) s) :
    ∃ sel ps, choose W s = some ps ∧ sel.mapM (fun i => (s.candidates.lookup i).bind (fun c => toPatt c.cand)) = some ps ∧ sel.Nodup ∧ (∀ i ∈ sel, i ∈ s.candidates.map Prod.fst) ∧
      Select.EfficientCover (candsOf s.candidates) W.dcosts Prod.snd 3 sel := by
  have hlook : ∀ i ∈ s.candidates.map Prod.fst, ∃ c, s.candidates.lookup i = some c ∧ InData D c.cand.toCand := by
    intro i hi
    obtain ⟨⟨i, c⟩, hc, rfl⟩ := List.mem_map.1 hi
    exact ⟨c, h.lookup hc, h.cands _ hc⟩
  obtain ⟨sel, h1, h2, h3, h4⟩ := Select.selection_efficient (candsOf s.candidates) W.dcosts Prod.snd 3 (s.candidates.map Prod.fst) (by rw [h.inv.ids]; exact List.nodup_range) (by
    intro i hi o ho
    obtain ⟨c, hc, hp⟩ := hlook i hi
    simp only [candsOf, hc, Option.map_some, Option.getD_some, List.mem_toFinset, evOccs_pairs] at ho
    exact hcost _ (hp.2.2 o ho))
  obtain ⟨ps, hps⟩ := Miner.mapM_exists (fun i => (s.candidates.lookup i).bind (fun c => toPatt c.cand)) sel (by
    intro i hi
    obtain ⟨c, hc, hp⟩ := hlook i (h3 i hi)
    obtain ⟨t0, ht⟩ := hp.1.head
    rw [hc, Option.bind_some, toPatt, ht]; rfl)
  exact ⟨sel, ps, by rw [choose, h1, Option.bind_some, hps], hps, h2, h3, h4⟩

theorem toPatt_cov {c : AnyCand} {q : Miner.Patt} (hd : Describes c.toCand) (h : toPatt c = some q) : getCovSeq q.1 q.2.1 q.2.2 = some ((pairs c.toCand).map (fun x => (x.1, x.2.toNat))) := by
  obtain ⟨-, -, -, t0, e1, e2⟩ := hd
  unfold toPatt at h
  rw [e1] at h
  simp only [Option.map_some, Option.some.injEq] at h
  subst h
  simp only
  rw [getCovSeq_map, Miner.getCovSeq_of_getOccs _ _ _ _ e2]
  rfl

end Verif.Complex
