import Verif.Complex.InData
import Verif.Complex.FactReps
import Mathlib.Data.Set.Finite.Lattice
import Mathlib.Data.Set.Finite.Range
import Mathlib.Data.Set.Card

/-!
# Bounds on the candidates
-/

set_option autoImplicit false
set_option linter.unusedSectionVars false

namespace Verif.Complex

open Verif.PTree Verif.Concat Verif.PattKey Verif.CandPool Verif.DataSeq

variable {K : Type} [Field K] [LinearOrder K]

/-! ### Finitely many trees -/

section Finite

variable {α : Type} {pr : ℕ → ℤ → Prop} {pd : ℤ → Prop} {pa : α → Prop}

theorem size_pos : ∀ t : PTree.Tree α, 1 ≤ leaves t + inner t
  | .leaf _ => by simp [leaves]
  | .node _ _ _ => by simp only [inner]; omega

theorem trees_finite (hpr : {x : ℕ × ℤ | pr x.1 x.2}.Finite) (hpd : {d | pd d}.Finite) (hpa : {a | pa a}.Finite) :
    ∀ n : ℕ, {t : PTree.Tree α | leaves t + inner t ≤ n + 1 ∧ AllT pr pd pa t}.Finite ∧ {F : Forest α | leavesF F + innerF F ≤ n ∧ AllF pr pd pa F}.Finite := by
  have hT : ∀ n, {F : Forest α | leavesF F + innerF F ≤ n ∧ AllF pr pd pa F}.Finite → {t : PTree.Tree α | leaves t + inner t ≤ n + 1 ∧ AllT pr pd pa t}.Finite := by
    intro n h
    refine ((hpa.image (fun a => PTree.Tree.leaf a)).union (Set.Finite.image2 (fun x F => PTree.Tree.node x.1 x.2 F) hpr h)).subset ?_
    rintro t ⟨h1, h2⟩
    cases t with
    | leaf a => exact Or.inl ⟨a, h2, rfl⟩
    | node r p ch =>
      refine Or.inr ⟨(r, p), h2.1, ch, ⟨?_, h2.2⟩, rfl⟩
      simp only [leaves, inner] at h1
      omega
  intro n
  induction n with
  | zero =>
    have h0 : {F : Forest α | leavesF F + innerF F ≤ 0 ∧ AllF pr pd pa F}.Finite := by
      refine (Set.finite_singleton Forest.nil).subset ?_
      rintro F ⟨h1, -⟩
      cases F with
      | nil => rfl
      | cons d t rest =>
        have := size_pos t
        simp only [leavesF, innerF] at h1
        omega
    exact ⟨hT 0 h0, h0⟩
  | succ n ih =>
    have h1 : {F : Forest α | leavesF F + innerF F ≤ n + 1 ∧ AllF pr pd pa F}.Finite := by
      refine ((Set.finite_singleton Forest.nil).union (Set.Finite.image2 (fun x rest => Forest.cons x.1 x.2 rest) (hpd.prod ih.1) ih.2)).subset ?_
      rintro F ⟨h1, h2⟩
      cases F with
      | nil => exact Or.inl rfl
      | cons d t rest =>
        have := size_pos t
        simp only [leavesF, innerF] at h1
        exact Or.inr ⟨(d, t), ⟨h2.1, (show leaves t + inner t ≤ n + 1 by omega), h2.2.1⟩, rest, ⟨(show leavesF rest + innerF rest ≤ n by omega), h2.2.2⟩, rfl⟩
    exact ⟨hT _ h1, h1⟩

end Finite

/-! ### Bounded candidates -/

/-- The occurrences of the data, and a bound on the distances between them. -/
structure Bounds where
  D : Finset (ℤ × ℤ)
  R : ℤ
  dist : ∀ x ∈ D, ∀ y ∈ D, |x.1 - y.1| ≤ R
  pos : 0 ≤ R

variable (B : Bounds)

/-- Repetitions and periods. -/
def Bounds.pr (r : ℕ) (p : ℤ) : Prop := r ≤ B.D.card ∧ |p| ≤ B.R

/-- Distances. -/
def Bounds.pd (d : ℤ) : Prop := |d| ≤ B.R

/-- Events. -/
def Bounds.pa (a : ℤ) : Prop := ∃ x ∈ B.D, x.2 = a

/-- The times of the data. -/
def Bounds.times : Finset ℤ := B.D.image Prod.fst

/-- The number of times after a time. -/
def Bounds.later (t : ℤ) : ℕ := (B.times.filter (fun u => t < u)).card

theorem Bounds.later_le (t : ℤ) : B.later t ≤ B.D.card := le_trans (Finset.card_le_card (Finset.filter_subset _ _)) Finset.card_image_le

theorem Bounds.later_lt {t u : ℤ} (hu : u ∈ B.times) (h : t < u) : B.later u + 1 ≤ B.later t := by
  apply Finset.card_lt_card
  rw [Finset.ssubset_iff_of_subset]
  · exact ⟨u, Finset.mem_filter.2 ⟨hu, h⟩, by simp⟩
  · intro v hv
    rw [Finset.mem_filter] at hv ⊢
    exact ⟨hv.1, by omega⟩

theorem Bounds.times_dist {t u : ℤ} (ht : t ∈ B.times) (hu : u ∈ B.times) : |t - u| ≤ B.R := by
  obtain ⟨x, hx, rfl⟩ := Finset.mem_image.1 ht
  obtain ⟨y, hy, rfl⟩ := Finset.mem_image.1 hu
  exact B.dist x hx y hy

/-- What all candidates satisfy. -/
structure Bounded (c : Cand ℤ) : Prop where
  data : InData (fun x => x ∈ B.D) c
  r : c.r ≤ B.D.card
  p : |c.p| ≤ B.R
  labels : AllF B.pr B.pd B.pa c.ch
  leaves : ∀ i < c.r, leavesF c.ch ≤ (repPairs c i).toFinset.card

/-- Candidates side by side. -/
def BH (c : Cand ℤ) : Prop := Bounded B c ∧ innerF c.ch + 2 * (B.D.card * B.D.card) ≤ 2 * (B.D.card * B.D.card) * leavesF c.ch

/-- All candidates. -/
def BP (c : Cand ℤ) : Prop :=
  Bounded B c ∧ ∀ t0, c.O.head? = some t0 → innerF c.ch + 2 * (B.D.card * B.D.card) ≤ 2 * (B.D.card * B.D.card) * leavesF c.ch + B.D.card * B.later t0

theorem BH.toP {c : Cand ℤ} (h : BH B c) : BP B c := ⟨h.1, fun _ _ => le_trans h.2 (Nat.le_add_right _ _)⟩

theorem pairs_fst {α : Type} {c : Cand α} (h : Shape c) : (pairs c).map Prod.fst = c.O := by
  rw [pairs, List.map_fst_zip]
  rw [length_events]
  exact le_of_eq h.2.1

theorem Bounded.time {c : Cand ℤ} (h : Bounded B c) {t : ℤ} (ht : t ∈ c.O) : t ∈ B.times := by
  rw [← pairs_fst h.data.1] at ht
  obtain ⟨x, hx, rfl⟩ := List.mem_map.1 ht
  exact Finset.mem_image.2 ⟨x, h.data.2.2 x hx, rfl⟩

/-! ### Side by side -/

theorem leavesF_append {α : Type} : ∀ F G : Forest α, leavesF (append F G) = leavesF F + leavesF G
  | .nil, G => by simp [append, leavesF]
  | .cons d t rest, G => by simp only [append, leavesF, leavesF_append rest G]; omega

theorem innerF_append {α : Type} : ∀ F G : Forest α, innerF (append F G) = innerF F + innerF G
  | .nil, G => by simp [append, innerF]
  | .cons d t rest, G => by simp only [append, innerF, innerF_append rest G]; omega

theorem allF_append {α : Type} {pr : ℕ → ℤ → Prop} {pd : ℤ → Prop} {pa : α → Prop} : ∀ F G : Forest α, AllF pr pd pa F → AllF pr pd pa G → AllF pr pd pa (append F G)
  | .nil, _, _, h => h
  | .cons _ _ rest, G, h, h' => ⟨h.1, h.2.1, allF_append rest G h.2.2 h'⟩

theorem concatCh_meas {α : Type} {pr : ℕ → ℤ → Prop} {pd : ℤ → Prop} {pa : α → Prop} (T : ℤ → Prop) (hT : ∀ t u, T t → T u → pd (t - u)) :
    ∀ (parts : List (Forest α × List (List ℤ))) (prev : Option (List (List ℤ))) (F : Forest α), concatCh parts prev = some F → (∀ x ∈ parts, AllF pr pd pa x.1 ∧ ∀ t, x.2.head?.bind List.head? = some t → T t) →
      (∀ bp, prev = some bp → ∀ t, bp.head?.bind List.head? = some t → T t) →
      AllF pr pd pa F ∧ leavesF F = (parts.map (fun x => leavesF x.1)).sum ∧ innerF F = (parts.map (fun x => innerF x.1)).sum
  | [], prev, F, h, _, _ => by
    simp only [concatCh, Option.some.injEq] at h
    subst h
    exact ⟨trivial, rfl, rfl⟩
  | (ch, bo) :: rest, prev, F, h, hp, hprev => by
    obtain ⟨h1, h2⟩ := hp (ch, bo) List.mem_cons_self
    have first : ∀ c, (match prev with
        | none => some ch
        | some bp =>
          match bo.head?.bind List.head?, bp.head?.bind List.head? with
          | some h, some h' => setFirst (h - h') ch
          | _, _ => none) = some c → AllF pr pd pa c ∧ leavesF c = leavesF ch ∧ innerF c = innerF ch := by
      intro c hc
      cases prev with
      | none =>
        simp only [Option.some.injEq] at hc
        subst hc
        exact ⟨h1, rfl, rfl⟩
      | some bp =>
        simp only at hc
        split at hc
        · rename_i t u e1 e2
          cases ch with
          | nil => cases hc
          | cons d t0 r0 =>
            simp only [setFirst, Option.some.injEq] at hc
            subst hc
            exact ⟨⟨hT _ _ (h2 _ e1) (hprev bp rfl _ e2), h1.2⟩, rfl, rfl⟩
        · cases hc
    simp only [concatCh] at h
    split at h
    · rename_i c f e1 e2
      simp only [Option.some.injEq] at h
      subst h
      obtain ⟨a1, a2, a3⟩ := first c e1
      obtain ⟨b1, b2, b3⟩ := concatCh_meas T hT rest (some bo) f e2 (fun x hx => hp x (List.mem_cons_of_mem _ hx)) (fun bp hb t ht => by cases hb; exact h2 t ht)
      refine ⟨allF_append _ _ a1 b1, ?_, ?_⟩
      · rw [leavesF_append, a2, b2, List.map_cons, List.sum_cons]
      · rw [innerF_append, a3, b3, List.map_cons, List.sum_cons]
    · cases h

theorem card_flatMap_disj {ι β : Type} [DecidableEq β] (f : ι → List β) : ∀ l : List ι, l.Pairwise (fun a b => ∀ x ∈ f a, x ∉ f b) → (l.flatMap f).toFinset.card = (l.map (fun i => (f i).toFinset.card)).sum
  | [], _ => rfl
  | a :: l, h => by
    rw [List.pairwise_cons] at h
    rw [List.flatMap_cons, List.toFinset_append, Finset.card_union_of_disjoint, card_flatMap_disj f l h.2, List.map_cons, List.sum_cons]
    rw [Finset.disjoint_left]
    intro x hx hx'
    rw [List.mem_toFinset] at hx hx'
    obtain ⟨b, hb, hx'⟩ := List.mem_flatMap.1 hx'
    exact h.1 b hb x hx hx'

theorem sum_bounds {ι : Type} (a b : ι → ℕ) (M : ℕ) : ∀ l : List ι, (∀ x ∈ l, a x + 2 * M ≤ 2 * M * b x + M) → (l.map a).sum + l.length * M ≤ 2 * M * (l.map b).sum
  | [], _ => by simp
  | x :: l, h => by
    have h1 := h x List.mem_cons_self
    have h2 := sum_bounds a b M l (fun y hy => h y (List.mem_cons_of_mem _ hy))
    simp only [List.map_cons, List.sum_cons, List.length_cons, Nat.mul_add, Nat.add_mul, Nat.one_mul]
    omega

theorem concat_bounded (cs : List (Cand ℤ × ℕ)) (p0 : ℤ) (r0 : ℕ) (c' : Cand ℤ) (h2 : 2 ≤ cs.length) (h3 : 3 ≤ r0) (hP : ∀ c ∈ cs, BP B c.1 ∧ c.2 + r0 ≤ c.1.r) (hd : (cs.map Prod.fst).Pairwise Disj)
    (hp : ∃ c ∈ cs, p0 = c.1.p) (hc : concat cs p0 r0 = some c') : BH B c' := by
  obtain ⟨c'', e1, e2, e3, e4, e5, e6⟩ := concat_pairs cs (by rintro rfl; simp at h2) p0 r0 (by omega) (fun c hc => (hP c hc).1.1.data.1) (fun c hc => (hP c hc).2)
  rw [hc] at e1
  cases e1
  -- the children
  have hch : ∃ F, concatCh (cs.map (fun c => (c.1.ch, c.1.blocksO c.2))) none = some F ∧ c'.ch = F := by
    unfold concat at hc
    simp only [List.zip_map'] at hc
    obtain ⟨F, hF, hc⟩ := Option.bind_eq_some_iff.1 hc
    obtain ⟨rows, -, rfl⟩ := Option.map_eq_some_iff.1 hc
    exact ⟨F, hF, rfl⟩
  obtain ⟨F, hF, hFc⟩ := hch
  obtain ⟨m1, m2, m3⟩ := concatCh_meas (pr := B.pr) (pd := B.pd) (pa := B.pa) (fun t => t ∈ B.times) (fun t u ht hu => B.times_dist ht hu) _ none F hF (by
    intro x hx
    obtain ⟨c, hc, rfl⟩ := List.mem_map.1 hx
    refine ⟨(hP c hc).1.1.labels, ?_⟩
    intro t ht
    obtain ⟨b, hb, ht⟩ := Option.bind_eq_some_iff.1 ht
    have hb := List.mem_of_mem_head? hb
    have ht := List.mem_of_mem_head? ht
    obtain ⟨i, -, rfl⟩ := List.mem_map.1 hb
    exact (hP c hc).1.1.time B (List.mem_of_mem_drop (List.mem_of_mem_take ht))) (by simp)
  rw [List.map_map] at m2 m3
  obtain ⟨c1, hc1⟩ := List.exists_mem_of_length_pos (l := cs) (by omega)
  have hdisj : ∀ i < r0, cs.Pairwise (fun a b => ∀ x ∈ repPairs a.1 (a.2 + i), x ∉ repPairs b.1 (b.2 + i)) := by
    intro i hi
    rw [List.pairwise_map] at hd
    refine hd.imp_of_mem ?_
    intro a b ha hb hab x hx hx'
    have := (hP a ha).2
    have := (hP b hb).2
    exact hab x (repPairs_sub (hP a ha).1.1.data.1 _ (by omega) x hx) (repPairs_sub (hP b hb).1.1.data.1 _ (by omega) x hx')
  refine ⟨⟨⟨e2, by omega, ?_⟩, ?_, ?_, by rw [hFc]; exact m1, ?_⟩, ?_⟩
  · intro x hx
    rw [e6] at hx
    obtain ⟨c, hc, hx⟩ := mem_concat_pairs (fun c hc => (hP c hc).1.1.data.1) (fun c hc => (hP c hc).2) hx
    exact (hP c hc).1.1.data.2.2 x hx
  · rw [e3]
    have := (hP c1 hc1).2
    have := (hP c1 hc1).1.1.r
    omega
  · obtain ⟨c, hc, h⟩ := hp
    rw [e4, h]
    exact (hP c hc).1.1.p
  · intro i hi
    rw [e3] at hi
    rw [e5 i hi, card_flatMap_disj _ _ (hdisj i hi), hFc, m2]
    apply List.sum_le_sum
    intro c hc
    exact (hP c hc).1.1.leaves _ (by have := (hP c hc).2; omega)
  · rw [hFc, m2, m3]
    have := sum_bounds (fun c : Cand ℤ × ℕ => innerF c.1.ch) (fun c => leavesF c.1.ch) (B.D.card * B.D.card) cs (by
      intro c hc
      obtain ⟨t0, ht⟩ := (hP c hc).1.1.data.1.head
      have := (hP c hc).1.2 t0 ht
      have := Nat.mul_le_mul_left B.D.card (B.later_le t0)
      omega)
    have h4 : 2 * (B.D.card * B.D.card) ≤ cs.length * (B.D.card * B.D.card) := Nat.mul_le_mul_right _ h2
    simp only [Function.comp_def]
    omega

/-! ### Factorised -/

theorem fact_bounded (c f : Cand ℤ) (fuel : ℕ) (fs : List (Cand ℤ)) (h : BH B c) (hf : inner c.tree ≤ fuel) (e : factorizePattern fuel c = some fs) (hm : f ∈ fs) : BH B f := by
  obtain ⟨fs', e1, e2⟩ := factorize_sound c h.1.data.1 fuel hf
  rw [e] at e1
  cases e1
  obtain ⟨d1, d2, d3, d4⟩ := e2 f hm
  obtain ⟨s1, s2, s3, s4, s5, s6, s7⟩ := factorize_reps c h.1.data.1 fuel fs e f hm
  have hl : leavesF f.ch = leavesF c.ch := s5
  have hi : innerF f.ch ≤ innerF c.ch := by
    simp only [Cand.tree, inner] at s6
    omega
  refine ⟨⟨⟨s1, by rw [s2]; exact h.1.data.2.1, fun x hx => h.1.data.2.2 x (d2.mem_iff.1 hx)⟩, by rw [s2]; exact h.1.r, by rw [s3]; exact h.1.p, ?_, ?_⟩, ?_⟩
  · exact (s7 B.pr B.pd B.pa (by simp [Bounds.pd, B.pos]) ⟨⟨h.1.r, h.1.p⟩, h.1.labels⟩).2
  · intro i hi
    rw [s2] at hi
    rw [hl, List.toFinset_eq_of_perm _ _ (s4 i hi)]
    exact h.1.leaves i hi
  · rw [hl]
    exact le_trans (Nat.add_le_add_right hi _) h.2

/-! ### Nested -/

/-- Periods found among times are bounded by a distance between times (it holds for the search of the code: `foldEnv_bounded`). -/
structure EnvBounded (env : Nest.Env) : Prop where
  triples : ∀ lvl key ts, ts.Pairwise (· < ·) → ∀ t ∈ env.triples lvl key ts, ∃ x ∈ ts, ∃ y ∈ ts, |t.1| ≤ y - x
  period : ∀ l : List ℤ, l.Pairwise (· < ·) → 3 ≤ l.length → ∃ x ∈ l, ∃ y ∈ l, |env.period l| ≤ y - x

/-- The start of a candidate by its number. -/
def startOf (cands : List (Cand ℤ)) (i : ℕ) : Option ℤ := (cands[i]?).bind (fun c => c.O.head?)

/-- What is kept in the search. -/
def NestI (cands : List (Cand ℤ)) (outer : List (ℤ × ℕ)) (e : Nest.Elem) : Prop :=
  (∀ x ∈ outer, 3 ≤ x.2 ∧ x.2 ≤ B.D.card ∧ |x.1| ≤ B.R) ∧ e.1 ∈ B.times ∧ outer.length ≤ B.later e.1 ∧
    ((outer = [] ∧ ∃ i, e.2 = [i] ∧ startOf cands i = some e.1) ∨ outer ≠ [] ∧ ∃ i rest j t u, e.2 = i :: rest ∧ startOf cands i = some t ∧ j ∈ rest ∧ startOf cands j = some u ∧ t < u)

theorem kept_bounded (env : Nest.Env) (henv : EnvBounded env) (cands : List (Cand ℤ)) (hB : ∀ c ∈ cands, Bounded B c) : Nest.Kept env cands (NestI B cands) where
  init := by
    intro i c t0 hc ht
    refine ⟨by simp, (hB c (List.mem_of_getElem? hc)).time B (List.mem_of_mem_head? ht), by simp, Or.inl ⟨rfl, i, rfl, ?_⟩⟩
    rw [startOf, hc, Option.bind_some, ht]
  step := by
    intro outer elems pos p t0 kids h1 h2 h3 h4 h5 h6 h7 h8 h9
    have htimes : ∀ t ∈ elems.map Prod.fst, t ∈ B.times := by
      intro t ht
      obtain ⟨e, he, rfl⟩ := List.mem_map.1 ht
      exact (h1 e he).2.1
    have hinc : (elems.map Prod.fst).Pairwise (· < ·) := List.pairwise_map.2 h2
    have hlen : elems.length ≤ B.D.card := by
      have hnd : (elems.map Prod.fst).Nodup := hinc.imp (fun h => ne_of_lt h)
      have : (elems.map Prod.fst).toFinset ⊆ B.times := fun t ht => htimes t (List.mem_toFinset.1 ht)
      have := Finset.card_le_card this
      rw [List.toFinset_card_of_nodup hnd, List.length_map] at this
      exact le_trans this Finset.card_image_le
    have hpos : pos.length ≤ elems.length := by
      have hnd : pos.Nodup := h5.imp (fun h => ne_of_lt h)
      have : pos.toFinset ⊆ Finset.range elems.length := fun k hk => Finset.mem_range.2 (h4 k (List.mem_toFinset.1 hk))
      have := Finset.card_le_card this
      rwa [List.toFinset_card_of_nodup hnd, Finset.card_range] at this
    have hp : |p| ≤ B.R := by
      rcases h9 with ⟨lvl, key, ht⟩ | ⟨l, hl, hl3, rfl⟩
      · obtain ⟨x, hx, y, hy, hxy⟩ := henv.triples lvl key _ hinc _ ht
        exact le_trans hxy (le_trans (le_abs_self _) (B.times_dist (htimes y hy) (htimes x hx)))
      · obtain ⟨x, hx, y, hy, hxy⟩ := henv.period l (hinc.sublist hl) hl3
        exact le_trans hxy (le_trans (le_abs_self _) (B.times_dist (htimes y (hl.subset hy)) (htimes x (hl.subset hx))))
    obtain ⟨e0, he0, rfl⟩ := h7
    obtain ⟨e1, he1, hlt⟩ := h8
    refine ⟨?_, (h1 e0 he0).2.1, ?_, Or.inr ⟨by simp, ?_⟩⟩
    · intro x hx
      rcases List.mem_cons.1 hx with rfl | hx
      · exact ⟨h3, by simp only; omega, hp⟩
      · exact (h1 e0 he0).1 x hx
    · have := (h1 e1 he1).2.2.1
      have := B.later_lt (h1 e1 he1).2.1 hlt
      simp only [List.length_cons]
      omega
    · -- the first kids
      obtain ⟨k0, k1, ks, rfl⟩ : ∃ k0 k1 ks, pos = k0 :: k1 :: ks := by
        match pos, h3 with
        | k0 :: k1 :: ks, _ => exact ⟨k0, k1, ks, rfl⟩
      have hk0 := h4 k0 (by simp)
      have hk1 := h4 k1 (by simp)
      have h01 : k0 < k1 := (List.pairwise_cons.1 h5).1 k1 (by simp)
      unfold Nest.combKids at h6
      obtain ⟨ls, hls, rfl⟩ := Option.map_eq_some_iff.1 h6
      obtain ⟨hl, hg⟩ := Nest.mapM_get hls
      obtain ⟨l0, l1, ls, rfl⟩ : ∃ l0 l1 ls', ls = l0 :: l1 :: ls' := by
        match ls, hl with
        | l0 :: l1 :: ls', _ => exact ⟨l0, l1, ls', rfl⟩
      have g0 := hg 0 (by simp) (by simp)
      have g1 := hg 1 (by simp) (by simp)
      simp only [List.getElem_cons_zero, List.getElem_cons_succ, List.getElem?_eq_getElem hk0, List.getElem?_eq_getElem hk1, Option.map_some, Option.some.injEq] at g0 g1
      have hI0 := (h1 _ (List.getElem_mem hk0)).2.2.2
      have hI1 := (h1 _ (List.getElem_mem hk1)).2.2.2
      have h01' : elems[k0].1 < elems[k1].1 := List.pairwise_iff_getElem.1 h2 k0 k1 hk0 hk1 h01
      rw [g0] at hI0
      rw [g1] at hI1
      rcases hI0 with ⟨ho, i, rfl, hi⟩ | ⟨-, i, rest, j, t, u, rfl, hi, hj, hu, htu⟩
      · rcases hI1 with ⟨-, j, rfl, hj⟩ | ⟨hne, -⟩
        · exact ⟨i, j :: ls.flatten, j, _, _, by simp, hi, by simp, hj, h01'⟩
        · exact absurd ho hne
      · exact ⟨i, rest ++ (l1 ++ ls.flatten), j, t, u, by simp, hi, by simp [hj], hu, htu⟩

theorem flatMap_drop {ι β : Type} (f : ι → List β) (m : ℕ) : ∀ (l : List ι) (j : ℕ), (∀ x ∈ l, (f x).length = m) → (l.flatMap f).drop (j * m) = (l.drop j).flatMap f
  | l, 0, _ => by simp
  | [], j + 1, _ => by simp
  | a :: l, j + 1, h => by
    rw [List.flatMap_cons, List.drop_succ_cons, ← flatMap_drop f m l j (fun x hx => h x (List.mem_cons_of_mem _ hx)), Nat.succ_mul, Nat.add_comm, ← List.drop_drop, List.drop_left' (h a List.mem_cons_self)]

theorem mem_block {ι β : Type} (f : ι → List β) (m q i : ℕ) (hq : 1 ≤ q) (l : List ι) (h : ∀ x ∈ l, (f x).length = m) (x : ι) (hx : l[i * q]? = some x) : ∀ y ∈ f x, y ∈ ((l.flatMap f).drop (i * (q * m))).take (q * m) := by
  intro y hy
  obtain ⟨hlt, he⟩ := List.getElem?_eq_some_iff.1 hx
  rw [← Nat.mul_assoc, flatMap_drop f m l (i * q) h, List.drop_eq_getElem_cons hlt, he, List.flatMap_cons]
  have hm : m ≤ q * m := Nat.le_mul_of_pos_left _ hq
  have : (f x).length = m := h x (by rw [← he]; exact List.getElem_mem hlt)
  rw [List.take_append, List.mem_append]
  left
  rw [List.take_of_length_le (by omega)]
  exact hy

theorem nestT_meas (T : PTree.Tree ℤ) : ∀ outer : List (ℤ × ℕ), leaves (Nest.nestT T outer) = leaves T ∧ inner (Nest.nestT T outer) = inner T + outer.length ∧ nbOccs (Nest.nestT T outer) = Nest.copies outer * nbOccs T
  | [] => ⟨rfl, rfl, by simp [Nest.nestT, Nest.copies, Nest.reps]⟩
  | (p, l) :: rest => by
    obtain ⟨h1, h2, h3⟩ := nestT_meas T rest
    refine ⟨?_, ?_, ?_⟩
    · simp only [Nest.nestT, leaves, leavesF, h1]; omega
    · simp only [Nest.nestT, inner, innerF, h2, List.length_cons]; omega
    · simp only [Nest.nestT, nbOccs, nbOccsF, h3, Nest.copies_cons, Nat.add_zero, Nat.mul_assoc]

theorem nestT_labels (T : PTree.Tree ℤ) (hT : AllT B.pr B.pd B.pa T) : ∀ outer : List (ℤ × ℕ), (∀ x ∈ outer, 3 ≤ x.2 ∧ x.2 ≤ B.D.card ∧ |x.1| ≤ B.R) → AllT B.pr B.pd B.pa (Nest.nestT T outer)
  | [], _ => hT
  | (p, l) :: rest, h => by
    obtain ⟨-, h2, h3⟩ := h (p, l) List.mem_cons_self
    exact ⟨⟨h2, h3⟩, by simp [Bounds.pd, B.pos], nestT_labels T hT rest (fun x hx => h x (List.mem_cons_of_mem _ hx)), trivial⟩

theorem length_repPairs {c : Cand ℤ} (h : Shape c) (i : ℕ) (hi : i < c.r) : (repPairs c i).length = nbOccsF c.ch := by
  rw [repPairs, List.length_zip, length_repEvents, h.rep i hi, Nat.min_self]

theorem repPairs_chunk {c : Cand ℤ} (h : Shape c) (i : ℕ) (hi : i < c.r) : repPairs c i = ((pairs c).drop (i * nbOccsF c.ch)).take (nbOccsF c.ch) := by
  rw [pairs_reps h]
  exact (flatMap_chunk _ _ c.r (fun j hj => length_repPairs h j hj) i hi).symm

theorem copies_pos {outer : List (ℤ × ℕ)} (h : ∀ x ∈ outer, 1 ≤ x.2) : 1 ≤ Nest.copies outer := by
  induction outer with
  | nil => simp [Nest.copies, Nest.reps]
  | cons x rest ih =>
    obtain ⟨p, l⟩ := x
    rw [Nest.copies_cons]
    exact Nat.mul_pos (h (p, l) List.mem_cons_self) (ih (fun y hy => h y (List.mem_cons_of_mem _ hy)))

theorem nest_bounded (cands : List (Cand ℤ)) (hB : ∀ c ∈ cands, BP B c) (F : Forest ℤ) (hF : ∀ c ∈ cands, c.ch = F) (env : Nest.Env) (h1 : Nest.EnvOk env) (h2 : EnvBounded env) (r : List (Cand ℤ) × Finset ℕ)
    (h : Nest.nestCmplx cands.length env cands = .ok r) : ∀ c ∈ r.1, BP B c := by
  intro c hc
  obtain ⟨k1, idxs, cs, -, k3, -, k5, k6, k7, k8, outer, T, t, k9, k10, k11, k12, i1, -, i3, i4⟩ :=
    nest_out cands (fun c hc => (hB c hc).1.data.1) F hF env h1 _ (kept_bounded B env h2 cands (fun c hc => (hB c hc).1)) _ rfl r h c hc
  obtain ⟨x0, xs, rfl⟩ := List.exists_cons_of_ne_nil k8
  have hx0 := hB x0 (k7 x0 List.mem_cons_self)
  have hx0T := k11 x0 List.mem_cons_self
  rcases nestT_root k10 with ⟨rfl, e⟩ | ⟨p, l, rest, rfl, e1, e2, e3⟩
  · -- a single candidate
    have hxs : xs = [] := by
      simp only [Nest.copies, List.map_nil, Nest.reps, List.length_cons, List.length_nil] at k12
      exact List.eq_nil_of_length_eq_zero (by omega)
    subst hxs
    rw [← hx0T, Cand.tree, Cand.tree, PTree.Tree.node.injEq] at e
    simp only [List.flatMap_cons, List.flatMap_nil, List.append_nil] at k5 k6
    obtain ⟨r, p, ch, O, E⟩ := c
    simp only at e k6
    obtain ⟨rfl, rfl, rfl⟩ := e
    subst k6
    refine ⟨⟨⟨k1, hx0.1.data.2.1, fun x hx => hx0.1.data.2.2 x (by rw [← k5]; exact hx)⟩, hx0.1.r, hx0.1.p, hx0.1.labels, fun i hi => hx0.1.leaves i hi⟩, hx0.2⟩
  · obtain ⟨m1, m2, m3⟩ := nestT_meas T rest
    have hx : ∀ x ∈ x0 :: xs, BP B x ∧ x.tree = T := fun x hx => ⟨hB x (k7 x hx), k11 x hx⟩
    have hl : leavesF c.ch = leavesF x0.ch := by
      rw [e3]
      rw [leavesF, m1, ← hx0T]
      simp only [Cand.tree, leaves, leavesF]
      omega
    have hi : ∀ x ∈ x0 :: xs, innerF c.ch = innerF x.ch + (rest.length + 1) := by
      intro x hx
      rw [e3]
      rw [innerF, m2, ← k11 x hx]
      simp only [Cand.tree, inner, innerF]
      omega
    have hnb : nbOccsF c.ch = Nest.copies rest * nbOccs T := by
      rw [e3]
      simp only [nbOccsF, m3]
      omega
    have hrest : ∀ x ∈ rest, 1 ≤ x.2 := fun x hx => k9 x (List.mem_cons_of_mem _ hx)
    have hi1 := i1 (p, l) List.mem_cons_self
    refine ⟨⟨⟨k1, by rw [e1]; exact hi1.1, ?_⟩, by rw [e1]; exact hi1.2.1, by rw [e2]; exact hi1.2.2, ?_, ?_⟩, ?_⟩
    · intro x hx'
      rw [k5] at hx'
      obtain ⟨y, hy, hx'⟩ := List.mem_flatMap.1 hx'
      exact (hx y hy).1.1.data.2.2 x hx'
    · rw [e3]
      refine ⟨by simp [Bounds.pd, B.pos], nestT_labels B T ?_ rest (fun x hx => i1 x (List.mem_cons_of_mem _ hx)), trivial⟩
      rw [← hx0T]
      exact ⟨⟨hx0.1.r, hx0.1.p⟩, hx0.1.labels⟩
    · intro i hi'
      rw [repPairs_chunk k1 i hi', hnb, k5, hl]
      have hlt : i * Nest.copies rest < (x0 :: xs).length := by
        rw [k12, Nest.copies_cons, ← e1]
        exact Nat.mul_lt_mul_of_pos_right hi' (copies_pos hrest)
      obtain ⟨y, hy⟩ : ∃ y, (x0 :: xs)[i * Nest.copies rest]? = some y := ⟨_, List.getElem?_eq_getElem hlt⟩
      have hym := List.mem_of_getElem? hy
      have hsub := mem_block pairs (nbOccs T) (Nest.copies rest) i (copies_pos hrest) (x0 :: xs) (by
        intro x hx'
        rw [length_pairs (hx x hx').1.1.data.1, (hx x hx').1.1.data.1.2.1, (hx x hx').2]) y hy
      have hyl : leavesF x0.ch = leavesF y.ch := by
        have := (hx y hym).2
        rw [← hx0T, Cand.tree, Cand.tree, PTree.Tree.node.injEq] at this
        rw [this.2.2]
      have hy0 : 0 < y.r := (hx y hym).1.1.data.1.parts.1
      rw [hyl]
      refine le_trans ((hx y hym).1.1.leaves 0 hy0) (Finset.card_le_card ?_)
      intro z hz
      rw [List.mem_toFinset] at hz ⊢
      exact hsub z (repPairs_sub (hx y hym).1.1.data.1 0 hy0 z hz)
    · intro t0 ht0
      -- a later candidate
      obtain ⟨x0h, hx0h⟩ := hx0.1.data.1.head
      have ht : c.O.head? = some x0h := by
        rw [k6, List.flatMap_cons, List.head?_append, hx0h]; rfl
      rw [ht] at ht0
      cases ht0
      rcases i4 with ⟨ho, -⟩ | ⟨-, i, rst, j, t', u, g1, g2, g3, g4, g5⟩
      · cases ho
      · simp only at g1
        subst g1
        obtain ⟨gl, gg⟩ := Nest.mapM_get k3
        have g0 := gg 0 (by simp) (by simp)
        simp only [List.getElem_cons_zero] at g0
        rw [startOf, g0, Option.bind_some, hx0h] at g2
        cases g2
        obtain ⟨n, hn, rfl⟩ := List.getElem_of_mem g3
        have g6 := gg (n + 1) (by simpa using hn) (by simp only [List.length_cons] at gl ⊢; omega)
        simp only [List.getElem_cons_succ] at g6
        have hxm : xs[n]'(by simp only [List.length_cons] at gl; omega) ∈ x0 :: xs := List.mem_cons_of_mem _ (List.getElem_mem _)
        rw [startOf, g6, Option.bind_some] at g4
        have hb := (hx _ hxm).1.2 u g4
        have hlt := B.later_lt ((hx _ hxm).1.1.time B (List.mem_of_mem_head? g4)) g5
        have hil := hi _ hxm
        have hll : leavesF c.ch = leavesF (xs[n]'(by simp only [List.length_cons] at gl; omega)).ch := by
          have := (hx _ hxm).2
          rw [← hx0T, Cand.tree, Cand.tree, PTree.Tree.node.injEq] at this
          rw [this.2.2, hl]
        have hlen : rest.length + 1 ≤ B.D.card := by
          have := B.later_le t
          simp only [List.length_cons] at i3
          omega
        have hmul := Nat.mul_le_mul_left B.D.card hlt
        rw [Nat.mul_add, Nat.mul_one] at hmul
        rw [hil, hll]
        omega

/-- What is bounded stays bounded. -/
theorem bounded_closed (W : World K) (h1 : ∀ l, Nest.EnvOk (W.env l)) (h2 : ∀ l, EnvBounded (W.env l)) (hcost : ∀ x ∈ B.D, (W.dcosts.lookup x.2).isSome) : Closed W (BP B) (BH B) (BP B) where
  shape := fun c h => h.1.data.1
  cost := fun c h x hx => hcost x (h.1.data.2.2 x hx)
  concat := concat_bounded B
  nest := by
    intro l F r hl h
    have hP : ∀ c ∈ l.map (fun c => c.cand.toCand), BP B c ∧ c.ch = F := by
      intro c hc
      obtain ⟨x, hx, rfl⟩ := List.mem_map.1 hc
      exact hl x hx
    exact nest_bounded B _ (fun c hc => (hP c hc).1) F (fun c hc => (hP c hc).2) (W.env l) (h1 l) (h2 l) r (by rw [List.length_map]; exact h)
  factShape := fun c h => h.1.data.1
  fact := fact_bounded B

end Verif.Complex
