import Verif.Complex.Pairs

/-!
# Factorisation, repetition by repetition

What factorising keeps besides the occurrences: the occurrences of each repetition of the root, the leaves, and bounds on the labels of the tree.
-/

set_option autoImplicit false
set_option linter.unusedSectionVars false

namespace Verif.Complex

open Verif.PTree Verif.Concat

variable {α β : Type}

/-! ### Labels and leaves -/

mutual
/-- All repetitions with their periods, all distances and all events of the tree are as given. -/
def AllT (pr : ℕ → ℤ → Prop) (pd : ℤ → Prop) (pa : α → Prop) : PTree.Tree α → Prop
  | .leaf a => pa a
  | .node r p ch => pr r p ∧ AllF pr pd pa ch
/-- The same for successive children. -/
def AllF (pr : ℕ → ℤ → Prop) (pd : ℤ → Prop) (pa : α → Prop) : Forest α → Prop
  | .nil => True
  | .cons d t rest => pd d ∧ AllT pr pd pa t ∧ AllF pr pd pa rest
end

mutual
/-- The number of leaves. -/
def leaves : PTree.Tree α → ℕ
  | .leaf _ => 1
  | .node _ _ ch => leavesF ch
/-- The sum over the children. -/
def leavesF : Forest α → ℕ
  | .nil => 0
  | .cons _ t rest => leaves t + leavesF rest
end

mutual
theorem allT_map (pr : ℕ → ℤ → Prop) (pd : ℤ → Prop) (pa : β → Prop) (f : α → β) : ∀ t : PTree.Tree α, AllT pr pd pa (mapT f t) ↔ AllT pr pd (fun a => pa (f a)) t
  | .leaf a => Iff.rfl
  | .node r p ch => by simp only [mapT, AllT, allF_map pr pd pa f ch]
theorem allF_map (pr : ℕ → ℤ → Prop) (pd : ℤ → Prop) (pa : β → Prop) (f : α → β) : ∀ ch : Forest α, AllF pr pd pa (mapF f ch) ↔ AllF pr pd (fun a => pa (f a)) ch
  | .nil => Iff.rfl
  | .cons d t rest => by simp only [mapF, AllF, allT_map pr pd pa f t, allF_map pr pd pa f rest]
end

mutual
theorem leaves_map (f : α → β) : ∀ t : PTree.Tree α, leaves (mapT f t) = leaves t
  | .leaf a => rfl
  | .node r p ch => by simp only [mapT, leaves, leavesF_map f ch]
theorem leavesF_map (f : α → β) : ∀ ch : Forest α, leavesF (mapF f ch) = leavesF ch
  | .nil => rfl
  | .cons d t rest => by simp only [mapF, leavesF, leaves_map f t, leavesF_map f rest]
end

/-- The second tree has as many leaves as the first, no more inner nodes, and no new labels but distances `0`. -/
def NoNew (t t' : PTree.Tree α) : Prop :=
  leaves t' = leaves t ∧ inner t' ≤ inner t ∧ ∀ (pr : ℕ → ℤ → Prop) (pd : ℤ → Prop) (pa : α → Prop), pd 0 → AllT pr pd pa t → AllT pr pd pa t'

theorem NoNew.trans {a b c : PTree.Tree α} (h : NoNew a b) (h' : NoNew b c) : NoNew a c :=
  ⟨h'.1.trans h.1, h'.2.1.trans h.2.1, fun pr pd pa h0 ha => h'.2.2 pr pd pa h0 (h.2.2 pr pd pa h0 ha)⟩

theorem grand_keeps (p : ℤ) (r : ℕ) : ∀ (ch nch : Forest α), sameCycle p r ch = true → grandChildren ch = some nch →
    leavesF nch = leavesF ch ∧ ∀ (pr : ℕ → ℤ → Prop) (pd : ℤ → Prop) (pa : α → Prop), AllF pr pd pa ch → AllF pr pd pa nch
  | .nil, nch, _, h => by
    simp only [grandChildren, Option.some.injEq] at h
    subst h; exact ⟨rfl, fun _ _ _ h => h⟩
  | .cons d t rest, nch, h, hg => by
    simp only [sameCycle] at h
    cases t with
    | leaf ev => simp [onlyChild] at h
    | node r' p' ch' =>
      cases ch' with
      | nil => simp [onlyChild] at h
      | cons d' g rest' =>
        cases rest' with
        | cons _ _ _ => simp [onlyChild] at h
        | nil =>
          simp only [onlyChild, Bool.and_eq_true, beq_iff_eq] at h
          obtain ⟨-, hs⟩ := h
          simp only [grandChildren] at hg
          cases hr : grandChildren rest with
          | none => rw [hr] at hg; cases hg
          | some nr =>
            rw [hr] at hg
            simp only [Option.some.injEq] at hg
            subst hg
            obtain ⟨h1, h2⟩ := grand_keeps p r rest nr hs hr
            refine ⟨by simp only [leavesF, leaves, h1]; omega, ?_⟩
            intro pr pd pa hA
            simp only [AllF, AllT] at hA ⊢
            exact ⟨hA.1, hA.2.1.2.2.1, h2 pr pd pa hA.2.2⟩

theorem here_keeps (t t' : PTree.Tree α) (h : canFactorizeHere t = true) (e : factorizeHere t = some t') : NoNew t t' := by
  refine ⟨?_, le_of_lt (here_inner t t' h e), ?_⟩
  all_goals
    cases t with
    | leaf ev => simp [canFactorizeHere] at h
    | node r p ch =>
      cases ch with
      | nil => simp [canFactorizeHere] at h
      | cons d t rest =>
        cases rest with
        | nil => simp [canFactorizeHere] at h
        | cons d2 t2 rest =>
          cases t with
          | leaf ev => simp [canFactorizeHere, onlyChild] at h
          | node r' p' ch' =>
            cases ch' with
            | nil => simp [canFactorizeHere, onlyChild] at h
            | cons d' g rest' =>
              cases rest' with
              | cons _ _ _ => simp [canFactorizeHere, onlyChild] at h
              | nil =>
                have hs : sameCycle p' r' (.cons d (.node r' p' (.cons d' g .nil)) (.cons d2 t2 rest)) = true := by
                  simp only [canFactorizeHere, onlyChild] at h
                  rw [sameCycle]
                  simp [onlyChild, h]
                simp only [factorizeHere] at e
                cases hg : grandChildren (.cons d (.node r' p' (.cons d' g .nil)) (.cons d2 t2 rest)) with
                | none => rw [hg] at e; cases e
                | some nch =>
                  rw [hg] at e
                  simp only [Option.map_some, Option.some.injEq] at e
                  subst e
                  obtain ⟨h1, h2⟩ := grand_keeps p' r' _ _ hs hg
                  first
                    | (rw [leaves, leaves, ← h1]
                       simp only [leavesF, leaves]
                       omega)
                    | (intro pr pd pa h0 hA
                       rw [AllT] at hA ⊢
                       have := h2 pr pd pa hA.2
                       refine ⟨hA.1, h0, ⟨?_, this⟩, trivial⟩
                       exact hA.2.2.1.1)

theorem modify_keeps (f : PTree.Tree α → Option (PTree.Tree α)) : ∀ (ch : Forest α) (c : ℕ) (t : PTree.Tree α) (ch' : Forest α), ch.get? c = some t → (∀ t', f t = some t' → NoNew t t') →
    ch.modify? c f = some ch' → leavesF ch' = leavesF ch ∧ innerF ch' ≤ innerF ch ∧ ∀ (pr : ℕ → ℤ → Prop) (pd : ℤ → Prop) (pa : α → Prop), pd 0 → AllF pr pd pa ch → AllF pr pd pa ch'
  | .nil, _, _, _, h, _, _ => by cases h
  | .cons d t rest, 0, t0, ch', h, hf, e => by
    simp only [Forest.get?, Option.some.injEq] at h
    subst h
    simp only [Forest.modify?, Option.map_eq_some_iff] at e
    obtain ⟨t', e1, rfl⟩ := e
    obtain ⟨h1, h2, h3⟩ := hf t' e1
    exact ⟨by simp only [leavesF, h1], by simp only [innerF]; omega, fun pr pd pa h0 hA => ⟨hA.1, h3 pr pd pa h0 hA.2.1, hA.2.2⟩⟩
  | .cons d t rest, c + 1, t0, ch', h, hf, e => by
    simp only [Forest.modify?, Option.map_eq_some_iff] at e
    obtain ⟨r', e1, rfl⟩ := e
    obtain ⟨h1, h2, h3⟩ := modify_keeps f rest c t0 r' h hf e1
    exact ⟨by simp only [leavesF, h1], by simp only [innerF]; omega, fun pr pd pa h0 hA => ⟨hA.1, hA.2.1, h3 pr pd pa h0 hA.2.2⟩⟩

theorem canHere_of_nil {t : PTree.Tree α} (h : [] ∈ canFactorize t) : canFactorizeHere t = true := by
  cases t with
  | leaf a => simp [canFactorize] at h
  | node r p ch =>
    simp only [canFactorize, List.mem_append] at h
    rcases h with h | h
    · obtain ⟨c, k', t, hk, -⟩ := canF_mem ch 0 [] h
      cases hk
    · by_contra hc
      rw [if_neg hc] at h
      cases h

theorem at_keeps : ∀ (k : List ℕ) (t t' : PTree.Tree α), k ∈ canFactorize t → factorizeAt k t = some t' → NoNew t t'
  | [], t, t', h, e => here_keeps t t' (canHere_of_nil h) e
  | c :: k, .leaf a, t', h, e => by simp [canFactorize] at h
  | c :: k, .node r p ch, t', h, e => by
    simp only [canFactorize, List.mem_append] at h
    have hm : c :: k ∈ canFactorizeF ch 0 := by
      rcases h with h | h
      · exact h
      · split at h
        · simp at h
        · cases h
    obtain ⟨c', k', t1, hk, h2, h3⟩ := canF_mem ch 0 _ hm
    simp only [List.cons.injEq, Nat.zero_add] at hk
    obtain ⟨rfl, rfl⟩ := hk
    simp only [factorizeAt, Option.map_eq_some_iff] at e
    obtain ⟨ch', e1, rfl⟩ := e
    obtain ⟨a1, a2, a3⟩ := modify_keeps (factorizeAt k) ch c t1 ch' h2 (fun t' ht' => at_keeps k t1 t' h3 ht') e1
    exact ⟨by simp only [leaves, a1], by simp only [inner]; omega, fun pr pd pa h0 hA => ⟨hA.1, a3 pr pd pa h0 hA.2⟩⟩

/-! ### One repetition of the root -/

/-- The repetitions and the period of the root play no role. -/
theorem at_root (k : List ℕ) (r r' : ℕ) (p p' : ℤ) (ch ch' : Forest α) (h : factorizeAt k (.node r p ch) = some (.node r p ch')) : factorizeAt k (.node r' p' ch) = some (.node r' p' ch') := by
  cases k with
  | nil =>
    simp only [factorizeAt] at h ⊢
    cases ch with
    | nil => simp [factorizeHere] at h
    | cons d t rest =>
      cases t with
      | leaf a => simp [factorizeHere] at h
      | node r1 p1 ch1 =>
        simp only [factorizeHere, Option.map_eq_some_iff] at h ⊢
        obtain ⟨n, h1, h2⟩ := h
        exact ⟨n, h1, by rw [PTree.Tree.node.injEq] at h2 ⊢; exact ⟨rfl, rfl, h2.2.2⟩⟩
  | cons c k =>
    simp only [factorizeAt, Option.map_eq_some_iff] at h ⊢
    obtain ⟨n, h1, h2⟩ := h
    exact ⟨n, h1, by rw [PTree.Tree.node.injEq] at h2 ⊢; exact ⟨rfl, rfl, h2.2.2⟩⟩

theorem can_root (r r' : ℕ) (p p' : ℤ) (ch : Forest α) : canFactorize (.node r p ch) = canFactorize (.node r' p' ch) := by
  have : canFactorizeHere (.node r p ch) = canFactorizeHere (.node r' p' ch) := by
    cases ch with
    | nil => rfl
    | cons d t rest =>
      cases rest with
      | nil => rfl
      | cons d2 t2 rest => rfl
  rw [canFactorize, canFactorize, this]

theorem at_genF (k : List ℕ) (r : ℕ) (p : ℤ) (ch ch' : Forest α) (hk : k ∈ canFactorize (.node r p ch)) (hr : (PTree.Tree.node r p ch).Regular) (h : factorizeAt k (.node r p ch) = some (.node r p ch'))
    (s : ℤ) : (genF ch' s).Perm (genF ch s) := by
  obtain ⟨T', e1, -, -, e4⟩ := factorize_preserves (.node 1 p ch) (by
    rw [Tree.Regular] at hr ⊢
    exact ⟨le_refl _, hr.2⟩) k (by rw [can_root 1 r p p]; exact hk)
  rw [at_root k r 1 p p ch ch' h, Option.some.injEq] at e1
  subst e1
  have := e4 s
  simpa [gen] using this

/-- What is the same in each repetition of two candidates with the same number of repetitions and the same period. -/
def SameReps (c f : Cand α) : Prop :=
  Shape f ∧ f.r = c.r ∧ f.p = c.p ∧ (∀ i < c.r, (repPairs f i).Perm (repPairs c i)) ∧ NoNew c.tree f.tree

theorem SameReps.trans {a b c : Cand α} (h : SameReps a b) (h' : SameReps b c) : SameReps a c :=
  ⟨h'.1, h'.2.1.trans h.2.1, h'.2.2.1.trans h.2.2.1, fun i hi => (h'.2.2.2.1 i (by rw [h.2.1]; exact hi)).trans (h.2.2.2.1 i hi), h.2.2.2.2.trans h'.2.2.2.2⟩

/-- The repetition `i` of a candidate whose occurrences are given by a function of what is generated. -/
theorem repPairs_val (c : Cand α) (val : ℤ × α → ℤ) (h : c.O = (gen c.tree 0).map val) (i : ℕ) (hi : i < c.r) :
    repPairs c i = (genF c.ch ((i : ℤ) * c.p)).map (fun x => (val x, x.2)) := by
  have hl : ∀ j < c.r, ((genF c.ch ((j : ℤ) * c.p)).map val).length = nbOccsF c.ch := by
    intro j _
    rw [List.length_map, length_genF]
  have hO : c.O = (List.range c.r).flatMap (fun j : ℕ => (genF c.ch ((j : ℤ) * c.p)).map val) := by
    rw [h, Cand.tree, gen, List.map_flatMap]
    simp
  have hrep : c.rep i = (genF c.ch ((i : ℤ) * c.p)).map val := by
    unfold Cand.rep
    rw [hO]
    exact flatMap_chunk _ _ c.r hl i hi
  rw [repPairs, hrep, Cand.repEvents, genF_events c.ch 0 ((i : ℤ) * c.p), List.zip_map']

variable [DecidableEq α]

theorem refactor_reps (c c' : Cand (ℕ × α)) (hs : Shape c) (k : List ℕ) (hk : k ∈ canFactorize c.tree) (h : refactor c.tree c.O k = some (some c')) : SameReps c c' := by
  obtain ⟨T', e1, e2, e3, e4⟩ := factorize_preserves c.tree hs.1 k hk
  obtain ⟨-, hroot⟩ := at_inner k c.tree T' hk e1
  obtain ⟨ch', rfl⟩ := hroot c.r c.p c.ch rfl
  have hsh : Shape c' := by
    rcases refactor_spec c hs k hk with h' | ⟨c'', h1, h2, -⟩
    · rw [h] at h'; cases h'
    · rw [h] at h1
      cases h1
      exact h2.shape
  unfold refactor at h
  rw [e1] at h
  simp only at h
  split at h
  · rename_i hn
    have hperm : (refs (.node c.r c.p ch')).Perm (refs c.tree) := by rw [refs_gen, refs_gen]; exact e4 0
    have hlen : c.O.length = (refs c.tree).length := by rw [refs_gen, length_gen]; exact hs.2.1
    obtain ⟨Q, q1, val, q2, q3⟩ := place_spec _ _ c.O hn hperm hlen
    rw [q1, Option.bind_some, Option.map_eq_some_iff] at h
    obtain ⟨E, -, h⟩ := h
    rw [Option.some.injEq] at h
    subst h
    refine ⟨hsh, rfl, rfl, ?_, at_keeps k c.tree _ hk e1⟩
    intro i hi
    rw [refs_gen] at q2 q3
    rw [repPairs_val c val q2 i hi, repPairs_val ⟨c.r, c.p, ch', Q, E⟩ val q3 i hi]
    exact (at_genF k c.r c.p c.ch ch' hk hs.1 e1 _).map _
  · cases h

theorem factorLoop_reps (next : Cand (ℕ × α) → Option (List (Cand (ℕ × α)))) (c : Cand (ℕ × α)) (hs : Shape c)
    (hn : ∀ c' l, Shape c' → next c' = some l → ∀ f ∈ l, SameReps c' f) :
    ∀ (ks : List (List ℕ)) (fs : List (Cand (ℕ × α))), (∀ k ∈ ks, k ∈ canFactorize c.tree) → factorLoop next c.tree c.O ks = some fs → ∀ f ∈ fs, SameReps c f
  | [], fs, _, h, f, hf => by
    simp only [factorLoop, Option.some.injEq] at h
    subst h
    cases hf
  | k :: ks, fs, hks, h, f, hf => by
    rw [factorLoop] at h
    cases hr : refactor c.tree c.O k with
    | none => rw [hr] at h; cases h
    | some o =>
      rw [hr] at h
      cases o with
      | none =>
        simp only [Option.some.injEq] at h
        subst h
        cases hf
      | some c' =>
        simp only at h
        have hc' := refactor_reps c c' hs k (hks k List.mem_cons_self) hr
        cases hl : next c' with
        | none => rw [hl] at h; cases h
        | some l =>
          cases hm : factorLoop next c.tree c.O ks with
          | none => rw [hl, hm] at h; cases h
          | some m =>
            rw [hl, hm] at h
            simp only [Option.some.injEq] at h
            subst h
            rw [List.mem_cons, List.mem_append] at hf
            rcases hf with rfl | hf | hf
            · exact hc'
            · exact hc'.trans (hn c' l hc'.1 hl f hf)
            · exact factorLoop_reps next c hs hn ks m (fun k hk => hks k (List.mem_cons_of_mem _ hk)) hm f hf

theorem factorAll_reps : ∀ (n : ℕ) (c : Cand (ℕ × α)) (fs : List (Cand (ℕ × α))), Shape c → factorAll n c = some fs → ∀ f ∈ fs, SameReps c f
  | 0, c, fs, _, h, f, hf => by cases h
  | n + 1, c, fs, hs, h, f, hf => factorLoop_reps (factorAll n) c hs (fun c' l h1 h2 => factorAll_reps n c' l h1 h2) _ fs (fun _ hk => hk) h f hf

/-- Factorised candidates have the same occurrences in each repetition of the root, as many leaves, no more inner nodes and no new labels. -/
theorem factorize_reps (c : Cand α) (hs : Shape c) (fuel : ℕ) (fs : List (Cand α)) (h : factorizePattern fuel c = some fs) : ∀ f ∈ fs, SameReps c f := by
  obtain ⟨c1, hc1⟩ : ∃ c1 : Cand (ℕ × α), c1 = ⟨c.r, c.p, (labelF c.ch 0).1, c.O, c.E⟩ := ⟨_, rfl⟩
  have hm : mapC Prod.snd c1 = c := by
    rw [hc1, mapC, labelF_erase]
  have hs1 : Shape c1 := by rw [← shape_mapC Prod.snd, hm]; exact hs
  unfold factorizePattern at h
  rw [← hc1, Option.map_eq_some_iff] at h
  obtain ⟨fs1, h1, rfl⟩ := h
  intro f hf
  obtain ⟨f1, hf1, rfl⟩ := List.mem_map.1 hf
  obtain ⟨g1, g2, g3, g4, g5, g6, g7⟩ := factorAll_reps fuel c1 fs1 hs1 h1 f1 hf1
  have hrp : ∀ (c : Cand (ℕ × α)) (i : ℕ), repPairs (mapC Prod.snd c) i = (repPairs c i).map (fun x => (x.1, x.2.2)) := by
    intro c i
    unfold repPairs Cand.rep Cand.repEvents mapC
    simp only
    rw [genF_map, nbF_map, List.map_map]
    have : ((genF c.ch 0).map (Prod.snd ∘ fun x : ℤ × (ℕ × α) => (x.1, Prod.snd x.2))) = ((genF c.ch 0).map Prod.snd).map Prod.snd := by
      rw [List.map_map]; rfl
    rw [this, List.zip_map_right]
    rfl
  rw [← hm]
  refine ⟨(shape_mapC _ _).2 g1, g2, g3, ?_, ?_⟩
  · intro i hi
    rw [hrp, hrp]
    exact (g4 i hi).map _
  · rw [tree_mapC, tree_mapC]
    refine ⟨by rw [leaves_map, leaves_map]; exact g5, by rw [inner_map, inner_map]; exact g6, ?_⟩
    intro pr pd pa h0 hA
    rw [allT_map] at hA ⊢
    exact g7 pr pd _ h0 hA

end Verif.Complex
