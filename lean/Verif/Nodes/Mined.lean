import Verif.Nodes.FactFind
import Verif.Nodes.NestProps

/-!
# The dictionaries made while mining (C94, C95)
-/

set_option autoImplicit false
set_option linter.unusedSectionVars false

namespace Verif.Nodes

open Verif.PTree

variable {α : Type}

/-- The dictionary describes the tree, with the node 0 first. -/
def Good (d : NodeDict α) (T : PTree.Tree α) : Prop := ∃ t, Describes d t ∧ RootFirst d ∧ t.plain = some T

/-- What a good dictionary says to the functions that read it. -/
theorem Good.reads {d : NodeDict α} {T : PTree.Tree α} (h : Good d T) : ∃ f, ∀ n, f ≤ n → treeOf n d 0 = some T := by
  obtain ⟨t, h1, _, h2⟩ := h
  exact h1.reads h2

theorem Good.root {d : NodeDict α} {T : PTree.Tree α} (h : Good d T) : ∃ r p F, T = .node r p F ∧ (Source.pattern d).Has F := by
  obtain ⟨t, h1, h2, h3⟩ := h
  obtain ⟨rp, ch, e⟩ := h1.root
  subst e
  cases rp with
  | none => simp [NTree.plain] at h3
  | some rp =>
    simp only [NTree.plain, Option.map_eq_some_iff] at h3
    obtain ⟨F, hF, rfl⟩ := h3
    exact ⟨rp.1, rp.2, F, rfl, h2, some rp, ch, h1, hF⟩

/-- A candidate whose pattern has a good dictionary. -/
theorem Good.has {d : NodeDict α} {r : ℕ} {p : ℤ} {F : Forest α} (h : Good d (.node r p F)) : (Source.pattern d).Has F := by
  obtain ⟨r', p', F', e, h'⟩ := h.root
  simp only [PTree.Tree.node.injEq] at e
  exact e.2.2 ▸ h'

/-- The pattern made from a cycle. -/
theorem simpleTree_good (ev : α) (r : ℕ) (p : ℤ) : Good (simpleTree ev r p) (.node r p (.cons 0 (.leaf ev) .nil)) := by
  refine ⟨.node 0 (some (r, p)) (.cons 0 (.leaf 1 ev) .nil), ⟨by simp [simpleTree], by simp [NTree.ids, NForest.ids], ?_, _, _, rfl⟩, by simp [RootFirst, simpleTree], rfl⟩
  intro x
  simp [simpleTree, NTree.entries, NForest.entries, NForest.kids, NTree.id]

/-- C94: when the concatenation of candidates (C59) exists, the dictionary built for it describes its tree. -/
theorem concat_dict (cs : List (Source α × Concat.Cand α × ℕ)) (hs : ∀ x ∈ cs, x.1.Has x.2.1.ch) (p0 : ℤ) (r0 : ℕ) {c' : Concat.Cand α} (h : Concat.concat (cs.map Prod.snd) p0 r0 = some c') :
    ∃ d, concatTree (cs.map (fun x => (x.1, x.2.1.blocksO x.2.2))) p0 r0 = .ok d ∧ Good d c'.tree := by
  simp only [Concat.concat, Option.bind_eq_some_iff, Option.map_eq_some_iff] at h
  obtain ⟨ch, h1, rows, h2, e⟩ := h
  have e1 : ((cs.map Prod.snd).map (fun c => c.1.ch)).zip ((cs.map Prod.snd).map (fun c => c.1.blocksO c.2)) = (cs.map (fun x => (x.1, x.2.1.ch, x.2.1.blocksO x.2.2))).map Prod.snd := by
    simp only [List.map_map]
    rw [List.zip_map']
    rfl
  rw [e1] at h1
  rcases concatTree_spec (cs.map (fun x => (x.1, x.2.1.ch, x.2.1.blocksO x.2.2))) (by
    intro x hx
    obtain ⟨y, hy, rfl⟩ := List.mem_map.mp hx
    exact hs y hy) p0 r0 with ⟨h3, _⟩ | ⟨H, d, t, h3, h4, h5, h6, h7⟩
  · rw [h3] at h1; simp at h1
  · rw [h3, Option.some.injEq] at h1
    subst h1
    refine ⟨d, ?_, t, h5, h6, ?_⟩
    · rw [List.map_map] at h4; exact h4
    · rw [h7, ← e]; rfl

/-- C94: when the nesting of a candidate (C62) exists, the dictionary built for it describes its tree. -/
theorem nest_dict {s : Source α} {c : Concat.Cand α} (hs : s.Has c.ch) (prds : List ℤ) (lens : List ℕ) {y : ℕ × ℤ × Forest α} (h : Nest.nestTree c prds lens = some y) :
    ∃ d, nestDict s (Nest.cyclePs c.tree).length prds lens = .ok d ∧ Good d (.node y.1 y.2.1 y.2.2) := by
  have hdep : 1 ≤ (Nest.cyclePs c.tree).length := by simp [Concat.Cand.tree, Nest.cyclePs]
  simp only [Nest.nestTree] at h
  rcases nestDict_spec hs (Nest.cyclePs c.tree).length hdep prds lens with ⟨h1, _⟩ | ⟨y', d, t, h1, h2, h3, h4, h5⟩
  · rw [h1] at h; simp at h
  · rw [h1, Option.some.injEq] at h
    subst h
    exact ⟨d, h2, t, h3, h4, h5⟩

/-- C95: every node that the code finds can be factorised, and the dictionary then describes the factorised tree. -/
theorem factorize_dict {d : NodeDict α} {T : PTree.Tree α} (h : Good d T) :
    ∃ f l, (∀ n, f ≤ n → canFactorizeD n d 0 = some l) ∧ l.length = (canFactorize T).length ∧
      ∀ (i nid : ℕ) (k : List ℕ), l[i]? = some nid → (canFactorize T)[i]? = some k → ∃ d' T', factorizeTree d nid = .ok d' ∧ factorizeAt k T = some T' ∧ Good d' T' := by
  obtain ⟨t, h1, h2, h3⟩ := h
  obtain ⟨f, l, h4, h5⟩ := canFactorize_spec h1 h3
  refine ⟨f, l, h5, by simpa using congrArg List.length h4, ?_⟩
  intro i nid k hi hk
  have hkm := List.mem_of_getElem? hk
  obtain ⟨nid', d', t', T', h6, h7, h8, h9, h10, h11⟩ := factorizeTree_spec h1 h3 hkm
  have he : (l.map some)[i]? = ((canFactorize T).map t.idAt)[i]? := by rw [h4]
  rw [List.getElem?_map, List.getElem?_map, hi, hk] at he
  simp only [Option.map_some, Option.some.injEq] at he
  rw [h6, Option.some.injEq] at he
  subst he
  exact ⟨d', T', h7, h10, t', h8, h9 h2, h11⟩

theorem mapM_imp {β γ : Type} (f g : β → Option γ) : ∀ (L : List β) (m : List γ), (∀ x ∈ L, ∀ y, f x = some y → g x = some y) → L.mapM f = some m → L.mapM g = some m
  | [], m, _, h => h
  | x :: L, m, hi, h => by
    rw [List.mapM_cons] at h ⊢
    simp only [Option.bind_eq_bind, Option.bind_eq_some_iff, Option.pure_def, Option.some.injEq] at h ⊢
    obtain ⟨a, ha, m', hm', e⟩ := h
    exact ⟨a, hi x (by simp) a ha, m', mapM_imp f g L m' (fun z hz => hi z (by simp [hz])) hm', e⟩

theorem canFactorizeD_succ : ∀ (n : ℕ) (d : NodeDict α) (nid : ℕ) (l : List ℕ), canFactorizeD n d nid = some l → canFactorizeD (n + 1) d nid = some l := by
  intro n
  induction n with
  | zero => intro d nid l h; simp [canFactorizeD] at h
  | succ n ih =>
    intro d nid l h
    unfold canFactorizeD at h ⊢
    split at h
    · simp at h
    · exact h
    · simp only [Option.bind_eq_some_iff] at h ⊢
      obtain ⟨ls, h1, h2⟩ := h
      exact ⟨ls, mapM_imp _ _ _ _ (fun x _ y hy => ih d x.1 y hy) h1, h2⟩

theorem canFactorizeD_mono {n m : ℕ} (hnm : n ≤ m) {d : NodeDict α} {nid : ℕ} {l : List ℕ} (h : canFactorizeD n d nid = some l) : canFactorizeD m d nid = some l := by
  induction hnm with
  | refl => exact h
  | step _ ih => exact canFactorizeD_succ _ _ _ _ ih

/-- The patterns made while mining: from a cycle, by concatenation and nesting of cycles and of patterns made before, by factorisation. -/
inductive Mined : NodeDict α → Prop
  | simple (ev : α) (r : ℕ) (p : ℤ) : Mined (simpleTree ev r p)
  | concat (parts : List (Source α × List (List ℤ))) (p0 : ℤ) (r0 : ℕ) (d : NodeDict α) (h : ∀ x ∈ parts, ∀ d', x.1 = .pattern d' → Mined d') (hd : concatTree parts p0 r0 = .ok d) : Mined d
  | nest (s : Source α) (depth : ℕ) (hdep : 1 ≤ depth) (prds : List ℤ) (lens : List ℕ) (d : NodeDict α) (h : ∀ d', s = .pattern d' → Mined d') (hd : nestDict s depth prds lens = .ok d) : Mined d
  | factorize (d : NodeDict α) (n : ℕ) (l : List ℕ) (nid : ℕ) (d' : NodeDict α) (h : Mined d) (hl : canFactorizeD n d 0 = some l) (hn : nid ∈ l) (hd : factorizeTree d nid = .ok d') : Mined d'

/-- C94, C95: whatever the sequence of combinations and factorisations, node numbers never clash: every dictionary made describes a tree. -/
theorem mined_good {d : NodeDict α} (h : Mined d) : ∃ T, Good d T := by
  induction h with
  | simple ev r p => exact ⟨_, simpleTree_good ev r p⟩
  | concat parts p0 r0 d _ hd ih =>
    have hex : ∀ x ∈ parts, ∃ F, x.1.Has F := by
      intro x hx
      cases hs : x.1 with
      | simple ev => exact ⟨_, rfl⟩
      | pattern d' =>
        obtain ⟨T, hT⟩ := ih x hx d' hs
        obtain ⟨r, p, F, _, hF⟩ := hT.root
        exact ⟨F, hF⟩
    classical
    obtain ⟨φ, hφ⟩ : ∃ φ : Source α × List (List ℤ) → Forest α, ∀ x ∈ parts, x.1.Has (φ x) :=
      ⟨fun x => if hx : x ∈ parts then (hex x hx).choose else .nil, fun x hx => by simp only [dif_pos hx]; exact (hex x hx).choose_spec⟩
    have e : (parts.map (fun x => (x.1, φ x, x.2))).map (fun x => (x.1, x.2.2)) = parts := by
      rw [List.map_map]
      exact List.map_id'' (fun _ => rfl) parts
    rcases concatTree_spec (parts.map (fun x => (x.1, φ x, x.2))) (by
      intro y hy
      obtain ⟨x, hx, rfl⟩ := List.mem_map.mp hy
      exact hφ x hx) p0 r0 with ⟨_, er, h2⟩ | ⟨H, d1, t, _, h2, h3, h4, h5⟩
    · rw [e, hd] at h2; simp at h2
    · rw [e, hd, Except.ok.injEq] at h2
      subst h2
      exact ⟨_, t, h3, h4, h5⟩
  | nest s depth hdep prds lens d _ hd ih =>
    obtain ⟨F, hF⟩ : ∃ F, s.Has F := by
      cases s with
      | simple ev => exact ⟨_, rfl⟩
      | pattern d' =>
        obtain ⟨T, hT⟩ := ih d' rfl
        obtain ⟨r, p, F, _, hF⟩ := hT.root
        exact ⟨F, hF⟩
    rcases nestDict_spec hF depth hdep prds lens with ⟨_, er, h2⟩ | ⟨y, d1, t, _, h2, h3, h4, h5⟩
    · rw [hd] at h2; simp at h2
    · rw [hd, Except.ok.injEq] at h2
      subst h2
      exact ⟨_, t, h3, h4, h5⟩
  | factorize d n l nid d' _ hl hn hd ih =>
    obtain ⟨T, hT⟩ := ih
    obtain ⟨f, l', h1, h2, h3⟩ := factorize_dict hT
    have h4 := canFactorizeD_mono (Nat.le_add_right n f) hl
    rw [h1 (n + f) (by omega), Option.some.injEq] at h4
    subst h4
    obtain ⟨i, hi⟩ := List.getElem?_of_mem hn
    have hlt : i < (canFactorize T).length := by
      rw [← h2]
      exact (List.getElem?_eq_some_iff.mp hi).1
    obtain ⟨d1, T', h5, _, h6⟩ := h3 i nid _ hi (List.getElem?_eq_getElem hlt)
    rw [hd, Except.ok.injEq] at h5
    subst h5
    exact ⟨T', h6⟩

/-! ### Concrete cases -/

/-- Cycles of `a` and `b`, concatenated. -/
example : concatTree [(.simple 'a', [[0], [10]]), (.simple 'b', [[3], [13]])] 10 2 =
    .ok [(0, .inner none (some (2, 10)) [(1, 0), (2, 3)]), (1, .leaf (some 0) 'a'), (2, .leaf (some 0) 'b')] := rfl

/-- A pattern and a cycle, concatenated: the numbers of the pattern are those after 0. -/
example : concatTree [(.pattern [(0, .inner none (some (2, 10)) [(1, 0), (2, 3)]), (1, .leaf (some 0) 'a'), (2, .leaf (some 0) 'b')], [[0, 3], [10, 13]]), (.simple 'c', [[5], [15]])] 10 2 =
    .ok [(0, .inner none (some (2, 10)) [(1, 0), (2, 3), (3, 5)]), (2, .leaf (some 0) 'b'), (1, .leaf (some 0) 'a'), (3, .leaf (some 0) 'c')] := rfl

/-- Two levels around a pattern. -/
example : nestDict (.pattern [(0, .inner none (some (2, 10)) [(1, 0), (2, 3)]), (1, .leaf (some 0) 'a'), (2, .leaf (some 0) 'b')]) 1 [100, 10] [3, 2] =
    .ok [(0, .inner none (some (3, 100)) [(1, 0)]), (1, .inner (some 0) (some (2, 10)) [(2, 0), (3, 3)]), (3, .leaf (some 1) 'b'), (2, .leaf (some 1) 'a')] := rfl

/-- A tree that can be factorised at its root. -/
def exFactDict : NodeDict Char := [(0, .inner none (some (2, 100)) [(1, 0), (3, 5)]), (1, .inner (some 0) (some (3, 10)) [(2, 0)]), (2, .leaf (some 1) 'a'), (3, .inner (some 0) (some (3, 10)) [(4, 0)]), (4, .leaf (some 3) 'b')]

example : canFactorizeD 4 exFactDict 0 = some [0] := by decide +kernel
example : factorizeTree exFactDict 0 =
    .ok [(0, .inner none (some (2, 100)) [(1, 0)]), (1, .inner (some 0) (some (3, 10)) [(2, 0), (4, 5)]), (2, .leaf (some 1) 'a'), (4, .leaf (some 1) 'b')] := rfl

/-- C94: the order of the keys matters. `Pattern('a', r, p)` enters the node 0 last; in a concatenation the number of its leaf is then that of the new root, which is overwritten. -/
theorem concat_root_last (ev : α) (r : ℕ) (p : ℤ) (bo : List (List ℤ)) (p0 : ℤ) (r0 : ℕ) :
    (PatObj.cycle ev r p).Is (.node 0 (some (r, p)) (.cons 0 (.leaf 1 ev) .nil)) ∧
    ∃ d, concatTree [(.pattern (PatObj.cycle ev r p).nodes, bo)] p0 r0 = .ok d ∧ ∀ n, treeOf (n + 1) d 0 = some (.leaf ev) :=
  ⟨cycle_is ev r p, _, rfl, fun _ => rfl⟩

end Verif.Nodes
