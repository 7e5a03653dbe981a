import Verif.Kinds.Model
import Verif.PTree.Spec
import Verif.PTree.Fact
import Verif.Concat.Lemmas
import Mathlib.Data.List.Sort
import Mathlib.Algebra.BigOperators.Group.List.Basic

/-!
# Kinds of patterns (C76)
-/

set_option autoImplicit false
set_option linter.unusedSectionVars false

namespace Verif.Kinds

open Verif.PTree

variable {α : Type}

/-! ### Specification -/

/- A chain of `n` cycles over one event: each cycle contains only the next one. -/
/-- `n` cycles inside each other around the event `a`. -/
def IsChain (a : α) : ℕ → PTree.Tree α → Prop
  | 0, t => t = .leaf a
  | n + 1, t => ∃ r p d t', t = .node r p (.cons d t' .nil) ∧ IsChain a n t'

/-- All the children are events. -/
def AllLeaves : Forest α → Prop
  | .nil => True
  | .cons _ (.leaf _) rest => AllLeaves rest
  | .cons _ (.node _ _ _) _ => False

/-- Number of children. -/
def size : Forest α → ℕ
  | .nil => 0
  | .cons _ _ rest => size rest + 1

/-- The kinds as described in the documentation of `getTypeStr`, `isNested` and `isConcat`. -/
def HasKind (t : PTree.Tree α) : Kind → Prop
  | .simple => ∃ a, IsChain a 1 t
  | .nested => ∃ a n, 2 ≤ n ∧ IsChain a n t
  | .concat => ∃ r p ch, t = .node r p ch ∧ AllLeaves ch ∧ 2 ≤ size ch
  | .other => (∀ a n, ¬ IsChain a (n + 1) t) ∧ ∀ r p ch, t = .node r p ch → ¬ (AllLeaves ch ∧ 2 ≤ size ch)

/-! ### Lemmas -/

mutual
theorem width_pos : ∀ t : PTree.Tree α, t.Regular → 1 ≤ width t
  | .leaf _, _ => le_refl _
  | .node r p ch, h => by
    simp only [Tree.Regular] at h
    rw [width]
    exact widthF_pos ch h.2.2.2 h.2.1
theorem widthF_pos : ∀ ch : Forest α, ch.Regular → ch.NonEmpty → 1 ≤ widthF ch
  | .nil, _, h => absurd h (by simp [Forest.NonEmpty])
  | .cons d t rest, h, _ => by
    rw [widthF]
    have := width_pos t h.1
    omega
end

mutual
theorem depth_ex : ∀ t : PTree.Tree α, t.Regular → ∃ d, depth t = some d
  | .leaf _, _ => ⟨0, rfl⟩
  | .node r p ch, h => by
    simp only [Tree.Regular] at h
    obtain ⟨d, hd⟩ := depthF_ex ch h.2.2.2 h.2.1
    exact ⟨1 + d, by rw [depth, hd]; rfl⟩
theorem depthF_ex : ∀ ch : Forest α, ch.Regular → ch.NonEmpty → ∃ d, depthF ch = some d
  | .nil, _, h => absurd h (by simp [Forest.NonEmpty])
  | .cons d t .nil, h, _ => by
    obtain ⟨x, hx⟩ := depth_ex t h.1
    exact ⟨x, by rw [depthF, hx]⟩
  | .cons d t (.cons d' t' rest), h, _ => by
    obtain ⟨x, hx⟩ := depth_ex t h.1
    obtain ⟨y, hy⟩ := depthF_ex (.cons d' t' rest) h.2 trivial
    exact ⟨max x y, by rw [depthF, hx, hy]⟩
end

theorem chain_depth (a : α) : ∀ (n : ℕ) (t : PTree.Tree α), IsChain a n t → depth t = some n ∧ width t = 1
  | 0, t, h => by simp only [IsChain] at h; rw [h]; exact ⟨rfl, rfl⟩
  | n + 1, t, h => by
    obtain ⟨r, p, d, t', rfl, h'⟩ := h
    obtain ⟨h1, h2⟩ := chain_depth a n t' h'
    refine ⟨?_, by simp [width, widthF, h2]⟩
    rw [depth, depthF, h1]
    simp [Nat.add_comm]

theorem widthF_cons_gt (d : ℤ) (t : PTree.Tree α) (rest : Forest α) (h : (Forest.cons d t rest).Regular) (hn : rest ≠ .nil) : 2 ≤ widthF (.cons d t rest) := by
  rw [widthF]
  have h1 := width_pos t h.1
  have h2 := widthF_pos rest h.2 (by cases rest with
    | nil => exact absurd rfl hn
    | cons _ _ _ => trivial)
  omega

theorem chain_of_width : ∀ (t : PTree.Tree α), t.Regular → width t = 1 → ∃ a n, IsChain a n t
  | .leaf a, _, _ => ⟨a, 0, rfl⟩
  | .node r p (.cons d t .nil), h, hw => by
    simp only [Tree.Regular, Forest.Regular] at h
    obtain ⟨a, n, ha⟩ := chain_of_width t h.2.2.2.1 (by simpa [width, widthF] using hw)
    exact ⟨a, n + 1, r, p, d, t, rfl, ha⟩
  | .node r p (.cons d t (.cons d' t' rest)), h, hw => by
    exfalso
    simp only [Tree.Regular] at h
    have := widthF_cons_gt d t (.cons d' t' rest) h.2.2.2 (by simp)
    rw [width] at hw
    omega
  | .node r p .nil, h, _ => by simp [Tree.Regular, Forest.NonEmpty] at h

/-- C76: the cycles of a chain have as many repetitions as `getRVals` lists, from the outside in; their product is the number of occurrences. -/
theorem rVals_chain (a : α) : ∀ (n : ℕ) (t : PTree.Tree α), IsChain a n t → (rVals t).length = n ∧ (rVals t).prod = cardO t
  | 0, t, h => by
    have h : t = .leaf a := h
    subst h
    exact ⟨rfl, rfl⟩
  | n + 1, t, h => by
    obtain ⟨r, p, d, t', rfl, h'⟩ := h
    obtain ⟨h1, h2⟩ := rVals_chain a n t' h'
    simp [rVals, rValsF, cardO, cardOF, h1, h2]


theorem depth_zero (t : PTree.Tree α) (h : depth t = some 0) : ∃ a, t = .leaf a := by
  cases t with
  | leaf a => exact ⟨a, rfl⟩
  | node r p ch =>
    rw [depth] at h
    cases hd : depthF ch with
    | none => simp [hd] at h
    | some m => rw [hd] at h; simp at h

theorem depthF_zero : ∀ (ch : Forest α), depthF ch = some 0 → AllLeaves ch
  | .nil, h => by simp [depthF] at h
  | .cons d t .nil, h => by
    rw [depthF] at h
    obtain ⟨a, rfl⟩ := depth_zero t h
    trivial
  | .cons d t (.cons d' t' rest), h => by
    rw [depthF] at h
    cases h1 : depth t with
    | none => simp [h1] at h
    | some x =>
      cases h2 : depthF (.cons d' t' rest) with
      | none => simp [h1, h2] at h
      | some y =>
        simp only [h1, h2, Option.some.injEq] at h
        have hx : x = 0 := by omega
        have hy : y = 0 := by omega
        rw [hx] at h1
        rw [hy] at h2
        obtain ⟨a, rfl⟩ := depth_zero t h1
        exact (depthF_zero (.cons d' t' rest) h2 : AllLeaves (.cons d' t' rest))

theorem leaves_depth : ∀ (ch : Forest α), AllLeaves ch → ch.NonEmpty → depthF ch = some 0 ∧ widthF ch = size ch
  | .nil, _, h => absurd h (by simp [Forest.NonEmpty])
  | .cons d (.leaf a) .nil, _, _ => ⟨rfl, rfl⟩
  | .cons d (.leaf a) (.cons d' t' rest), h, _ => by
    obtain ⟨h1, h2⟩ := leaves_depth (.cons d' t' rest) h trivial
    refine ⟨by rw [depthF, h1]; rfl, ?_⟩
    rw [widthF, h2]
    simp [width, size, Nat.add_comm]
  | .cons d (.node r p ch) rest, h, _ => absurd h (by simp [AllLeaves])

theorem leaves_width : ∀ (ch : Forest α), AllLeaves ch → widthF ch = size ch
  | .nil, _ => rfl
  | .cons _ _ _, h => (leaves_depth _ h trivial).2

/-! ### Kinds -/

/-- C76. The kind given to a pattern is the one its shape has: one cycle over one event, cycles inside each other over one event, one cycle over several events, or anything else. -/
theorem kind_correct (r : ℕ) (p : ℤ) (ch : Forest α) (h : (PTree.Tree.node r p ch).Regular) (k : Kind) : typeStr (.node r p ch) = some k ↔ HasKind (.node r p ch) k := by
  obtain ⟨d, hd⟩ := depth_ex _ h
  have hw := width_pos _ h
  have hd0 : d ≠ 0 := by
    rintro rfl
    obtain ⟨a, ha⟩ := depth_zero _ hd
    cases ha
  have hty : typeStr (PTree.Tree.node r p ch) = some (if d = 1 ∧ width (PTree.Tree.node r p ch) = 1 then .simple else if width (PTree.Tree.node r p ch) = 1 then .nested
      else if d = 1 then .concat else .other) := by
    unfold typeStr isSimpleCycle isNested isConcat
    rw [hd]
    obtain ⟨w, hwd⟩ : ∃ w, w = width (PTree.Tree.node r p ch) := ⟨_, rfl⟩
    rw [← hwd] at hw ⊢
    simp only [Option.map_some]
    by_cases h1 : d = 1 <;> by_cases h2 : w = 1
    · simp [h1, h2]
    · have e1 : (d == 1 && w == 1) = false := by simp [h2]
      have e2 : (decide (1 < d) && w == 1) = false := by simp [h2]
      have e3 : (d == 1 && decide (1 < w)) = true := by simp [h1]; omega
      rw [e1, e2, e3, if_neg (by omega), if_neg h2, if_pos h1]
    · have e1 : (d == 1 && w == 1) = false := by simp [h1]
      have e2 : (decide (1 < d) && w == 1) = true := by simp [h2]; omega
      rw [e1, e2, if_neg (by omega), if_pos h2]
    · have e1 : (d == 1 && w == 1) = false := by simp [h1]
      have e2 : (decide (1 < d) && w == 1) = false := by simp [h2]
      have e3 : (d == 1 && decide (1 < w)) = false := by simp [h1]
      rw [e1, e2, e3, if_neg (by omega), if_neg h2, if_neg h1]
  have hleaf : d = 1 → AllLeaves ch := by
    intro h1
    apply depthF_zero
    rw [depth] at hd
    cases hdf : depthF ch with
    | none => simp [hdf] at hd
    | some m =>
      rw [hdf] at hd
      simp only [Option.map_some, Option.some.injEq] at hd
      have : m = 0 := by omega
      rw [this]
  have hsize : AllLeaves ch → width (PTree.Tree.node r p ch) = size ch := by
    intro hl; rw [width]; exact leaves_width ch hl
  have hdl : AllLeaves ch → d = 1 := by
    intro hl
    obtain ⟨h1, -⟩ := leaves_depth ch hl h.2.1
    rw [depth, h1] at hd
    simpa using hd.symm
  rw [hty, Option.some.injEq]
  cases k with
  | simple =>
    simp only [HasKind]
    constructor
    · intro hk
      split at hk
      · rename_i hh
        obtain ⟨a, n, hc⟩ := chain_of_width _ h hh.2
        have := (chain_depth a n _ hc).1
        rw [hd] at this
        simp only [Option.some.injEq] at this
        have hn : n = 1 := by omega
        subst hn
        exact ⟨a, hc⟩
      · split at hk
        · cases hk
        · split at hk <;> cases hk
    · rintro ⟨a, hc⟩
      obtain ⟨h1, h2⟩ := chain_depth a 1 _ hc
      rw [hd] at h1
      rw [if_pos ⟨by simpa using h1, h2⟩]
  | nested =>
    simp only [HasKind]
    constructor
    · intro hk
      split at hk
      · cases hk
      · split at hk
        · rename_i hh hh'
          obtain ⟨a, n, hc⟩ := chain_of_width _ h hh'
          have := (chain_depth a n _ hc).1
          rw [hd] at this
          simp only [Option.some.injEq] at this
          refine ⟨a, n, ?_, hc⟩
          have : d ≠ 1 := fun h => hh ⟨h, hh'⟩
          omega
        · split at hk <;> cases hk
    · rintro ⟨a, n, hn, hc⟩
      obtain ⟨h1, h2⟩ := chain_depth a n _ hc
      rw [hd, Option.some.injEq] at h1
      rw [if_neg (by omega), if_pos h2]
  | concat =>
    simp only [HasKind]
    constructor
    · intro hk
      split at hk
      · cases hk
      · split at hk
        · cases hk
        · split at hk
          · rename_i hw1 hd1
            refine ⟨r, p, ch, rfl, hleaf hd1, ?_⟩
            rw [← hsize (hleaf hd1)]
            omega
          · cases hk
    · rintro ⟨r', p', ch', he, hl, hs⟩
      cases he
      have h1 := hsize hl
      have h2 := hdl hl
      rw [if_neg (by omega), if_neg (by omega), if_pos h2]
  | other =>
    simp only [HasKind]
    constructor
    · intro hk
      split at hk
      · cases hk
      · split at hk
        · cases hk
        · split at hk
          · cases hk
          · rename_i hw1 hd1
            refine ⟨?_, ?_⟩
            · intro a n hc
              exact hw1 (chain_depth a _ _ hc).2
            · rintro r' p' ch' he ⟨hl, -⟩
              cases he
              exact hd1 (hdl hl)
    · rintro ⟨h1, h2⟩
      have hw1 : width (PTree.Tree.node r p ch) ≠ 1 := by
        intro hw1
        obtain ⟨a, n, hc⟩ := chain_of_width _ h hw1
        cases n with
        | zero => cases hc
        | succ n => exact h1 a n hc
      have hd1 : d ≠ 1 := by
        intro hd1
        refine h2 r p ch rfl ⟨hleaf hd1, ?_⟩
        rw [← hsize (hleaf hd1)]
        omega
      rw [if_neg (by omega), if_neg hw1, if_neg hd1]

/-- C76. Each pattern of at least one cycle has exactly one kind. -/
theorem kind_unique (r : ℕ) (p : ℤ) (ch : Forest α) (h : (PTree.Tree.node r p ch).Regular) : ∃! k, HasKind (PTree.Tree.node r p ch) k := by
  obtain ⟨k, hk⟩ : ∃ k, typeStr (PTree.Tree.node r p ch) = some k := by
    obtain ⟨d, hd⟩ := depth_ex _ h
    unfold typeStr isSimpleCycle isNested isConcat
    rw [hd]
    simp only [Option.map_some]
    repeat' split
    all_goals first | exact ⟨_, rfl⟩ | (exfalso; simp_all)
  refine ⟨k, (kind_correct r p ch h k).1 hk, fun k' hk' => ?_⟩
  have := (kind_correct r p ch h k').2 hk'
  rw [hk] at this
  exact (Option.some.inj this).symm

/-! ### Counts by kind -/

theorem bump_lookup (k k' : Kind) : ∀ l : List (Kind × ℕ), ((bump k l).lookup k').getD 0 = (l.lookup k').getD 0 + (if k' = k then 1 else 0)
  | [] => by
    by_cases h : k' = k
    · subst h; simp [bump]
    · simp [bump, h, List.lookup, beq_eq_false_iff_ne.2 h]
  | (k0, n) :: rest => by
    simp only [bump]
    by_cases h : k0 = k
    · subst h
      simp only [if_true]
      by_cases h' : k' = k0
      · subst h'; simp
      · simp [List.lookup, beq_eq_false_iff_ne.2 h', h']
    · simp only [if_neg h]
      by_cases h' : k' = k0
      · subst h'
        simp [List.lookup, h]
      · simp only [List.lookup, beq_eq_false_iff_ne.2 h']
        exact bump_lookup k k' rest

theorem bump_sum (k : Kind) : ∀ l : List (Kind × ℕ), ((bump k l).map Prod.snd).sum = (l.map Prod.snd).sum + 1
  | [] => rfl
  | (k0, n) :: rest => by
    simp only [bump]
    split
    · simp; omega
    · simp [bump_sum k rest]; omega

theorem bump_pos (k : Kind) : ∀ l : List (Kind × ℕ), (∀ x ∈ l, 1 ≤ x.2) → ∀ x ∈ bump k l, 1 ≤ x.2
  | [], _, x, hx => by simp only [bump, List.mem_singleton] at hx; rw [hx]
  | (k0, n) :: rest, h, x, hx => by
    simp only [bump] at hx
    split at hx
    · rcases List.mem_cons.1 hx with rfl | hx
      · exact Nat.le_add_left _ _
      · exact h x (List.mem_cons_of_mem _ hx)
    · rcases List.mem_cons.1 hx with rfl | hx
      · exact h _ List.mem_cons_self
      · exact bump_pos k rest (fun y hy => h y (List.mem_cons_of_mem _ hy)) x hx

theorem bump_keys (k : Kind) : ∀ l : List (Kind × ℕ), (l.map Prod.fst).Nodup → ((bump k l).map Prod.fst).Nodup ∧ ∀ x, x ∈ (bump k l).map Prod.fst ↔ x = k ∨ x ∈ l.map Prod.fst
  | [], _ => by simp [bump]
  | (k0, n) :: rest, h => by
    simp only [List.map_cons, List.nodup_cons] at h
    simp only [bump]
    split
    · rename_i hk
      subst hk
      refine ⟨by simpa using h, fun x => ?_⟩
      simp
    · rename_i hk
      obtain ⟨h1, h2⟩ := bump_keys k rest h.2
      refine ⟨?_, fun x => ?_⟩
      · simp only [List.map_cons, List.nodup_cons]
        refine ⟨fun hm => ?_, h1⟩
        rcases (h2 k0).1 hm with h3 | h3
        · exact hk h3
        · exact h.1 h3
      · simp only [List.map_cons, List.mem_cons, h2 x]
        tauto

theorem nbByType_spec (ts : List (PTree.Tree α)) (hts : ∀ t ∈ ts, ∃ k, typeStr t = some k) : ∀ nbs : List (Kind × ℕ), (nbs.map Prod.fst).Nodup → (∀ x ∈ nbs, 1 ≤ x.2) →
    ∃ out, ts.foldlM (fun nbs t => (typeStr t).map (fun k => bump k nbs)) nbs = some out ∧ (out.map Prod.fst).Nodup ∧ (∀ x ∈ out, 1 ≤ x.2) ∧
      (out.map Prod.snd).sum = (nbs.map Prod.snd).sum + ts.length ∧ ∀ k, (out.lookup k).getD 0 = (nbs.lookup k).getD 0 + ts.countP (fun t => typeStr t == some k) := by
  induction ts with
  | nil => intro nbs h1 h2; exact ⟨nbs, rfl, h1, h2, by simp, by simp⟩
  | cons t ts ih =>
    intro nbs h1 h2
    obtain ⟨k0, hk0⟩ := hts t List.mem_cons_self
    obtain ⟨out, o1, o2, o3, o4, o5⟩ := ih (fun t ht => hts t (List.mem_cons_of_mem _ ht)) (bump k0 nbs) (bump_keys k0 nbs h1).1 (bump_pos k0 nbs h2)
    refine ⟨out, by simp [List.foldlM_cons, hk0, o1], o2, o3, ?_, fun k => ?_⟩
    · rw [o4, bump_sum]; simp; omega
    · rw [o5, bump_lookup, List.countP_cons, hk0]
      by_cases h : k = k0
      · subst h; simp; omega
      · have : (some k0 == some k) = false := beq_eq_false_iff_ne.2 (fun hh => h (Option.some.inj hh).symm)
        simp [h, this]

/-- C76. The report by kind counts each pattern once: it succeeds, its entry for a kind is the number of patterns of this shape (no entry for none), and the entries, in any order, add up to the number of patterns. -/
theorem report_counts (ts : List (PTree.Tree α)) (hts : ∀ t ∈ ts, ∃ r p ch, t = .node r p ch ∧ t.Regular) :
    ∃ nbs, nbByType ts = some nbs ∧ (nbs.map Prod.fst).Nodup ∧ ((reportOrder nbs).map Prod.snd).sum = ts.length ∧ (reportOrder nbs).Perm nbs ∧
      (reportOrder nbs).Pairwise (fun a b => b.2 ≤ a.2) ∧
      ∀ k n, (k, n) ∈ nbs ↔ 1 ≤ n ∧ ∃ sub : List (PTree.Tree α), sub.Sublist ts ∧ sub.length = n ∧ (∀ t ∈ sub, HasKind t k) ∧ ∀ s : List (PTree.Tree α), s.Sublist ts → (∀ t ∈ s, HasKind t k) → s.length ≤ n := by
  have hk : ∀ t ∈ ts, ∃ k, typeStr t = some k := by
    intro t ht
    obtain ⟨r, p, ch, rfl, hr⟩ := hts t ht
    obtain ⟨k, hk, -⟩ := kind_unique r p ch hr
    exact ⟨k, (kind_correct r p ch hr k).2 hk⟩
  obtain ⟨nbs, h1, h2, h3, h4, h5⟩ := nbByType_spec ts hk [] (by simp) (by simp)
  have hperm : (reportOrder nbs).Perm nbs := List.perm_insertionSort _ _
  refine ⟨nbs, h1, h2, ?_, hperm, ?_, fun k n => ?_⟩
  · rw [(hperm.map Prod.snd).sum_eq, h4]; simp
  · have : Std.Total (fun a b : Kind × ℕ => b.2 ≤ a.2) := ⟨fun a b => le_total _ _⟩
    have : IsTrans (Kind × ℕ) (fun a b => b.2 ≤ a.2) := ⟨fun a b c hab hbc => le_trans hbc hab⟩
    exact List.pairwise_insertionSort _ _
  · have hc : ∀ t ∈ ts, (typeStr t == some k) = true ↔ HasKind t k := by
      intro t ht
      obtain ⟨r, p, ch, rfl, hr⟩ := hts t ht
      rw [beq_iff_eq]
      exact kind_correct r p ch hr k
    have hcount := h5 k
    simp only [List.lookup_nil, Option.getD_none, Nat.zero_add] at hcount
    have hmem : (k, n) ∈ nbs ↔ nbs.lookup k = some n := by
      constructor
      · intro hm
        clear h1 h3 h4 h5 hcount hperm
        induction nbs with
        | nil => simp at hm
        | cons x l ih =>
          simp only [List.map_cons, List.nodup_cons] at h2
          rcases List.mem_cons.1 hm with rfl | hm
          · simp [List.lookup]
          · have : k ≠ x.1 := by
              rintro rfl
              exact h2.1 (List.mem_map.2 ⟨_, hm, rfl⟩)
            simp only [List.lookup, beq_eq_false_iff_ne.2 this]
            exact ih h2.2 hm
      · intro hl
        clear h1 h2 h3 h4 h5 hcount hperm
        induction nbs with
        | nil => simp at hl
        | cons x l ih =>
          obtain ⟨k0, n0⟩ := x
          by_cases h : k = k0
          · subst h
            simp only [List.lookup, beq_self_eq_true, Option.some.injEq] at hl
            rw [hl]; exact List.mem_cons_self
          · simp only [List.lookup, beq_eq_false_iff_ne.2 h] at hl
            exact List.mem_cons_of_mem _ (ih hl)
    have hmax : ∀ s : List (PTree.Tree α), s.Sublist ts → (∀ t ∈ s, HasKind t k) → s.length ≤ ts.countP (fun t => typeStr t == some k) := by
      intro s hs hsk
      have e : s.countP (fun t => typeStr t == some k) = s.length := List.countP_eq_length.2 (fun t ht => (hc t (hs.subset ht)).2 (hsk t ht))
      rw [← e]
      exact hs.countP_le
    rw [hmem]
    constructor
    · intro hl
      rw [hl] at hcount
      simp only [Option.getD_some] at hcount
      refine ⟨h3 (k, n) (hmem.2 hl), ts.filter (fun t => typeStr t == some k), List.filter_sublist, ?_, ?_, ?_⟩
      · rw [hcount, List.countP_eq_length_filter]
      · intro t ht
        rw [List.mem_filter] at ht
        exact (hc t ht.1).1 ht.2
      · rw [hcount]; exact hmax
    · rintro ⟨hn, sub, s1, s2, s3, s4⟩
      have e : n = ts.countP (fun t => typeStr t == some k) := by
        apply le_antisymm
        · rw [← s2]; exact hmax sub s1 s3
        · rw [List.countP_eq_length_filter]
          apply s4 _ List.filter_sublist
          intro t ht
          rw [List.mem_filter] at ht
          exact (hc t ht.1).1 ht.2
      rw [← e] at hcount
      cases hl : nbs.lookup k with
      | none => rw [hl] at hcount; simp only [Option.getD_none] at hcount; omega
      | some m => rw [hl] at hcount; simp only [Option.getD_some] at hcount; rw [hcount]

/-! ### Events -/

theorem times_eq {β γ : Type} (n : ℕ) (f : ℕ → List β) (g : β → γ) (l : List γ) (h : ∀ i < n, (f i).map g = l) : ((List.range n).flatMap f).map g = times n l := by
  induction n with
  | zero => rfl
  | succ n ih =>
    rw [List.range_succ, List.flatMap_append, List.map_append, ih (fun i hi => h i (by omega))]
    simp only [List.flatMap_cons, List.flatMap_nil, List.append_nil]
    rw [h n (by omega), times, times, List.replicate_succ', List.flatten_append]
    simp

mutual
theorem eventsMinor_gen : ∀ (t : PTree.Tree α) (time : ℤ), eventsMinor true t = (gen t time).map Prod.snd
  | .leaf ev, time => rfl
  | .node r p ch, time => by
    rw [eventsMinor, gen, if_pos rfl]
    exact (times_eq r _ Prod.snd _ (fun i _ => (eventsMinorF_gen ch _).symm)).symm
theorem eventsMinorF_gen : ∀ (ch : Forest α) (time : ℤ), eventsMinorF ch = (genF ch time).map Prod.snd
  | .nil, _ => rfl
  | .cons d t rest, time => by
    rw [eventsMinorF, genF, List.map_append, eventsMinor_gen t (time + d), eventsMinorF_gen rest (time + d)]
end

/-- C76. `getEventsMinor(rep=True)` lists the events of the occurrences in the order in which the occurrences are generated, so that pairing both (`getEvOccs`) gives each occurrence its event; without `rep` it lists one
repetition of the root. -/
theorem events_aligned (t : PTree.Tree α) (r : ℕ) (p : ℤ) (ch : Forest α) (ht : t = .node r p ch) (time : ℤ) :
    eventsMinor true t = (gen t time).map Prod.snd ∧ (eventsMinor true t).length = nbOccs t ∧ eventsMinor false t = (genF ch time).map Prod.snd ∧
      eventsMinor true t = times r (eventsMinor false t) := by
  subst ht
  refine ⟨eventsMinor_gen _ time, by rw [eventsMinor_gen _ 0, List.length_map, length_gen], ?_, ?_⟩
  · rw [eventsMinor, if_neg (by simp), eventsMinorF_gen]
  · simp [eventsMinor]

/-! ### Counts -/

mutual
theorem cardO_eq : ∀ t : PTree.Tree α, cardO t = nbOccs t
  | .leaf _ => rfl
  | .node r _ ch => by rw [cardO, nbOccs, cardOF_eq ch]
theorem cardOF_eq : ∀ ch : Forest α, cardOF ch = nbOccsF ch
  | .nil => rfl
  | .cons _ t rest => by rw [cardOF, nbOccsF, cardO_eq t, cardOF_eq rest]
end

/-- C76. `cardO` is the number of occurrences generated. -/
theorem cardO_gen (t : PTree.Tree α) (time : ℤ) : cardO t = (gen t time).length := by rw [cardO_eq, length_gen]

theorem everyNth_spec {β : Type} (n r : ℕ) (hn : 1 ≤ n) (l : List β) (hl : l.length = r * n) :
    ∃ out, everyNth n l = some out ∧ out.length = r ∧ ∀ i < r, out[i]? = l[i * n]? := by
  have hlen : (l.length + n - 1) / n = r := by
    rw [hl, Nat.div_eq_iff (by omega)]
    constructor
    · omega
    · have : r * n + n - 1 < (r + 1) * n := by rw [Nat.succ_mul]; omega
      omega
  have hin : ∀ j ∈ List.range r, ∃ x, l[j * n]? = some x := by
    intro j hj
    rw [List.mem_range] at hj
    have : j * n < l.length := by rw [hl]; exact (Nat.mul_lt_mul_right (by omega)).2 hj
    exact ⟨l[j * n], by simp [this]⟩
  have key : ∀ (m : ℕ), m ≤ r → ∃ out, (List.range m).filterMap (fun j => l[j * n]?) = out ∧ out.length = m ∧ ∀ i < m, out[i]? = l[i * n]? := by
    intro m
    induction m with
    | zero => intro _; exact ⟨[], rfl, rfl, by simp⟩
    | succ m ih =>
      intro hm
      obtain ⟨out, h1, h2, h3⟩ := ih (by omega)
      obtain ⟨x, hx⟩ := hin m (by simp; omega)
      refine ⟨out ++ [x], ?_, by simp [h2], ?_⟩
      · rw [List.range_succ, List.filterMap_append, h1]
        simp [hx]
      · intro i hi
        by_cases h : i < m
        · rw [List.getElem?_append_left (by omega), h3 i h]
        · have : i = m := by omega
          subst this
          rw [List.getElem?_append_right (by omega), h2, hx]
          simp
  obtain ⟨out, h1, h2, h3⟩ := key r (le_refl _)
  refine ⟨out, ?_, h2, h3⟩
  rw [everyNth, if_neg (by omega), hlen, h1]

/-- C76. The main timestamps are the times of the first occurrence of each repetition of the root. -/
theorem major_first {β : Type} (r : ℕ) (p : ℤ) (ch : Forest α) (h : (PTree.Tree.node r p ch).Regular) (occs : List β) (hl : occs.length = nbOccs (PTree.Tree.node r p ch)) :
    ∃ out, majorOccs (.node r p ch) occs = some out ∧ out.length = r ∧ ∀ i < r, out[i]? = occs[i * nbOccsF ch]? := by
  obtain ⟨d, hd⟩ := depth_ex _ h
  have hr : 1 ≤ r := h.1
  rw [nbOccs] at hl
  have hpos : 1 ≤ nbOccsF ch := nbOccsF_pos ch h.2.2.2 h.2.1
  unfold majorOccs
  rw [hd]
  simp only
  split
  · rw [if_neg (by simp [rootR]; omega)]
    have : occs.length / rootR (PTree.Tree.node r p ch) = nbOccsF ch := by
      rw [hl, rootR, Nat.mul_div_cancel_left _ (by omega)]
    rw [this]
    exact everyNth_spec _ r hpos occs hl
  · rename_i hc
    have hw := width_pos _ h
    obtain ⟨a, n, hch⟩ := chain_of_width _ h (by omega)
    have h1 := (chain_depth a n _ hch).1
    rw [hd, Option.some.injEq] at h1
    have hn1 : n ≤ 1 := by omega
    cases n with
    | zero => cases hch
    | succ n =>
      have : n = 0 := by omega
      subst this
      obtain ⟨r', p', d', t', he, ht'⟩ := hch
      cases he
      simp only [IsChain] at ht'
      subst ht'
      have e1 : nbOccsF (Forest.cons d' (PTree.Tree.leaf a) .nil) = 1 := rfl
      rw [e1] at hl ⊢
      exact ⟨occs, rfl, by omega, fun i _ => by rw [Nat.mul_one]⟩

/-! ### Cases -/

/-- A cycle, cycles inside each other, a cycle over two events, and a mixture. -/
def exTs : List (PTree.Tree ℕ) :=
  [.node 3 5 (.cons 0 (.leaf 1) .nil), .node 3 50 (.cons 0 (.node 4 5 (.cons 0 (.leaf 1) .nil)) .nil), .node 3 5 (.cons 0 (.leaf 1) (.cons 2 (.leaf 2) .nil)),
    .node 3 50 (.cons 0 (.leaf 7) (.cons 2 (.node 2 5 (.cons 0 (.leaf 1) .nil)) .nil)), .node 4 6 (.cons 0 (.leaf 2) .nil)]

example : exTs.map typeStr = [some .simple, some .nested, some .concat, some .other, some .simple] := by decide
example : nbByType exTs = some [(.simple, 2), (.nested, 1), (.concat, 1), (.other, 1)] := by decide
example : ∀ t ∈ exTs, ∃ r p ch, t = .node r p ch ∧ t.Regular := by
  intro t ht
  simp only [exTs, List.mem_cons, List.not_mem_nil, or_false] at ht
  rcases ht with rfl | rfl | rfl | rfl | rfl <;> exact ⟨_, _, _, rfl, by simp [Tree.Regular, Forest.Regular, Forest.NonEmpty, Forest.firstDist]⟩
example : eventsMinor true (.node 2 50 (.cons 0 (.leaf 7) (.cons 2 (.node 2 5 (.cons 0 (.leaf 1) .nil)) .nil))) = [7, 1, 1, 7, 1, 1] := by decide
example : majorOccs (.node 2 50 (.cons 0 (.leaf 7) (.cons 2 (.node 2 5 (.cons 0 (.leaf 1) .nil)) .nil))) [0, 2, 7, 50, 53, 58] = some [0, 50] := by decide

end Verif.Kinds
