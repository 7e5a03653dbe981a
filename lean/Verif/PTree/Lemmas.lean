import Verif.PTree.Spec
import Mathlib.Data.List.Nodup
import Mathlib.Tactic.Ring
import Mathlib.Tactic.Linarith
import Mathlib.Algebra.BigOperators.Group.List.Basic

set_option autoImplicit false
set_option linter.unusedSectionVars false

namespace Verif.PTree

variable {α : Type}

/-! ### Positions, times and correction keys, relative to a subtree -/

mutual
/-- Positions of a tree with their events. -/
def pos : Tree α → List (Path × α)
  | .leaf ev => [([], ev)]
  | .node r _ ch => (List.range r).flatMap (fun i => posF ch 0 i)
/-- Positions under successive children. -/
def posF : Forest α → ℕ → ℕ → List (Path × α)
  | .nil, _, _ => []
  | .cons _ t rest, ni, i => (pos t).map (fun x => ((ni, i) :: x.1, x.2)) ++ posF rest (ni + 1) i
end

mutual
/-- Time of a position. -/
def starT : Tree α → Path → ℤ
  | .leaf _, _ => 0
  | .node _ _ _, [] => 0
  | .node _ p ch, (c, i) :: q => (i : ℤ) * p + starF ch c q
/-- Time of a position under child `c`. -/
def starF : Forest α → ℕ → Path → ℤ
  | .nil, _, _ => 0
  | .cons d t _, 0, q => d + starT t q
  | .cons d _ rest, c + 1, q => d + starF rest c q
end

/-- First leaf. -/
def lm : Tree α → Path
  | .leaf _ => []
  | .node _ _ .nil => []
  | .node _ _ (.cons _ t _) => (0, 0) :: lm t

/-- First leaf of the first child. -/
def lmF : Forest α → Path
  | .nil => []
  | .cons _ t _ => lm t

mutual
/-- Positions whose corrections are added for a position. -/
def gT : Tree α → Path → List Path
  | .leaf _, _ => []
  | .node _ _ _, [] => []
  | .node _ _ ch, (c, i) :: q => gF ch 0 i c q ++ (List.range i).map (fun j => (0, j) :: lmF ch)
/-- The same under child `c` of the children numbered from `ni`. -/
def gF : Forest α → ℕ → ℕ → ℕ → Path → List Path
  | .nil, _, _, _, _ => []
  | .cons _ t _, ni, i, 0, q => (gT t q).map (fun k => (ni, i) :: k)
  | .cons _ t rest, ni, i, c + 1, q => gF rest (ni + 1) i c q ++ [(ni, i) :: lm t]
end

theorem mem_posF : ∀ (ch : Forest α) (ni i : ℕ) (x : Path × α), x ∈ posF ch ni i → ∃ c q, x.1 = (ni + c, i) :: q
  | .nil, _, _, _, h => by simp [posF] at h
  | .cons d t rest, ni, i, x, h => by
    simp only [posF, List.mem_append, List.mem_map] at h
    rcases h with ⟨y, _, rfl⟩ | h
    · exact ⟨0, y.1, rfl⟩
    · obtain ⟨c, q, hc⟩ := mem_posF rest (ni + 1) i x h
      exact ⟨c + 1, q, by rw [hc]; congr 2; omega⟩

mutual
theorem occsStar_eq : ∀ (t : Tree α) (pref : Path) (time : ℤ),
    occsStar t pref time = (pos t).map (fun x => (time + starT t x.1, x.2, pref.reverse ++ x.1))
  | .leaf ev, pref, time => by simp [occsStar, pos, starT]
  | .node r p ch, pref, time => by
    simp only [occsStar, pos, List.map_flatMap]
    apply List.flatMap_congr
    intro i _
    rw [occsStarF_eq ch 0 i pref (time + i * p)]
    apply List.map_congr_left
    rintro ⟨k, ev⟩ hx
    obtain ⟨c, q, hc⟩ := mem_posF ch 0 i _ hx
    simp only at hc
    subst hc
    have h0 : 0 + c - 0 = c := by omega
    show (time + i * p + starF ch (0 + c - 0) q, _) = (time + (i * p + starF ch (0 + c) q), _)
    rw [h0, Nat.zero_add, add_assoc]
theorem occsStarF_eq : ∀ (ch : Forest α) (ni i : ℕ) (pref : Path) (tt : ℤ),
    occsStarF ch ni i pref tt = (posF ch ni i).map (fun x => (tt + starF ch ((x.1.headD (0, 0)).1 - ni) x.1.tail, x.2, pref.reverse ++ x.1))
  | .nil, _, _, _, _ => by simp [occsStarF, posF]
  | .cons d t rest, ni, i, pref, tt => by
    simp only [occsStarF, posF, List.map_append, List.map_map]
    rw [occsStar_eq t, occsStarF_eq rest (ni + 1) i pref]
    congr 1
    · apply List.map_congr_left
      intro x _
      simp [starF, add_assoc]
    · apply List.map_congr_left
      rintro ⟨k, ev⟩ hx
      obtain ⟨c, q, hc⟩ := mem_posF rest (ni + 1) i _ hx
      simp only at hc
      subst hc
      have h1 : ni + 1 + c - (ni + 1) = c := by omega
      have h2 : ni + 1 + c - ni = c + 1 := by omega
      show (tt + d + starF rest (ni + 1 + c - (ni + 1)) q, _) = (tt + starF (.cons d t rest) (ni + 1 + c - ni) q, _)
      rw [h1, h2]
      simp [starF, add_assoc]
end

mutual
theorem nodup_pos : ∀ (t : Tree α), ((pos t).map Prod.fst).Nodup
  | .leaf _ => by simp [pos]
  | .node r p ch => by
    simp only [pos, List.map_flatMap]
    rw [List.nodup_flatMap]
    refine ⟨fun i _ => nodup_posF ch 0 i, ?_⟩
    apply List.nodup_range.imp
    intro i j hij
    simp only [Function.onFun, List.disjoint_left, List.mem_map]
    rintro k ⟨x, hx, rfl⟩ ⟨y, hy, hxy⟩
    obtain ⟨c, q, hc⟩ := mem_posF ch 0 i x hx
    obtain ⟨c', q', hc'⟩ := mem_posF ch 0 j y hy
    rw [hc, hc'] at hxy
    simp only [List.cons.injEq, Prod.mk.injEq] at hxy
    exact hij hxy.1.2.symm
theorem nodup_posF : ∀ (ch : Forest α) (ni i : ℕ), ((posF ch ni i).map Prod.fst).Nodup
  | .nil, _, _ => by simp [posF]
  | .cons d t rest, ni, i => by
    simp only [posF, List.map_append, List.map_map]
    rw [List.nodup_append]
    refine ⟨?_, nodup_posF rest (ni + 1) i, ?_⟩
    · have := (nodup_pos t).map (f := fun q : Path => (ni, i) :: q) (by intro a b h; simpa using h)
      rwa [List.map_map] at this
    · intro a ha b hb hab
      subst hab
      obtain ⟨x, _, rfl⟩ := List.mem_map.mp ha
      obtain ⟨y, hy, hxy⟩ := List.mem_map.mp hb
      obtain ⟨c, q, hc⟩ := mem_posF rest (ni + 1) i y hy
      rw [hc] at hxy
      simp only [Function.comp_apply, List.cons.injEq, Prod.mk.injEq] at hxy
      omega
end

/-! ### First leaves -/

theorem leftmost_eq : ∀ (t : Tree α), t.Regular → leftmost t = some (lm t)
  | .leaf _, _ => rfl
  | .node _ _ .nil, h => by simp [Tree.Regular, Forest.NonEmpty] at h
  | .node _ _ (.cons _ t _), h => by
    simp only [Tree.Regular, Forest.Regular] at h
    simp [leftmost, lm, leftmost_eq t h.2.2.2.1]

theorem starT_lm : ∀ (t : Tree α), t.Regular → starT t (lm t) = 0
  | .leaf _, _ => rfl
  | .node _ _ .nil, h => by simp [Tree.Regular, Forest.NonEmpty] at h
  | .node _ _ (.cons d t _), h => by
    simp only [Tree.Regular, Forest.Regular, Forest.firstDist] at h
    simp [lm, starT, starF, starT_lm t h.2.2.2.1, h.2.2.1]

theorem gT_lm : ∀ (t : Tree α), t.Regular → gT t (lm t) = []
  | .leaf _, _ => rfl
  | .node _ _ .nil, h => by simp [Tree.Regular, Forest.NonEmpty] at h
  | .node _ _ (.cons d t _), h => by
    simp only [Tree.Regular, Forest.Regular, Forest.firstDist] at h
    simp [lm, gT, gF, gT_lm t h.2.2.2.1]

theorem lm_mem : ∀ (t : Tree α), t.Regular → lm t ∈ (pos t).map Prod.fst
  | .leaf _, _ => by simp [lm, pos]
  | .node _ _ .nil, h => by simp [Tree.Regular, Forest.NonEmpty] at h
  | .node r _ (.cons d t _), h => by
    simp only [Tree.Regular, Forest.Regular, Forest.firstDist] at h
    have ih := lm_mem t h.2.2.2.1
    obtain ⟨x, hx, hx'⟩ := List.mem_map.mp ih
    simp only [pos, posF, List.map_flatMap, List.mem_flatMap]
    refine ⟨0, by simp; omega, ?_⟩
    simp only [List.map_append, List.mem_append]
    left
    exact List.mem_map.mpr ⟨_, List.mem_map.mpr ⟨x, hx, rfl⟩, by simp [lm, ← hx']⟩

theorem pos_head : ∀ (t : Tree α), t.Regular → ∃ l, (pos t).map Prod.fst = lm t :: l
  | .leaf _, _ => by simp [lm, pos]
  | .node _ _ .nil, h => by simp [Tree.Regular, Forest.NonEmpty] at h
  | .node 0 _ (.cons d t _), h => by simp [Tree.Regular] at h
  | .node (r + 1) _ (.cons d t rest), h => by
    simp only [Tree.Regular, Forest.Regular, Forest.firstDist] at h
    obtain ⟨l, hl⟩ := pos_head t h.2.2.2.1
    simp only [pos, posF, List.range_succ_eq_map, List.flatMap_cons, List.map_append, List.map_map]
    have : List.map (Prod.fst ∘ fun x : Path × α => ((0, 0) :: x.1, x.2)) (pos t) = ((0, 0) :: lm t) :: l.map (fun q => (0, 0) :: q) := by
      have e : (Prod.fst ∘ fun x : Path × α => ((0, 0) :: x.1, x.2)) = (fun q => (0, 0) :: q) ∘ Prod.fst := rfl
      rw [e, ← List.map_map, hl]; rfl
    rw [this]
    exact ⟨_, rfl⟩

end Verif.PTree
