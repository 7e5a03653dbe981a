import Verif.Cost.Lemmas

set_option autoImplicit false
set_option linter.unusedSectionVars false

namespace Verif.Cost

open Verif.PTree

variable {α : Type} [DecidableEq α]

/-! ### Marked occurrences are the rightmost leaves in the last repetitions -/

theorem posF_cons (d : ℤ) (t : PTree.Tree α) (R : Forest α) (ni i : ℕ) : posF (.cons d t R) ni i = (pos t).map (fun x => ((ni, i) :: x.1, x.2)) ++ posF R (ni + 1) i := by rw [posF]

theorem rightKeysF_cons (d : ℤ) (t : PTree.Tree α) (R : Forest α) (ni i : ℕ) :
    rightKeysF (.cons d t R) ni i = (rightKeys t (decide (R.len = 0))).map (fun k => (ni, i) :: k) ++ rightKeysF R (ni + 1) i := by rw [rightKeysF]

theorem durF_cons (d : ℤ) (t : PTree.Tree α) (R : Forest α) : durF (.cons d t R) = d + max (durT t) (durF R) := by rw [durF]

mutual
theorem marks_length : ∀ (t : PTree.Tree α) (b l : Bool), (marks t b l).length = (pos t).length
  | .leaf _, _, _ => by simp [marks, pos]
  | .node r p ch, b, l => by
    simp only [marks, pos, List.length_flatMap]
    congr 1
    apply List.map_congr_left
    intro i _
    exact marksF_length ch _ 0 i
theorem marksF_length : ∀ (ch : Forest α) (b : Bool) (ni i : ℕ), (marksF ch b).length = (posF ch ni i).length
  | .nil, _, _, _ => by simp [marksF, posF]
  | .cons _ t .nil, b, ni, i => by simp [marksF, posF, marks_length t]
  | .cons d t (.cons d' t' rest), b, ni, i => by
    have := marksF_length (.cons d' t' rest) b (ni + 1) i
    simp only [marksF, List.length_append, marks_length t]
    rw [this, posF_cons _ t]
    simp
end

theorem zip_flatMap {β γ : Type} (f : ℕ → List β) (g : ℕ → List γ) (h : ∀ i, (f i).length = (g i).length) (l : List ℕ) :
    (l.flatMap f).zip (l.flatMap g) = l.flatMap (fun i => (f i).zip (g i)) := by
  induction l with
  | nil => rfl
  | cons a l ih =>
    simp only [List.flatMap_cons]
    rw [List.zip_append (h a), ih]

/-- The marked positions. -/
def sel {β : Type} (l : List (Path × β)) (m : List Bool) : List Path := ((l.zip m).filter Prod.snd).map (fun x => x.1.1)

theorem sel_append {β : Type} (l l' : List (Path × β)) (m m' : List Bool) (h : m.length = l.length) : sel (l ++ l') (m ++ m') = sel l m ++ sel l' m' := by
  simp only [sel]
  rw [List.zip_append h.symm, List.filter_append, List.map_append]

theorem sel_map {β γ : Type} (l : List (Path × β)) (m : List Bool) (g : Path × β → Path × γ) (f : Path → Path) (h : ∀ x, (g x).1 = f x.1) : sel (l.map g) m = (sel l m).map f := by
  simp only [sel]
  rw [List.zip_map_left, List.filter_map, List.map_map, List.map_map]
  apply List.map_congr_left
  intro x _
  simp [Function.comp, h]

mutual
theorem sel_marks : ∀ (t : PTree.Tree α) (b l : Bool), t.Regular → sel (pos t) (marks t b l) = if b then rightKeys t l else []
  | .leaf _, b, l, _ => by cases b <;> cases l <;> simp [sel, pos, marks, rightKeys]
  | .node r p ch, b, l, hr => by
    simp only [Tree.Regular] at hr
    simp only [sel, pos, marks]
    rw [zip_flatMap _ _ (fun i => (marksF_length ch _ 0 i).symm), List.filter_flatMap, List.map_flatMap]
    have hi : ∀ i, (((posF ch 0 i).zip (marksF ch (b && decide (i + 1 = r)))).filter Prod.snd).map (fun x => x.1.1) = if b && decide (i + 1 = r) then rightKeysF ch 0 i else [] :=
      fun i => selF_marks ch _ 0 i hr.2.2.2
    simp only [hi]
    obtain ⟨n, rfl⟩ : ∃ n, r = n + 1 := ⟨r - 1, by omega⟩
    rw [List.range_succ, List.flatMap_append]
    have h1 : (List.range n).flatMap (fun i => if (b && decide (i + 1 = n + 1)) = true then rightKeysF ch 0 i else []) = [] := by
      rw [List.flatMap_eq_nil_iff]
      intro i hi
      have := List.mem_range.1 hi
      rw [if_neg]
      simp only [Bool.and_eq_true, decide_eq_true_eq]
      omega
    rw [h1]
    simp [rightKeys]
theorem selF_marks : ∀ (ch : Forest α) (b : Bool) (ni i : ℕ), ch.Regular → sel (posF ch ni i) (marksF ch b) = if b then rightKeysF ch ni i else []
  | .nil, b, ni, i, _ => by cases b <;> simp [sel, posF, marksF, rightKeysF]
  | .cons _ t .nil, b, ni, i, hr => by
    simp only [Forest.Regular] at hr
    simp only [posF, marksF, List.append_nil, rightKeysF, Forest.len, decide_true]
    rw [sel_map _ _ _ (fun k => (ni, i) :: k) (fun x => rfl), sel_marks t b true hr.1]
    cases b <;> simp
  | .cons _ t (.cons d' t' rest), b, ni, i, hr => by
    have hr' : t.Regular ∧ (Forest.cons d' t' rest).Regular := hr
    have ih := selF_marks (.cons d' t' rest) b (ni + 1) i hr'.2
    rw [posF_cons _ t, marksF, sel_append _ _ _ _ (by rw [List.length_map, marks_length]), ih, sel_map _ _ _ (fun k => (ni, i) :: k) (fun x => rfl), sel_marks t b false hr'.1]
    rw [rightKeysF_cons _ t]
    have : decide ((Forest.cons d' t' rest).len = 0) = false := by simp [Forest.len]
    rw [this]
    cases b <;> simp
end

theorem sel_sub {β : Type} (l : List (Path × β)) (m : List Bool) : ∀ k ∈ sel l m, k ∈ l.map Prod.fst := by
  intro k hk
  simp only [sel, List.mem_map, List.mem_filter] at hk
  obtain ⟨x, ⟨hx, _⟩, rfl⟩ := hk
  exact List.mem_map.2 ⟨x.1, (List.of_mem_zip hx).1, rfl⟩

theorem rightKeys_sub (t : PTree.Tree α) (hr : t.Regular) : ∀ k ∈ rightKeys t true, k ∈ keys t := by
  have := sel_marks t true true hr
  rw [if_pos rfl] at this
  rw [← this]
  exact sel_sub _ _

theorem rightKeysF_sub (ch : Forest α) (ni i : ℕ) (hr : ch.Regular) : ∀ k ∈ rightKeysF ch ni i, k ∈ (posF ch ni i).map Prod.fst := by
  have := selF_marks ch true ni i hr
  rw [if_pos rfl] at this
  rw [← this]
  exact sel_sub _ _

theorem starF_bounds (ch : Forest α) (hp : ProperF ch) (ni i : ℕ) (k : Path) (hk : k ∈ (posF ch ni i).map Prod.fst) :
    0 ≤ starF ch ((k.headD (0, 0)).1 - ni) k.tail ∧ starF ch ((k.headD (0, 0)).1 - ni) k.tail ≤ durF ch := by
  obtain ⟨x, hx, rfl⟩ := List.mem_map.1 hk
  have hm : ((0 : ℤ) + starF ch ((x.1.headD (0, 0)).1 - ni) x.1.tail, x.2) ∈ genF ch 0 := by
    rw [genF_eq ch ni i [] 0, occsStarF_eq, List.map_map]
    exact List.mem_map.2 ⟨x, hx, rfl⟩
  have := durF_bound ch 0 hp _ hm
  simp only [zero_add] at this
  exact this

theorem rightmost_last (t : PTree.Tree α) (a b : Bool) (h : isInterm t = true) : rightKeys t a = rightKeys t b := by
  cases t with
  | leaf => simp [isInterm] at h
  | node => rfl

mutual
theorem right_attains : ∀ (t : PTree.Tree α), t.Regular → Proper t → ∃ k ∈ rightKeys t true, starT t k = durT t
  | .leaf _, _, _ => ⟨[], by simp [rightKeys], by simp [starT, durT]⟩
  | .node r p ch, hr, hp => by
    simp only [Tree.Regular] at hr
    simp only [Proper] at hp
    obtain ⟨c, q, h1, h2⟩ := rightF_attains ch hr.2.1 hr.2.2.2 hp.2.2 0 (r - 1)
    refine ⟨(0 + c, r - 1) :: q, by simpa [rightKeys] using h1, ?_⟩
    simp only [starT, durT, Nat.zero_add, h2]
    rw [Nat.cast_sub hr.1]
    rfl
theorem rightF_attains : ∀ (ch : Forest α), ch.NonEmpty → ch.Regular → ProperF ch → ∀ ni i : ℕ, ∃ c q, (ni + c, i) :: q ∈ rightKeysF ch ni i ∧ starF ch c q = durF ch
  | .nil, h, _, _, _, _ => by simp [Forest.NonEmpty] at h
  | .cons d t .nil, _, hr, hp, ni, i => by
    simp only [Forest.Regular] at hr
    simp only [ProperF] at hp
    obtain ⟨k, h1, h2⟩ := right_attains t hr.1 hp.2.1
    have := durT_nonneg t hp.2.1
    refine ⟨0, k, ?_, ?_⟩
    · simp only [rightKeysF, List.append_nil, Forest.len, decide_true, List.mem_map]
      exact ⟨k, h1, rfl⟩
    · simp only [starF, durF, h2]; omega
  | .cons d t (.cons d' t' rest), _, hr, hp, ni, i => by
    have hr' : t.Regular ∧ (Forest.cons d' t' rest).Regular := hr
    have hp' : 0 ≤ d ∧ Proper t ∧ ProperF (Forest.cons d' t' rest) := hp
    obtain ⟨c, q, h1, h2⟩ := rightF_attains (.cons d' t' rest) trivial hr'.2 hp'.2.2 (ni + 1) i
    have hn := durF_nonneg (.cons d' t' rest) hp'.2.2
    by_cases hle : durT t ≤ durF (.cons d' t' rest)
    · refine ⟨c + 1, q, ?_, ?_⟩
      · rw [rightKeysF_cons d t, List.mem_append]
        right
        have : ni + (c + 1) = ni + 1 + c := by omega
        rw [this]; exact h1
      · rw [starF, h2, durF_cons d t]; omega
    · have hint : isInterm t = true := by
        cases t with
        | leaf => simp [durT] at hle; omega
        | node => rfl
      obtain ⟨k, h3, h4⟩ := right_attains t hr'.1 hp'.2.1
      refine ⟨0, k, ?_, ?_⟩
      · rw [rightKeysF_cons d t, List.mem_append]
        left
        rw [rightmost_last t _ true hint]
        exact List.mem_map.2 ⟨k, h3, rfl⟩
      · rw [starF, h4, durF_cons d t]; omega
end

end Verif.Cost
