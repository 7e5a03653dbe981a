import Verif.Cycles.RoundModel
import Verif.Cycles.Lemmas
import Verif.MinSupp.DefaultProps
import Mathlib.Algebra.Order.Ring.Rat
import Mathlib.Algebra.Order.Field.Basic
import Mathlib.Algebra.Order.Ring.Pow
import Mathlib.Tactic.Linarith
import Mathlib.Tactic.GCongr
import Mathlib.Tactic.Positivity
import Mathlib.Tactic.NormNum

/-!
# Segmentation into cycles in floating point: property C138
-/

set_option autoImplicit false
set_option linter.unusedSectionVars false

namespace Verif.Cycles

/-- With exact sums this is the table of C39. -/
theorem tableWith_exact {C : Type*} [AddCommGroup C] [LinearOrder C] (cyc : ℕ → ℕ → C) (res : C) (n : ℕ) : tableWith (fun a b => a + b) (fun k => k • res) cyc n = computeTable cyc res n := rfl

/-- Rounding with relative error at most `u`, of numbers that are not negative. -/
def Rounds (u : ℚ) (fl : ℚ → ℚ) : Prop := ∀ x, 0 ≤ x → (1 - u) * x ≤ fl x ∧ fl x ≤ (1 + u) * x

theorem dbl_rounds : Rounds (1 / 2 ^ 53) MinSupp.dbl := by
  intro x hx
  have h := abs_le.1 (MinSupp.dbl_near_self x hx)
  constructor <;> linarith [h.1, h.2]

section

variable {u : ℚ} {fl : ℚ → ℚ} {cyc : ℕ → ℕ → ℚ} {res : ℚ}

/-- The setting: rounding, and costs that are not negative. -/
structure Setting (u : ℚ) (fl : ℚ → ℚ) (cyc : ℕ → ℕ → ℚ) (res : ℚ) : Prop where
  u0 : 0 ≤ u
  u1 : u ≤ 1
  fl : Rounds u fl
  cyc : ∀ a z, 0 ≤ cyc a z
  res : 0 ≤ res

theorem cost_nonneg (h : Setting u fl cyc res) (l : List (ℕ × ℕ)) : 0 ≤ cost cyc res l := by
  unfold cost
  refine List.sum_nonneg ?_
  intro x hx
  obtain ⟨s, _, rfl⟩ := List.mem_map.1 hx
  unfold segCost
  split
  · exact h.cyc _ _
  · exact nsmul_nonneg h.res _

/-- Score of a stretch as the code reads it. -/
def partFl (fl : ℚ → ℚ) (res : ℚ) (t : Table ℚ) (a z : ℕ) : Option ℚ := if z + 1 - a ≤ 2 then some (fl (((z + 1 - a : ℕ) : ℚ) * res)) else (t a z).map Prod.fst

/-- A table entry: a score near the optimum, justified by its split point. -/
def EntryFl (u : ℚ) (fl : ℚ → ℚ) (cyc : ℕ → ℕ → ℚ) (res : ℚ) (t : Table ℚ) (a z : ℕ) : Prop :=
  ∃ v sp, t a z = some (v, sp) ∧ (∀ l, Covers a l (z + 1) → v ≤ (1 + u) ^ (z + 1 - a) * cost cyc res l) ∧
    match sp with
    | .whole => v = cyc a z
    | .residual => z = a + 2 ∧ v = fl (((3 : ℕ) : ℚ) * res)
    | .at im => a ≤ im ∧ im < z ∧ ∃ vl vr, partFl fl res t a im = some vl ∧ partFl fl res t (im + 1) z = some vr ∧ v = fl (vl + vr)

/-- Entries filled so far: all lengths below `k`, and the first `m` starts for length `k`. -/
def FilledFl (u : ℚ) (fl : ℚ → ℚ) (cyc : ℕ → ℕ → ℚ) (res : ℚ) (n k m : ℕ) (t : Table ℚ) : Prop :=
  (∀ a z, z < a + 2 → t a z = none) ∧
  ∀ a z, a + 2 ≤ z → z < n → (z - a < k ∨ (z - a = k ∧ a < m)) → EntryFl u fl cyc res t a z

theorem partFl_set (fl : ℚ → ℚ) (res : ℚ) (t : Table ℚ) (ia iz a z : ℕ) (v : ℚ × Split) (h : ¬ (a = ia ∧ z = iz)) :
    partFl fl res (t.set ia iz v) a z = partFl fl res t a z := by
  unfold partFl Table.set
  simp only [if_neg h]

theorem entryFl_set {t : Table ℚ} {ia iz a z : ℕ} {v : ℚ × Split} (hlen : z - a ≤ iz - ia)
    (hz : a + 2 ≤ z) (h : ¬ (a = ia ∧ z = iz)) (he : EntryFl u fl cyc res t a z) : EntryFl u fl cyc res (t.set ia iz v) a z := by
  obtain ⟨w, sp, h1, h2, h3⟩ := he
  refine ⟨w, sp, ?_, h2, ?_⟩
  · unfold Table.set; rw [if_neg h]; exact h1
  · cases sp with
    | whole => exact h3
    | residual => exact h3
    | «at» im =>
      obtain ⟨h4, h5, vl, vr, h6, h7, h8⟩ := h3
      refine ⟨h4, h5, vl, vr, ?_, ?_, h8⟩
      · rw [partFl_set _ _ _ _ _ _ _ _ (by omega)]; exact h6
      · rw [partFl_set _ _ _ _ _ _ _ _ (by omega)]; exact h7

theorem grow (h : Setting u fl cyc res) {p q : ℕ} (hpq : p ≤ q) {x : ℚ} (hx : 0 ≤ x) : (1 + u) ^ p * x ≤ (1 + u) ^ q * x :=
  mul_le_mul_of_nonneg_right (pow_le_pow_right₀ (by linarith [h.u0]) hpq) hx

theorem shrink (h : Setting u fl cyc res) {p q : ℕ} (hpq : p ≤ q) {x : ℚ} (hx : 0 ≤ x) : (1 - u) ^ q * x ≤ (1 - u) ^ p * x :=
  mul_le_mul_of_nonneg_right (pow_le_pow_of_le_one (by linarith [h.u1]) (by linarith [h.u0]) hpq) hx

theorem times_le (h : Setting u fl cyc res) (k m : ℕ) (hm : 1 ≤ m) : fl ((k : ℚ) * res) ≤ (1 + u) ^ m * (k • res) := by
  have h0 : (0 : ℚ) ≤ k * res := mul_nonneg (Nat.cast_nonneg k) h.res
  refine (h.fl _ h0).2.trans ?_
  rw [nsmul_eq_mul]
  have := grow h hm h0
  rwa [pow_one] at this

theorem le_times (h : Setting u fl cyc res) (k m : ℕ) (hm : 1 ≤ m) : (1 - u) ^ m * (k • res) ≤ fl ((k : ℚ) * res) := by
  have h0 : (0 : ℚ) ≤ k * res := mul_nonneg (Nat.cast_nonneg k) h.res
  refine le_trans ?_ (h.fl _ h0).1
  rw [nsmul_eq_mul]
  have := shrink h hm h0
  rwa [pow_one] at this

theorem partFl_opt (h : Setting u fl cyc res) {n k m : ℕ} {t : Table ℚ} (hF : FilledFl u fl cyc res n k m t) (a z : ℕ) (haz : a ≤ z) (hz : z < n) (hk : z - a < k) :
    ∃ v, partFl fl res t a z = some v ∧ ∀ l, Covers a l (z + 1) → v ≤ (1 + u) ^ (z + 1 - a) * cost cyc res l := by
  unfold partFl
  split
  · next h2 =>
    refine ⟨_, rfl, fun l hl => ?_⟩
    rw [cost_short cyc res l a (z + 1) hl (by omega)]
    exact times_le h _ _ (by omega)
  · next h2 =>
    obtain ⟨v, sp, h1, h2, _⟩ := hF.2 a z (by omega) hz (.inl hk)
    exact ⟨v, by rw [h1]; rfl, h2⟩

theorem splitStepFl_eq (t : Table ℚ) (ia iz : ℕ) (best : ℚ × Split) (im : ℕ) (h1 : ia ≤ im) (h2 : im < iz) :
    splitStepWith (fun a b => fl (a + b)) (fun k => fl ((k : ℚ) * res)) t ia iz best im = match partFl fl res t ia im, partFl fl res t (im + 1) iz with
      | some l, some r => if fl (l + r) < best.1 then some (fl (l + r), .at im) else some best
      | _, _ => none := by
  unfold splitStepWith partFl
  have e1 : im - ia + 1 = im + 1 - ia := by omega
  have e2 : iz - im = iz + 1 - (im + 1) := by omega
  rw [e1, e2]
  generalize (if im + 1 - ia ≤ 2 then some (fl (((im + 1 - ia : ℕ) : ℚ) * res)) else (t ia im).map Prod.fst) = x
  generalize (if iz + 1 - (im + 1) ≤ 2 then some (fl (((iz + 1 - (im + 1) : ℕ) : ℚ) * res)) else (t (im + 1) iz).map Prod.fst) = y
  cases x <;> cases y <;> rfl

/-- The search of the split point: the score found is the least of the whole segment and of the two-part scores. -/
theorem splitLoopFl {t : Table ℚ} {ia iz : ℕ} (hpart : ∀ im, ia ≤ im → im < iz → ∃ vl vr,
    partFl fl res t ia im = some vl ∧ partFl fl res t (im + 1) iz = some vr) :
    ∀ (ims : List ℕ), (∀ im ∈ ims, ia ≤ im ∧ im < iz) → ∀ b : ℚ × Split, ∃ b', ims.foldlM (splitStepWith (fun a b => fl (a + b)) (fun k => fl ((k : ℚ) * res)) t ia iz) b = some b' ∧
      b'.1 ≤ b.1 ∧ (∀ im ∈ ims, ∀ vl vr, partFl fl res t ia im = some vl → partFl fl res t (im + 1) iz = some vr → b'.1 ≤ fl (vl + vr)) ∧
      (b' = b ∨ ∃ im ∈ ims, ∃ vl vr, partFl fl res t ia im = some vl ∧ partFl fl res t (im + 1) iz = some vr ∧ b' = (fl (vl + vr), .at im)) := by
  intro ims
  induction ims with
  | nil => intro _ b; exact ⟨b, rfl, le_rfl, by simp, .inl rfl⟩
  | cons im ims ih =>
    intro hims b
    obtain ⟨hi1, hi2⟩ := hims im (by simp)
    obtain ⟨vl, vr, hl, hr⟩ := hpart im hi1 hi2
    have hstep : ∃ b1, splitStepWith (fun a b => fl (a + b)) (fun k => fl ((k : ℚ) * res)) t ia iz b im = some b1 ∧ b1.1 ≤ b.1 ∧ b1.1 ≤ fl (vl + vr) ∧ (b1 = b ∨ b1 = (fl (vl + vr), .at im)) := by
      rw [splitStepFl_eq _ _ _ _ _ hi1 hi2, hl, hr]
      simp only
      split
      · next h => exact ⟨_, rfl, h.le, le_rfl, .inr rfl⟩
      · next h => exact ⟨_, rfl, le_rfl, not_lt.1 h, .inl rfl⟩
    obtain ⟨b1, hb1, hb2, hb3, hb4⟩ := hstep
    obtain ⟨b', h1, h2, h3, h4⟩ := ih (fun x hx => hims x (List.mem_cons_of_mem _ hx)) b1
    refine ⟨b', ?_, h2.trans hb2, ?_, ?_⟩
    · rw [List.foldlM_cons, hb1]; exact h1
    · intro x hx wl wr hwl hwr
      rcases List.mem_cons.1 hx with rfl | hx
      · rw [hl] at hwl; rw [hr] at hwr; cases hwl; cases hwr
        exact h2.trans hb3
      · exact h3 x hx wl wr hwl hwr
    · rcases h4 with rfl | ⟨x, hx, wl, wr, hwl, hwr, he⟩
      · rcases hb4 with rfl | rfl
        · exact .inl rfl
        · exact .inr ⟨im, by simp, vl, vr, hl, hr, rfl⟩
      · exact .inr ⟨x, List.mem_cons_of_mem _ hx, wl, wr, hwl, hwr, he⟩

theorem entry_nonneg (h : Setting u fl cyc res) {n k m : ℕ} {t : Table ℚ} {a z : ℕ} {vl : ℚ} (hF : FilledFl u fl cyc res n k m t) (haz : a ≤ z) (hz : z < n) (hk : z - a < k) (hp : partFl fl res t a z = some vl) : 0 ≤ vl := by
  obtain ⟨d, hd⟩ : ∃ d, z - a = d := ⟨_, rfl⟩
  induction d using Nat.strong_induction_on generalizing a z vl with
  | _ d ih =>
    have hnn : ∀ x, 0 ≤ x → 0 ≤ fl x := fun x hx => le_trans (mul_nonneg (by linarith [h.u1]) hx) (h.fl x hx).1
    by_cases hs : z + 1 - a ≤ 2
    · unfold partFl at hp
      rw [if_pos hs] at hp
      cases hp
      exact hnn _ (mul_nonneg (Nat.cast_nonneg _) h.res)
    · obtain ⟨v, sp, h1, _, h3⟩ := hF.2 a z (by omega) hz (.inl (by omega))
      unfold partFl at hp
      rw [if_neg hs, h1] at hp
      cases hp
      cases sp with
      | whole => rw [h3]; exact h.cyc _ _
      | residual => rw [h3.2]; exact hnn _ (mul_nonneg (Nat.cast_nonneg _) h.res)
      | «at» im =>
        obtain ⟨h4, h5, wl, wr, h6, h7, h8⟩ := h3
        rw [h8]
        exact hnn _ (add_nonneg (ih (im - a) (by omega) h4 (by omega) (by omega) h6 rfl) (ih (z - (im + 1)) (by omega) (by omega) hz (by omega) h7 rfl))

/-- A sum of two near optimal parts is near the sum of the optima. -/
theorem sum_near (h : Setting u fl cyc res) {x y vl vr : ℚ} {p q m : ℕ} (hx : 0 ≤ x) (hy : 0 ≤ y) (h0 : 0 ≤ vl + vr) (hp : 1 ≤ p) (hq : 1 ≤ q) (hm : p + q = m) (hl : vl ≤ (1 + u) ^ p * x) (hr : vr ≤ (1 + u) ^ q * y) :
    fl (vl + vr) ≤ (1 + u) ^ m * (x + y) := by
  refine (h.fl _ h0).2.trans ?_
  obtain ⟨m', rfl⟩ : ∃ m', m = m' + 1 := ⟨m - 1, by omega⟩
  rw [pow_succ, mul_comm _ (1 + u), mul_assoc]
  refine mul_le_mul_of_nonneg_left ?_ (by linarith [h.u0])
  rw [mul_add]
  exact add_le_add (hl.trans (grow h (by omega) hx)) (hr.trans (grow h (by omega) hy))

/-- One cell. -/
theorem cellFl_ok (h : Setting u fl cyc res) {n k m : ℕ} {t : Table ℚ} (hk : 3 ≤ k) (hm : m + k < n) (hF : FilledFl u fl cyc res n k m t) :
    ∃ t', cellWith (fun a b => fl (a + b)) (fun k => fl ((k : ℚ) * res)) cyc t m (m + k) = some t' ∧ FilledFl u fl cyc res n k (m + 1) t' := by
  have hpart : ∀ im, m ≤ im → im < m + k → ∃ vl vr, partFl fl res t m im = some vl ∧ partFl fl res t (im + 1) (m + k) = some vr := by
    intro im h1 h2
    obtain ⟨vl, hvl, _⟩ := partFl_opt h hF m im h1 (by omega) (by omega)
    obtain ⟨vr, hvr, _⟩ := partFl_opt h hF (im + 1) (m + k) (by omega) hm (by omega)
    exact ⟨vl, vr, hvl, hvr⟩
  have hnn : ∀ a z vl, a ≤ z → z < n → z - a < k → partFl fl res t a z = some vl → 0 ≤ vl := fun a z vl haz hz hzk hp => entry_nonneg h hF haz hz hzk hp
  obtain ⟨b, hb, h1, h2, h3⟩ := splitLoopFl hpart (List.range' m (m + k - m)) (by
    intro im him; rw [List.mem_range'_1] at him; omega) (cyc m (m + k), .whole)
  refine ⟨t.set m (m + k) b, by unfold cellWith; rw [hb]; rfl, ?_, ?_⟩
  · intro a z haz
    unfold Table.set
    rw [if_neg (by omega)]
    exact hF.1 a z haz
  · intro a z haz hz hlt
    by_cases he : a = m ∧ z = m + k
    · obtain ⟨rfl, rfl⟩ := he
      refine ⟨b.1, b.2, by unfold Table.set; simp, ?_, ?_⟩
      · intro l hl
        cases l with
        | nil => exact absurd (show a = a + k + 1 from hl) (by omega)
        | cons s l =>
          obtain ⟨hs1, hs2, hs3⟩ := hl
          have hle := hs3.le
          rcases Nat.lt_or_ge s.2 (a + k) with hlt' | hge
          · have h4 := h2 s.2 (by rw [List.mem_range'_1]; omega)
            obtain ⟨vl, hvl, hol⟩ := partFl_opt h hF a s.2 (by omega) (by omega) (by omega)
            obtain ⟨vr, hvr, hor⟩ := partFl_opt h hF (s.2 + 1) (a + k) (by omega) hm (by omega)
            refine (h4 vl vr hvl hvr).trans ?_
            have e : cost cyc res (s :: l) = cost cyc res [s] + cost cyc res l := by rw [← cost_append]; rfl
            rw [e]
            exact sum_near h (cost_nonneg h _) (cost_nonneg h _) (add_nonneg (hnn _ _ _ (by omega) (by omega) (by omega) hvl) (hnn _ _ _ (by omega) hm (by omega) hvr)) (p := s.2 + 1 - a) (q := a + k + 1 - (s.2 + 1))
              (by omega) (by omega) (by omega) (hol [s] ⟨hs1, hs2, rfl⟩) (hor l hs3)
          · have : s.2 = a + k := by omega
            rw [this] at hs3
            have hl0 : l = [] := by
              cases l with
              | nil => rfl
              | cons s' l' =>
                obtain ⟨h5, h6, h7⟩ := hs3
                have := h7.le
                omega
            subst hl0
            have e : cost cyc res [s] = cyc a (a + k) := by
              unfold cost
              rw [List.map_singleton, List.sum_singleton, segCost, if_pos (by omega), hs1, this]
            rw [e]
            refine h1.trans ?_
            have := grow h (Nat.zero_le (a + k + 1 - a)) (h.cyc a (a + k))
            rwa [pow_zero, one_mul] at this
      · rcases h3 with rfl | ⟨im, him, vl, vr, hvl, hvr, rfl⟩
        · rfl
        · rw [List.mem_range'_1] at him
          refine ⟨him.1, by omega, vl, vr, ?_, ?_, rfl⟩
          · rw [partFl_set _ _ _ _ _ _ _ _ (by omega)]; exact hvl
          · rw [partFl_set _ _ _ _ _ _ _ _ (by omega)]; exact hvr
    · refine entryFl_set (by omega) haz he (hF.2 a z haz hz ?_)
      rcases hlt with h | ⟨h, h'⟩
      · exact .inl h
      · exact .inr ⟨h, by omega⟩

theorem rowFl_ok (h : Setting u fl cyc res) {n k : ℕ} {t : Table ℚ} (hk : 3 ≤ k) (hF : FilledFl u fl cyc res n k 0 t) :
    ∀ m, m ≤ n - k → ∃ t', (List.range m).foldlM (fun t ia => cellWith (fun a b => fl (a + b)) (fun k => fl ((k : ℚ) * res)) cyc t ia (ia + k)) t = some t' ∧ FilledFl u fl cyc res n k m t' := by
  intro m
  induction m with
  | zero => intro _; exact ⟨t, rfl, hF⟩
  | succ m ih =>
    intro hm
    obtain ⟨t1, h1, h2⟩ := ih (by omega)
    obtain ⟨t2, h3, h4⟩ := cellFl_ok h (m := m) hk (by omega) h2
    refine ⟨t2, ?_, h4⟩
    rw [List.range_succ, List.foldlM_append, h1]
    simp [h3]

theorem FilledFl.next {n k : ℕ} {t : Table ℚ} (hF : FilledFl u fl cyc res n k (n - k) t) : FilledFl u fl cyc res n (k + 1) 0 t := by
  refine ⟨hF.1, fun a z h1 h2 h3 => hF.2 a z h1 h2 ?_⟩
  omega

theorem rowsFl_ok (h : Setting u fl cyc res) {n : ℕ} : ∀ (j k : ℕ) (t : Table ℚ), 3 ≤ k → FilledFl u fl cyc res n k 0 t →
    ∃ t', (List.range' k j).foldlM (fun t k => (List.range (n - k)).foldlM (fun t ia => cellWith (fun a b => fl (a + b)) (fun k => fl ((k : ℚ) * res)) cyc t ia (ia + k)) t) t = some t' ∧
      FilledFl u fl cyc res n (k + j) 0 t' := by
  intro j
  induction j with
  | zero => intro k t _ hF; exact ⟨t, rfl, hF⟩
  | succ j ih =>
    intro k t hk hF
    obtain ⟨t1, h1, h2⟩ := rowFl_ok h hk hF (n - k) le_rfl
    obtain ⟨t2, h3, h4⟩ := ih (k + 1) t1 (by omega) h2.next
    refine ⟨t2, ?_, by rwa [show k + 1 + j = k + (j + 1) by omega] at h4⟩
    rw [List.range'_succ, List.foldlM_cons, h1]
    exact h3

/-- The segments of three occurrences. -/
theorem triplesFl_ok (h : Setting u fl cyc res) (n : ℕ) : ∀ m, m ≤ n - 2 →
    FilledFl u fl cyc res n 2 m ((List.range m).foldl (tripleWith (fun k => fl ((k : ℚ) * res)) cyc) (fun _ _ => none)) := by
  intro m
  induction m with
  | zero => intro _; exact ⟨fun _ _ _ => rfl, fun a z h1 h2 h3 => by omega⟩
  | succ m ih =>
    intro hm
    have hF := ih (by omega)
    rw [List.range_succ, List.foldl_append, List.foldl_cons, List.foldl_nil]
    generalize (List.range m).foldl (tripleWith (fun k => fl ((k : ℚ) * res)) cyc) (fun _ _ => none) = t at hF
    have hset : ∃ v sp, tripleWith (fun k => fl ((k : ℚ) * res)) cyc t m = t.set m (m + 2) (v, sp) ∧ v ≤ cyc m (m + 2) ∧ v ≤ fl (((3 : ℕ) : ℚ) * res) ∧
        ((sp = .whole ∧ v = cyc m (m + 2)) ∨ (sp = .residual ∧ v = fl (((3 : ℕ) : ℚ) * res))) := by
      unfold tripleWith
      simp only
      split
      · next h => exact ⟨_, _, rfl, le_rfl, h.le, .inl ⟨rfl, rfl⟩⟩
      · next h => exact ⟨_, _, rfl, not_lt.1 h, le_rfl, .inr ⟨rfl, rfl⟩⟩
    obtain ⟨v, sp, he, hv1, hv2, hsp⟩ := hset
    rw [he]
    refine ⟨fun a z haz => ?_, fun a z haz hz hlt => ?_⟩
    · unfold Table.set
      rw [if_neg (by omega)]
      exact hF.1 a z haz
    · by_cases hq : a = m ∧ z = m + 2
      · obtain ⟨rfl, rfl⟩ := hq
        refine ⟨v, sp, by unfold Table.set; simp, ?_, ?_⟩
        · intro l hl
          cases l with
          | nil => exact absurd (show a = a + 2 + 1 from hl) (by omega)
          | cons s l =>
            obtain ⟨hs1, hs2, hs3⟩ := hl
            have hle := hs3.le
            rcases Nat.lt_or_ge s.2 (a + 2) with hlt' | hge
            · have e : cost cyc res (s :: l) = 3 • res := by
                have := cost_short cyc res l _ _ hs3 (by omega)
                unfold cost at this ⊢
                rw [List.map_cons, List.sum_cons, this, segCost, if_neg (by omega), ← add_nsmul]
                congr 1
                omega
              rw [e]
              exact hv2.trans (times_le h 3 _ (by omega))
            · have h2 : s.2 = a + 2 := by omega
              have e : cost cyc res (s :: l) = cyc a (a + 2) := by
                have := cost_short cyc res l _ _ hs3 (by omega)
                unfold cost at this ⊢
                rw [List.map_cons, List.sum_cons, this, segCost, if_pos (by omega), hs1, h2]
                simp
              rw [e]
              refine hv1.trans ?_
              have := grow h (Nat.zero_le (a + 2 + 1 - a)) (h.cyc a (a + 2))
              rwa [pow_zero, one_mul] at this
        · rcases hsp with ⟨rfl, rfl⟩ | ⟨rfl, rfl⟩
          · rfl
          · exact ⟨rfl, rfl⟩
      · refine entryFl_set (by omega) haz hq (hF.2 a z haz hz ?_)
        omega

theorem tableFl_ok (h : Setting u fl cyc res) (n : ℕ) :
    ∃ t, tableWith (fun a b => fl (a + b)) (fun k => fl ((k : ℚ) * res)) cyc n = some t ∧ FilledFl u fl cyc res n n 0 t := by
  have h0 := triplesFl_ok h n (n - 2) le_rfl
  have h1 := h0.next
  obtain ⟨t, ht, hF⟩ := rowsFl_ok h (n := n) (n - 3) 3 _ le_rfl h1
  refine ⟨t, ht, hF.1, fun a z h1 h2 h3 => hF.2 a z h1 h2 (.inl (by omega))⟩

/-- What is recovered from a filled table: its exact cost is near the score. -/
theorem recoverFl_ok (h : Setting u fl cyc res) {n : ℕ} {t : Table ℚ} (hF : FilledFl u fl cyc res n n 0 t) :
    ∀ (len a z f : ℕ), z - a = len → a ≤ z → z < n → len < f → ∃ l v, recover t true f a z = some l ∧ Covers a l (z + 1) ∧
      partFl fl res t a z = some v ∧ (1 - u) ^ (z + 1 - a) * cost cyc res l ≤ v := by
  intro len
  induction len using Nat.strong_induction_on with
  | _ len ih =>
    intro a z f hlen haz hz hf
    obtain ⟨f, rfl⟩ : ∃ g, f = g + 1 := ⟨f - 1, by omega⟩
    rcases Nat.lt_or_ge z (a + 2) with hlt | hge
    · have hn := hF.1 a z hlt
      refine ⟨(List.range' a (z + 1 - a)).map (fun i => (i, i)), fl (((z + 1 - a : ℕ) : ℚ) * res), ?_, ?_, ?_, ?_⟩
      · rw [recover, hn]; rfl
      · have := covers_singletons a (z + 1 - a)
        rwa [show a + (z + 1 - a) = z + 1 by omega] at this
      · unfold partFl; rw [if_pos (by omega)]
      · rw [cost_singletons]
        exact le_times h _ _ (by omega)
    · obtain ⟨v, sp, h1, _, h3⟩ := hF.2 a z hge hz (by omega)
      have hp : partFl fl res t a z = some v := by unfold partFl; rw [if_neg (by omega), h1]; rfl
      cases sp with
      | whole =>
        refine ⟨[(a, z)], v, by rw [recover, h1], ⟨rfl, haz, rfl⟩, hp, ?_⟩
        have e : cost cyc res [(a, z)] = cyc a z := by
          unfold cost; rw [List.map_singleton, List.sum_singleton, segCost, if_pos hge]
        rw [e, h3]
        have := shrink h (Nat.zero_le (z + 1 - a)) (h.cyc a z)
        rwa [pow_zero, one_mul] at this
      | residual =>
        obtain ⟨rfl, rfl⟩ := h3
        refine ⟨(List.range' a (a + 2 + 1 - a)).map (fun i => (i, i)), fl (((3 : ℕ) : ℚ) * res), ?_, ?_, hp, ?_⟩
        · rw [recover, h1]; rfl
        · have := covers_singletons a (a + 2 + 1 - a)
          rwa [show a + (a + 2 + 1 - a) = a + 2 + 1 by omega] at this
        · rw [cost_singletons, show a + 2 + 1 - a = 3 by omega]
          exact le_times h 3 3 (by omega)
      | «at» im =>
        obtain ⟨h4, h5, vl, vr, h6, h7, h8⟩ := h3
        obtain ⟨ll, wl, hl1, hl3, hl4, hl5⟩ := ih (im - a) (by omega) a im f rfl h4 (by omega) (by omega)
        obtain ⟨lr, wr, hr1, hr3, hr4, hr5⟩ := ih (z - (im + 1)) (by omega) (im + 1) z f rfl (by omega) hz (by omega)
        rw [h6] at hl4; cases hl4
        rw [h7] at hr4; cases hr4
        refine ⟨ll ++ lr, v, ?_, hl3.append hr3, hp, ?_⟩
        · rw [recover, h1]; simp only [hl1, hr1]
        · rw [h8, cost_append]
          have n1 : 0 ≤ vl := entry_nonneg h hF h4 (by omega) (by omega) h6
          have n2 : 0 ≤ vr := entry_nonneg h hF (by omega) hz (by omega) h7
          refine le_trans ?_ (h.fl _ (add_nonneg n1 n2)).1
          obtain ⟨m', hm'⟩ : ∃ m', z + 1 - a = m' + 1 := ⟨z - a, by omega⟩
          rw [hm', pow_succ, mul_comm _ (1 - u), mul_assoc]
          refine mul_le_mul_of_nonneg_left ?_ (by linarith [h.u1])
          rw [mul_add]
          exact add_le_add ((shrink h (by omega) (cost_nonneg h _)).trans hl5) ((shrink h (by omega) (cost_nonneg h _)).trans hr5)

/-- The segmentation found with rounded sums, for any rounding with relative error `u`. -/
theorem dp_rounded (h : Setting u fl cyc res) (n : ℕ) (hn : 1 ≤ n) :
    ∃ t l, tableWith (fun a b => fl (a + b)) (fun k => fl ((k : ℚ) * res)) cyc n = some t ∧ recover t true n 0 (n - 1) = some l ∧ Covers 0 l n ∧
      ∀ l', Covers 0 l' n → (1 - u) ^ n * cost cyc res l ≤ (1 + u) ^ n * cost cyc res l' := by
  obtain ⟨t, ht, hF⟩ := tableFl_ok h n
  obtain ⟨l, v, h1, h3, h4, h5⟩ := recoverFl_ok h hF (n - 1) 0 (n - 1) n (by omega) (by omega) (by omega) (by omega)
  have e : n - 1 + 1 = n := by omega
  rw [e] at h3
  refine ⟨t, l, ht, h1, h3, fun l' hl' => ?_⟩
  obtain ⟨v', h6, h7⟩ := partFl_opt h hF 0 (n - 1) (by omega) (by omega) (by omega)
  rw [h4] at h6
  cases h6
  rw [e, Nat.sub_zero] at h5 h7
  exact h5.trans (h7 l' hl')

end

/-! ## C138 -/

theorem dbl_setting (cyc : ℕ → ℕ → ℚ) (res : ℚ) (hc : ∀ a z, 0 ≤ cyc a z) (hr : 0 ≤ res) : Setting (1 / 2 ^ 53) MinSupp.dbl cyc res :=
  ⟨by norm_num, by norm_num, dbl_rounds, hc, hr⟩

/-- Full statement: the segmentation computed in floating point costs at most as much as every other. Proved: up to a factor `1 + 2 ^ -44`, for at most 200 occurrences, which is what the code passes to the dynamic program (it cuts
longer lists into blocks of 100). False without the factor (`rounding_matters`). -/
theorem dp_double_partial (cyc : ℕ → ℕ → ℚ) (res : ℚ) (hc : ∀ a z, 0 ≤ cyc a z) (hr : 0 ≤ res) (n : ℕ) (hn : 1 ≤ n) (hn2 : n ≤ 200) :
    ∃ t l, tableDbl cyc res n = some t ∧ recover t true n 0 (n - 1) = some l ∧ Covers 0 l n ∧
      ∀ l', Covers 0 l' n → cost cyc res l ≤ (1 + 1 / 2 ^ 44) * cost cyc res l' := by
  have h := dbl_setting cyc res hc hr
  obtain ⟨t, l, h1, h2, h3, h4⟩ := dp_rounded h n hn
  refine ⟨t, l, h1, h2, h3, fun l' hl' => ?_⟩
  have hx := cost_nonneg h l
  have hy := cost_nonneg h l'
  have h5 := (shrink h hn2 hx).trans ((h4 l' hl').trans (grow h hn2 hy))
  have h6 : ((1 : ℚ) + 1 / 2 ^ 53) ^ 200 ≤ (1 - 1 / 2 ^ 53) ^ 200 * (1 + 1 / 2 ^ 44) := by norm_num
  have h7 : (0 : ℚ) < (1 - 1 / 2 ^ 53) ^ 200 := by norm_num
  have h8 := h5.trans (mul_le_mul_of_nonneg_right h6 hy)
  rw [mul_assoc] at h8
  exact le_of_mul_le_mul_left h8 h7

/-- Costs of four occurrences, all doubles: a residual costs `2 ^ 53 - 1`, a cycle of the first three `1 / 2`, one of all four `2 ^ 53`. -/
def fourCosts (a z : ℕ) : ℚ := if a = 0 ∧ z = 2 then 1 / 2 else if a = 0 ∧ z = 3 then 2 ^ 53 else 2 ^ 60

/-- The first three in a cycle and the last a residual cost `2 ^ 53 - 1 / 2`, which rounds to the cost of one cycle: the cycle is returned, though it costs more. -/
theorem rounding_matters : (tableDbl fourCosts (2 ^ 53 - 1) 4).bind (fun t => recover t true 4 0 3) = some [(0, 3)] ∧
    Covers 0 [(0, 2), (3, 3)] 4 ∧ cost fourCosts (2 ^ 53 - 1) [(0, 2), (3, 3)] < cost fourCosts (2 ^ 53 - 1) [(0, 3)] := by
  refine ⟨by decide +kernel, ⟨rfl, by decide, rfl, by decide, rfl⟩, by decide +kernel⟩

/-- With the next double as the cost of all four, the two parts are found. -/
example : (tableDbl (fun a z => if a = 0 ∧ z = 3 then 2 ^ 53 + 2 else fourCosts a z) (2 ^ 53 - 1) 4).bind (fun t => recover t true 4 0 3) = some [(0, 2), (3, 3)] := by
  decide +kernel

end Verif.Cycles
