import Verif.Cycles.Model
import Verif.Cycles.Spec
import Mathlib.Algebra.Order.Monoid.Unbundled.Basic
import Mathlib.Tactic.Abel

set_option autoImplicit false
set_option linter.unusedSectionVars false

namespace Verif.Cycles

variable {C : Type*} [AddCommGroup C] [LinearOrder C] [IsOrderedAddMonoid C]

/-! ### Segmentations -/

theorem Covers.le {l : List (ℕ × ℕ)} : ∀ {a e : ℕ}, Covers a l e → a ≤ e := by
  induction l with
  | nil => intro a e h; exact le_of_eq h
  | cons s l ih => rintro a e ⟨h1, h2, h3⟩; have := ih h3; omega

theorem Covers.append {l l' : List (ℕ × ℕ)} : ∀ {a b e : ℕ}, Covers a l b → Covers b l' e → Covers a (l ++ l') e := by
  induction l with
  | nil => intro a b e h h'; rw [show a = b from h]; exact h'
  | cons s l ih => rintro a b e ⟨h1, h2, h3⟩ h'; exact ⟨h1, h2, ih h3 h'⟩

omit [LinearOrder C] [IsOrderedAddMonoid C] in
theorem cost_append (cyc : ℕ → ℕ → C) (res : C) (l l' : List (ℕ × ℕ)) : cost cyc res (l ++ l') = cost cyc res l + cost cyc res l' := by
  unfold cost; rw [List.map_append, List.sum_append]

omit [LinearOrder C] [IsOrderedAddMonoid C] in
/-- Short stretches only have residuals. -/
theorem cost_short (cyc : ℕ → ℕ → C) (res : C) (l : List (ℕ × ℕ)) : ∀ (a e : ℕ), Covers a l e → e ≤ a + 2 →
    cost cyc res l = (e - a) • res := by
  induction l with
  | nil => intro a e h _; rw [show a = e from h]; simp [cost]
  | cons s l ih =>
    rintro a e ⟨h1, h2, h3⟩ he
    have hle := h3.le
    have := ih _ _ h3 (by omega)
    unfold cost at this ⊢
    rw [List.map_cons, List.sum_cons, this, segCost, if_neg (by omega), ← add_nsmul]
    congr 1
    omega

theorem covers_singletons (a : ℕ) (m : ℕ) : Covers a ((List.range' a m).map (fun i => (i, i))) (a + m) := by
  induction m generalizing a with
  | zero => rfl
  | succ m ih =>
    rw [List.range'_succ, List.map_cons]
    exact ⟨rfl, le_rfl, by have := ih (a + 1); rwa [show a + 1 + m = a + (m + 1) by omega] at this⟩

omit [LinearOrder C] [IsOrderedAddMonoid C] in
theorem cost_singletons (cyc : ℕ → ℕ → C) (res : C) (a m : ℕ) : cost cyc res ((List.range' a m).map (fun i => (i, i))) = m • res := by
  induction m generalizing a with
  | zero => simp [cost]
  | succ m ih =>
    have := ih (a + 1)
    unfold cost at this ⊢
    rw [List.range'_succ, List.map_cons, List.map_cons, List.sum_cons, this, segCost, if_neg (by simp)]
    simp only [Nat.add_sub_cancel_left]
    rw [← add_nsmul, Nat.add_comm]

/-! ### The table -/

/-- Score of a stretch as the code reads it. -/
def part (res : C) (t : Table C) (a z : ℕ) : Option C := if z + 1 - a ≤ 2 then some ((z + 1 - a) • res) else (t a z).map Prod.fst

/-- A table entry: optimal score, justified by its split point. -/
def EntryOk (cyc : ℕ → ℕ → C) (res : C) (t : Table C) (a z : ℕ) : Prop :=
  ∃ v sp, t a z = some (v, sp) ∧ (∀ l, Covers a l (z + 1) → v ≤ cost cyc res l) ∧
    match sp with
    | .whole => v = cyc a z
    | .residual => z = a + 2 ∧ v = 3 • res
    | .at im => a ≤ im ∧ im < z ∧ ∃ vl vr, part res t a im = some vl ∧ part res t (im + 1) z = some vr ∧ v = vl + vr

/-- Entries filled so far: all lengths below `k`, and the first `m` starts for length `k`. -/
def Filled (cyc : ℕ → ℕ → C) (res : C) (n k m : ℕ) (t : Table C) : Prop :=
  (∀ a z, z < a + 2 → t a z = none) ∧
  ∀ a z, a + 2 ≤ z → z < n → (z - a < k ∨ (z - a = k ∧ a < m)) → EntryOk cyc res t a z

theorem part_set (res : C) (t : Table C) (ia iz a z : ℕ) (v : C × Split) (h : ¬ (a = ia ∧ z = iz)) :
    part res (t.set ia iz v) a z = part res t a z := by
  unfold part Table.set
  simp only [if_neg h]

theorem entryOk_set {cyc : ℕ → ℕ → C} {res : C} {t : Table C} {ia iz a z : ℕ} {v : C × Split} (hlen : z - a ≤ iz - ia)
    (hz : a + 2 ≤ z) (h : ¬ (a = ia ∧ z = iz)) (he : EntryOk cyc res t a z) : EntryOk cyc res (t.set ia iz v) a z := by
  obtain ⟨w, sp, h1, h2, h3⟩ := he
  refine ⟨w, sp, ?_, h2, ?_⟩
  · unfold Table.set; rw [if_neg h]; exact h1
  · cases sp with
    | whole => exact h3
    | residual => exact h3
    | «at» im =>
      obtain ⟨h4, h5, vl, vr, h6, h7, h8⟩ := h3
      refine ⟨h4, h5, vl, vr, ?_, ?_, h8⟩
      · rw [part_set _ _ _ _ _ _ _ (by omega)]; exact h6
      · rw [part_set _ _ _ _ _ _ _ (by omega)]; exact h7

theorem part_opt {cyc : ℕ → ℕ → C} {res : C} {n k m : ℕ} {t : Table C} (hF : Filled cyc res n k m t) (a z : ℕ) (haz : a ≤ z) (hz : z < n) (hk : z - a < k) :
    ∃ v, part res t a z = some v ∧ ∀ l, Covers a l (z + 1) → v ≤ cost cyc res l := by
  unfold part
  split
  · next h => exact ⟨_, rfl, fun l hl => le_of_eq (cost_short cyc res l a (z + 1) hl (by omega)).symm⟩
  · next h =>
    obtain ⟨v, sp, h1, h2, _⟩ := hF.2 a z (by omega) hz (.inl hk)
    exact ⟨v, by rw [h1]; rfl, h2⟩

theorem splitStep_eq (res : C) (t : Table C) (ia iz : ℕ) (best : C × Split) (im : ℕ) (h1 : ia ≤ im) (h2 : im < iz) :
    splitStep res t ia iz best im = match part res t ia im, part res t (im + 1) iz with
      | some l, some r => if l + r < best.1 then some (l + r, .at im) else some best
      | _, _ => none := by
  unfold splitStep part
  have e1 : im - ia + 1 = im + 1 - ia := by omega
  have e2 : iz - im = iz + 1 - (im + 1) := by omega
  rw [e1, e2]
  generalize (if im + 1 - ia ≤ 2 then some ((im + 1 - ia) • res) else (t ia im).map Prod.fst) = x
  generalize (if iz + 1 - (im + 1) ≤ 2 then some ((iz + 1 - (im + 1)) • res) else (t (im + 1) iz).map Prod.fst) = y
  cases x <;> cases y <;> rfl

/-- The search of the split point: the score found is the least of the whole segment and of the two-part scores. -/
theorem splitLoop {res : C} {t : Table C} {ia iz : ℕ} (hpart : ∀ im, ia ≤ im → im < iz → ∃ vl vr,
    part res t ia im = some vl ∧ part res t (im + 1) iz = some vr) :
    ∀ (ims : List ℕ), (∀ im ∈ ims, ia ≤ im ∧ im < iz) → ∀ b : C × Split, ∃ b', ims.foldlM (splitStep res t ia iz) b = some b' ∧
      b'.1 ≤ b.1 ∧ (∀ im ∈ ims, ∀ vl vr, part res t ia im = some vl → part res t (im + 1) iz = some vr → b'.1 ≤ vl + vr) ∧
      (b' = b ∨ ∃ im ∈ ims, ∃ vl vr, part res t ia im = some vl ∧ part res t (im + 1) iz = some vr ∧ b' = (vl + vr, .at im)) := by
  intro ims
  induction ims with
  | nil => intro _ b; exact ⟨b, rfl, le_rfl, by simp, .inl rfl⟩
  | cons im ims ih =>
    intro hims b
    obtain ⟨hi1, hi2⟩ := hims im (by simp)
    obtain ⟨vl, vr, hl, hr⟩ := hpart im hi1 hi2
    have hstep : ∃ b1, splitStep res t ia iz b im = some b1 ∧ b1.1 ≤ b.1 ∧ b1.1 ≤ vl + vr ∧ (b1 = b ∨ b1 = (vl + vr, .at im)) := by
      rw [splitStep_eq _ _ _ _ _ _ hi1 hi2, hl, hr]
      simp only
      split
      · next h => exact ⟨_, rfl, h.le, le_rfl, .inr rfl⟩
      · next h => exact ⟨_, rfl, le_rfl, not_lt.1 h, .inl rfl⟩
    obtain ⟨b1, hb1, hb2, hb3, hb4⟩ := hstep
    obtain ⟨b', h1, h2, h3, h4⟩ := ih (fun x hx => hims x (List.mem_cons_of_mem _ hx)) b1
    refine ⟨b', ?_, h2.trans hb2, ?_, ?_⟩
    · rw [List.foldlM_cons, hb1]; exact h1
    · intro x hx wl wr hwl hwr
      rcases List.mem_cons.1 hx with rfl | hx
      · rw [hl] at hwl; rw [hr] at hwr; cases hwl; cases hwr
        exact h2.trans hb3
      · exact h3 x hx wl wr hwl hwr
    · rcases h4 with rfl | ⟨x, hx, wl, wr, hwl, hwr, he⟩
      · rcases hb4 with rfl | rfl
        · exact .inl rfl
        · exact .inr ⟨im, by simp, vl, vr, hl, hr, rfl⟩
      · exact .inr ⟨x, List.mem_cons_of_mem _ hx, wl, wr, hwl, hwr, he⟩

/-- One cell. -/
theorem cell_ok {cyc : ℕ → ℕ → C} {res : C} {n k m : ℕ} {t : Table C} (hk : 3 ≤ k) (hm : m + k < n) (hF : Filled cyc res n k m t) :
    ∃ t', cell cyc res t m (m + k) = some t' ∧ Filled cyc res n k (m + 1) t' := by
  have hpart : ∀ im, m ≤ im → im < m + k → ∃ vl vr, part res t m im = some vl ∧ part res t (im + 1) (m + k) = some vr := by
    intro im h1 h2
    obtain ⟨vl, hvl, _⟩ := part_opt hF m im h1 (by omega) (by omega)
    obtain ⟨vr, hvr, _⟩ := part_opt hF (im + 1) (m + k) (by omega) hm (by omega)
    exact ⟨vl, vr, hvl, hvr⟩
  obtain ⟨b, hb, h1, h2, h3⟩ := splitLoop hpart (List.range' m (m + k - m)) (by
    intro im him; rw [List.mem_range'_1] at him; omega) (cyc m (m + k), .whole)
  refine ⟨t.set m (m + k) b, by unfold cell; rw [hb]; rfl, ?_, ?_⟩
  · intro a z haz
    unfold Table.set
    rw [if_neg (by omega)]
    exact hF.1 a z haz
  · intro a z haz hz hlt
    by_cases he : a = m ∧ z = m + k
    · obtain ⟨rfl, rfl⟩ := he
      refine ⟨b.1, b.2, by unfold Table.set; simp, ?_, ?_⟩
      · intro l hl
        cases l with
        | nil => exact absurd (show a = a + k + 1 from hl) (by omega)
        | cons s l =>
          obtain ⟨hs1, hs2, hs3⟩ := hl
          have hle := hs3.le
          rcases Nat.lt_or_ge s.2 (a + k) with hlt' | hge
          · have h4 := h2 s.2 (by rw [List.mem_range'_1]; omega)
            obtain ⟨vl, hvl, hol⟩ := part_opt hF a s.2 (by omega) (by omega) (by omega)
            obtain ⟨vr, hvr, hor⟩ := part_opt hF (s.2 + 1) (a + k) (by omega) hm (by omega)
            refine (h4 vl vr hvl hvr).trans ?_
            have e : cost cyc res (s :: l) = cost cyc res [s] + cost cyc res l := by rw [← cost_append]; rfl
            rw [e]
            exact add_le_add (hol [s] ⟨hs1, hs2, rfl⟩) (hor l hs3)
          · have : s.2 = a + k := by omega
            rw [this] at hs3
            have hl0 : l = [] := by
              cases l with
              | nil => rfl
              | cons s' l' =>
                obtain ⟨h5, h6, h7⟩ := hs3
                have := h7.le
                omega
            subst hl0
            refine h1.trans (le_of_eq ?_)
            unfold cost
            rw [List.map_singleton, List.sum_singleton, segCost, if_pos (by omega), hs1, this]
      · rcases h3 with rfl | ⟨im, him, vl, vr, hvl, hvr, rfl⟩
        · rfl
        · rw [List.mem_range'_1] at him
          refine ⟨him.1, by omega, vl, vr, ?_, ?_, rfl⟩
          · rw [part_set _ _ _ _ _ _ _ (by omega)]; exact hvl
          · rw [part_set _ _ _ _ _ _ _ (by omega)]; exact hvr
    · refine entryOk_set (by omega) haz he (hF.2 a z haz hz ?_)
      rcases hlt with h | ⟨h, h'⟩
      · exact .inl h
      · exact .inr ⟨h, by omega⟩

theorem row_ok {cyc : ℕ → ℕ → C} {res : C} {n k : ℕ} {t : Table C} (hk : 3 ≤ k) (hF : Filled cyc res n k 0 t) :
    ∀ m, m ≤ n - k → ∃ t', (List.range m).foldlM (fun t ia => cell cyc res t ia (ia + k)) t = some t' ∧ Filled cyc res n k m t' := by
  intro m
  induction m with
  | zero => intro _; exact ⟨t, rfl, hF⟩
  | succ m ih =>
    intro hm
    obtain ⟨t1, h1, h2⟩ := ih (by omega)
    obtain ⟨t2, h3, h4⟩ := cell_ok (m := m) hk (by omega) h2
    refine ⟨t2, ?_, h4⟩
    rw [List.range_succ, List.foldlM_append, h1]
    simp [h3]

theorem Filled.next {cyc : ℕ → ℕ → C} {res : C} {n k : ℕ} {t : Table C} (hF : Filled cyc res n k (n - k) t) : Filled cyc res n (k + 1) 0 t := by
  refine ⟨hF.1, fun a z h1 h2 h3 => hF.2 a z h1 h2 ?_⟩
  omega

theorem rows_ok {cyc : ℕ → ℕ → C} {res : C} {n : ℕ} : ∀ (j k : ℕ) (t : Table C), 3 ≤ k → Filled cyc res n k 0 t →
    ∃ t', (List.range' k j).foldlM (fun t k => (List.range (n - k)).foldlM (fun t ia => cell cyc res t ia (ia + k)) t) t = some t' ∧
      Filled cyc res n (k + j) 0 t' := by
  intro j
  induction j with
  | zero => intro k t _ hF; exact ⟨t, rfl, hF⟩
  | succ j ih =>
    intro k t hk hF
    obtain ⟨t1, h1, h2⟩ := row_ok hk hF (n - k) le_rfl
    obtain ⟨t2, h3, h4⟩ := ih (k + 1) t1 (by omega) h2.next
    refine ⟨t2, ?_, by rwa [show k + 1 + j = k + (j + 1) by omega] at h4⟩
    rw [List.range'_succ, List.foldlM_cons, h1]
    exact h3

/-- The segments of three occurrences. -/
theorem triples_ok (cyc : ℕ → ℕ → C) (res : C) (n : ℕ) : ∀ m, m ≤ n - 2 →
    Filled cyc res n 2 m ((List.range m).foldl (triple cyc res) (fun _ _ => none)) := by
  intro m
  induction m with
  | zero => intro _; exact ⟨fun _ _ _ => rfl, fun a z h1 h2 h3 => by omega⟩
  | succ m ih =>
    intro hm
    have hF := ih (by omega)
    rw [List.range_succ, List.foldl_append, List.foldl_cons, List.foldl_nil]
    generalize (List.range m).foldl (triple cyc res) (fun _ _ => none) = t at hF
    have hset : ∃ v sp, triple cyc res t m = t.set m (m + 2) (v, sp) ∧ v ≤ cyc m (m + 2) ∧ v ≤ 3 • res ∧
        ((sp = .whole ∧ v = cyc m (m + 2)) ∨ (sp = .residual ∧ v = 3 • res)) := by
      unfold triple
      simp only
      split
      · next h => exact ⟨_, _, rfl, le_rfl, h.le, .inl ⟨rfl, rfl⟩⟩
      · next h => exact ⟨_, _, rfl, not_lt.1 h, le_rfl, .inr ⟨rfl, rfl⟩⟩
    obtain ⟨v, sp, he, hv1, hv2, hsp⟩ := hset
    rw [he]
    refine ⟨fun a z haz => ?_, fun a z haz hz hlt => ?_⟩
    · unfold Table.set
      rw [if_neg (by omega)]
      exact hF.1 a z haz
    · by_cases hq : a = m ∧ z = m + 2
      · obtain ⟨rfl, rfl⟩ := hq
        refine ⟨v, sp, by unfold Table.set; simp, ?_, ?_⟩
        · intro l hl
          cases l with
          | nil => exact absurd (show a = a + 2 + 1 from hl) (by omega)
          | cons s l =>
            obtain ⟨hs1, hs2, hs3⟩ := hl
            have hle := hs3.le
            rcases Nat.lt_or_ge s.2 (a + 2) with hlt' | hge
            · refine hv2.trans (le_of_eq ?_)
              have := cost_short cyc res l _ _ hs3 (by omega)
              unfold cost at this ⊢
              rw [List.map_cons, List.sum_cons, this, segCost, if_neg (by omega), ← add_nsmul]
              congr 1
              omega
            · have h2 : s.2 = a + 2 := by omega
              refine hv1.trans (le_of_eq ?_)
              have := cost_short cyc res l _ _ hs3 (by omega)
              unfold cost at this ⊢
              rw [List.map_cons, List.sum_cons, this, segCost, if_pos (by omega), hs1, h2]
              simp
        · rcases hsp with ⟨rfl, rfl⟩ | ⟨rfl, rfl⟩
          · rfl
          · exact ⟨rfl, rfl⟩
      · refine entryOk_set (by omega) haz hq (hF.2 a z haz hz ?_)
        omega

theorem computeTable_ok (cyc : ℕ → ℕ → C) (res : C) (n : ℕ) :
    ∃ t, computeTable cyc res n = some t ∧ Filled cyc res n n 0 t := by
  have h0 := triples_ok cyc res n (n - 2) le_rfl
  have h1 : Filled cyc res n 3 0 ((List.range (n - 2)).foldl (triple cyc res) (fun _ _ => none)) := h0.next
  obtain ⟨t, ht, hF⟩ := rows_ok (cyc := cyc) (res := res) (n := n) (n - 3) 3 _ le_rfl h1
  refine ⟨t, ht, hF.1, fun a z h1 h2 h3 => hF.2 a z h1 h2 (.inl (by omega))⟩

/-- What is recovered from a filled table. -/
theorem recover_ok {cyc : ℕ → ℕ → C} {res : C} {n : ℕ} {t : Table C} (hF : Filled cyc res n n 0 t) :
    ∀ (len a z f : ℕ), z - a = len → a ≤ z → z < n → len < f → ∃ l v, recover t true f a z = some l ∧
      recover t false f a z = some (l.filter (fun s => s.1 + 2 ≤ s.2)) ∧ Covers a l (z + 1) ∧
      part res t a z = some v ∧ cost cyc res l = v := by
  intro len
  induction len using Nat.strong_induction_on with
  | _ len ih =>
    intro a z f hlen haz hz hf
    obtain ⟨f, rfl⟩ : ∃ g, f = g + 1 := ⟨f - 1, by omega⟩
    have hfilter : ∀ (a m : ℕ), ((List.range' a m).map (fun i => (i, i))).filter (fun s => s.1 + 2 ≤ s.2) = [] := by
      intro a m
      rw [List.filter_eq_nil_iff]
      intro s hs
      obtain ⟨i, _, rfl⟩ := List.mem_map.1 hs
      simp
    rcases Nat.lt_or_ge z (a + 2) with hlt | hge
    · have hn := hF.1 a z hlt
      refine ⟨(List.range' a (z + 1 - a)).map (fun i => (i, i)), (z + 1 - a) • res, ?_, ?_, ?_, ?_, cost_singletons _ _ _ _⟩
      · rw [recover, hn]; rfl
      · rw [recover, hn, hfilter]; rfl
      · have := covers_singletons a (z + 1 - a)
        rwa [show a + (z + 1 - a) = z + 1 by omega] at this
      · unfold part; rw [if_pos (by omega)]
    · obtain ⟨v, sp, h1, _, h3⟩ := hF.2 a z hge hz (by omega)
      have hp : part res t a z = some v := by unfold part; rw [if_neg (by omega), h1]; rfl
      cases sp with
      | whole =>
        refine ⟨[(a, z)], v, by rw [recover, h1], ?_, ⟨rfl, haz, rfl⟩, hp, ?_⟩
        · rw [recover, h1]
          simp [hge]
        · unfold cost; rw [List.map_singleton, List.sum_singleton, segCost, if_pos hge]; exact h3.symm
      | residual =>
        obtain ⟨rfl, rfl⟩ := h3
        refine ⟨(List.range' a (a + 2 + 1 - a)).map (fun i => (i, i)), 3 • res, ?_, ?_, ?_, hp, ?_⟩
        · rw [recover, h1]; rfl
        · rw [recover, h1, hfilter]; rfl
        · have := covers_singletons a (a + 2 + 1 - a)
          rwa [show a + (a + 2 + 1 - a) = a + 2 + 1 by omega] at this
        · rw [cost_singletons]; congr 1; omega
      | «at» im =>
        obtain ⟨h4, h5, vl, vr, h6, h7, h8⟩ := h3
        obtain ⟨ll, wl, hl1, hl2, hl3, hl4, hl5⟩ := ih (im - a) (by omega) a im f rfl h4 (by omega) (by omega)
        obtain ⟨lr, wr, hr1, hr2, hr3, hr4, hr5⟩ := ih (z - (im + 1)) (by omega) (im + 1) z f rfl (by omega) hz (by omega)
        rw [h6] at hl4; cases hl4
        rw [h7] at hr4; cases hr4
        refine ⟨ll ++ lr, v, ?_, ?_, hl3.append hr3, hp, by rw [cost_append, hl5, hr5, h8]⟩
        · rw [recover, h1]; simp only [hl1, hr1]
        · rw [recover, h1]; simp only [hl2, hr2, List.filter_append]

end Verif.Cycles
