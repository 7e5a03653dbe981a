import Verif.Mine.ShiftProps
import Verif.Select.Props

/-!
# Automatic time scale: the origin and the unit of times (C124)

Source: `/repo/skmine/periodic/cycles.py:97-191,483-561`. The models are those of C33 (scale), C36 (fit, reconstruct) and C71 (mining of simple cycles).
-/

set_option autoImplicit false
set_option linter.unusedSectionVars false

namespace Verif.Mine

open Verif.DataSeq Verif.Miner Verif.PTree Verif.TimeScale

/-! ### Specification -/

/-- The rows of a series, all times multiplied by `a` (the same times in a smaller unit). -/
def scaleRows {β : Type} (a : ℤ) (rows : List (ℤ × β)) : List (ℤ × β) := rows.map (fun x => (x.1 * a, x.2))

/-- A day in nanoseconds. -/
def day : ℤ := 86400 * 10 ^ 9

/-! ### The scale -/

/-- The scale `10^n * d` fits the times and no larger one does. -/
structure HasScale (ts : List ℤ) (n d : ℕ) : Prop where
  n_le : n ≤ 9
  d_mem : d ∈ [1, 60, 3600, 86400]
  small : n < 9 → d = 1
  mult : AllMultiples (10 ^ n * d) ts
  n_max : n < 9 → ¬ AllMultiples (10 ^ (n + 1)) ts
  d_max : n = 9 → ∀ d' ∈ [1, 60, 3600, 86400], d < d' → ¬ AllMultiples (10 ^ 9 * (d' : ℤ)) ts

theorem HasScale.unique {ts : List ℤ} {n d n' d' : ℕ} (h : HasScale ts n d) (h' : HasScale ts n' d') : n = n' ∧ d = d' := by
  have key : ∀ {n d n' d' : ℕ}, HasScale ts n d → HasScale ts n' d' → n' ≤ n := by
    intro n d n' d' h h'
    by_contra hlt
    have h9 := h'.n_le
    refine h.n_max (by omega) (fun t ht => ?_)
    refine dvd_trans ?_ (h'.mult t ht)
    exact dvd_mul_of_dvd_left (pow_dvd_pow 10 (by omega)) _
  have hn : n = n' := le_antisymm (key h' h) (key h h')
  subst hn
  refine ⟨rfl, ?_⟩
  by_cases h9 : n = 9
  · subst h9
    rcases lt_trichotomy d d' with hlt | heq | hlt
    · exact absurd h'.mult (h.d_max rfl d' h'.d_mem hlt)
    · exact heq
    · exact absurd h.mult (h'.d_max rfl d h.d_mem hlt)
  · have := h.n_le
    rw [h.small (by omega), h'.small (by omega)]

theorem scale_pos {ts : List ℤ} {n d : ℕ} (h : HasScale ts n d) : (0 : ℤ) < 10 ^ n * d := by
  have : 0 < d := by
    have := h.d_mem
    simp only [List.mem_cons, List.not_mem_nil, or_false] at this
    omega
  positivity

theorem autoscale_hasScale (ts : List ℤ) : ∃ (n d : ℕ) (u : TimeScale.Unit), autoscale ts = (ts.map (fun t : ℤ => t / (10 ^ n * (d : ℤ))), n, d, u) ∧ HasScale ts n d := by
  obtain ⟨conv, n, d, u, h1, h2, h3, h4, h5, h6, h7⟩ := autoscale_exact ts
  have hm : AllMultiples (10 ^ n * d) ts := by
    intro t ht
    rw [← h5] at ht
    obtain ⟨x, _, rfl⟩ := List.mem_map.1 ht
    exact ⟨x, by unfold restore; ring⟩
  have hs : HasScale ts n d := ⟨h2, h3, h4, hm, h6, h7⟩
  refine ⟨n, d, u, ?_, hs⟩
  have hc : conv = ts.map (fun t : ℤ => t / (10 ^ n * (d : ℤ))) := by
    conv_rhs => rw [← h5]
    rw [List.map_map]
    conv_lhs => rw [← List.map_id conv]
    refine List.map_congr_left (fun x _ => ?_)
    simp only [Function.comp, id, restore]
    rw [mul_assoc, Int.mul_ediv_cancel _ (scale_pos hs).ne']
  rw [h1, hc]

theorem autoscale_of (ts : List ℤ) (n d : ℕ) (h : HasScale ts n d) : ∃ u, autoscale ts = (ts.map (fun t : ℤ => t / (10 ^ n * (d : ℤ))), n, d, u) := by
  obtain ⟨n', d', u, h1, h2⟩ := autoscale_hasScale ts
  obtain ⟨rfl, rfl⟩ := h.unique h2
  exact ⟨u, h1⟩

theorem multiples_add (m c : ℤ) (h : m ∣ c) (ts : List ℤ) : AllMultiples m (ts.map (· + c)) ↔ AllMultiples m ts := by
  unfold AllMultiples
  rw [List.forall_mem_map]
  exact forall₂_congr (fun t _ => (dvd_add_left h))

theorem multiples_mul (m a : ℤ) (ha : a ≠ 0) (ts : List ℤ) : AllMultiples (m * a) (ts.map (· * a)) ↔ AllMultiples m ts := by
  unfold AllMultiples
  rw [List.forall_mem_map]
  exact forall₂_congr (fun t _ => mul_dvd_mul_iff_right ha)

theorem pow_dvd_day (n : ℕ) (h : n ≤ 9) : (10 : ℤ) ^ n ∣ day := dvd_mul_of_dvd_right (pow_dvd_pow 10 h) _

theorem unit_dvd_day (d : ℕ) (h : d ∈ [1, 60, 3600, 86400]) : (10 : ℤ) ^ 9 * d ∣ day := by
  unfold day
  rw [mul_comm]
  refine mul_dvd_mul ?_ (dvd_refl _)
  simp only [List.mem_cons, List.not_mem_nil, or_false] at h
  rcases h with rfl | rfl | rfl | rfl <;> decide

theorem HasScale.dvd_day {ts : List ℤ} {n d : ℕ} (h : HasScale ts n d) : (10 : ℤ) ^ n * d ∣ day := by
  by_cases h9 : n = 9
  · rw [h9]; exact unit_dvd_day d h.d_mem
  · have := h.n_le
    rw [h.small (by omega), Nat.cast_one, mul_one]
    exact pow_dvd_day n this

theorem HasScale.move {ts : List ℤ} {n d : ℕ} (h : HasScale ts n d) (c : ℤ) (hc : day ∣ c) : HasScale (ts.map (· + c)) n d :=
  ⟨h.n_le, h.d_mem, h.small, (multiples_add _ c (h.dvd_day.trans hc) ts).2 h.mult,
    fun h9 hm => h.n_max h9 ((multiples_add _ c ((pow_dvd_day (n + 1) (by omega)).trans hc) ts).1 hm),
    fun h9 d' hd' hlt hm => h.d_max h9 d' hd' hlt ((multiples_add _ c ((unit_dvd_day d' hd').trans hc) ts).1 hm)⟩

theorem HasScale.scale {ts : List ℤ} {n d : ℕ} (h : HasScale ts n d) (k : ℕ) (hk : n + k < 9) : HasScale (ts.map (· * 10 ^ k)) (n + k) 1 := by
  have hd := h.small (by omega)
  subst hd
  have h10 : (10 : ℤ) ^ k ≠ 0 := by positivity
  refine ⟨by omega, by simp, fun _ => rfl, ?_, fun _ hm => ?_, fun h9 => by omega⟩
  · have := (multiples_mul (10 ^ n * ((1 : ℕ) : ℤ)) (10 ^ k) h10 ts).2 h.mult
    rw [pow_add]
    rw [mul_right_comm] at this
    exact this
  · refine h.n_max (by omega) ((multiples_mul (10 ^ (n + 1)) (10 ^ k) h10 ts).1 ?_)
    rw [← pow_add, show n + 1 + k = n + k + 1 from by omega]
    exact hm

/-! ### The data given to the miner -/

section Data

variable {ε : Type} [LinearOrder ε]

theorem dedupRows_scale (a : ℤ) (ha : 0 < a) (rows : List (ℤ × ε)) : dedupRows (scaleRows a rows) = scaleRows a (dedupRows rows) := by
  have hinj : Function.Injective (fun x : ℤ × ε => (x.1 * a, x.2)) := fun x y h => by
    simp only [Prod.mk.injEq] at h
    exact Prod.ext (mul_right_cancel₀ ha.ne' h.1) h.2
  have hinj' : Function.Injective (fun t : ℤ => t * a) := fun x y h => mul_right_cancel₀ ha.ne' h
  have e : (scaleRows a rows).map Prod.fst = (rows.map Prod.fst).map (· * a) := by
    unfold scaleRows; rw [List.map_map, List.map_map]; rfl
  unfold dedupRows
  rw [e]
  have hn : ((rows.map Prod.fst).map (· * a)).Nodup ↔ (rows.map Prod.fst).Nodup := List.nodup_map_iff hinj'
  by_cases h : (rows.map Prod.fst).Nodup
  · rw [if_pos h, if_pos (hn.2 h)]
  · rw [if_neg h, if_neg (fun h' => h (hn.1 h'))]
    have ek : keepFirst [] ((rows.map Prod.fst).map (· * a)) = (keepFirst [] (rows.map Prod.fst)).map (· * a) := keepFirst_map _ hinj' _ []
    have es : ((keepFirst [] (rows.map Prod.fst)).map (· * a)).insertionSort (· ≤ ·) = ((keepFirst [] (rows.map Prod.fst)).insertionSort (· ≤ ·)).map (· * a) := by
      refine (List.map_insertionSort (r := fun x y : ℤ => x ≤ y) (s := fun x y : ℤ => x ≤ y) (fun t : ℤ => t * a) _ ?_).symm
      intro x _ y _
      exact (mul_le_mul_iff_left₀ ha).symm
    rw [ek, es, List.flatMap_map]
    change _ = List.map (fun x : ℤ × ε => (x.1 * a, x.2)) _
    rw [List.map_flatMap]
    refine List.flatMap_congr ?_
    intro t _
    have ef : (scaleRows a rows).filter (fun x => decide (x.1 = t * a)) = (rows.filter (fun x => decide (x.1 = t))).map (fun x => (x.1 * a, x.2)) := by
      unfold scaleRows
      rw [List.filter_map]
      congr 1
      refine List.filter_congr ?_
      intro x _
      exact decide_eq_decide.2 ⟨fun h => mul_right_cancel₀ ha.ne' h, fun h => congrArg (· * a) h⟩
    refine (congrArg (keepFirst []) ef).trans ?_
    exact keepFirst_map _ hinj _ []

theorem fitData_auto (rows : List (ℤ × ε)) (n d : ℕ) (h : HasScale ((dedupRows rows).map Prod.fst) n d) :
    fitData true rows = (ofList ((dedupRows rows).map (fun x => (x.1 / (10 ^ n * d), x.2)))).map (fun b => ⟨b, n, d⟩) := by
  obtain ⟨u, hu⟩ := autoscale_of _ n d h
  unfold fitData
  simp only [hu, if_true]
  congr 2
  rw [List.map_map, List.zip_map']
  rfl

theorem fitData_scale_of (rows : List (ℤ × ε)) (m : Fitted ε) (hm : fitData true rows = .ok m) : HasScale ((dedupRows rows).map Prod.fst) m.nZeros m.divNbSec := by
  obtain ⟨n, d, u, h1, h2⟩ := autoscale_hasScale ((dedupRows rows).map Prod.fst)
  rw [fitData_auto rows n d h2] at hm
  cases ho : ofList ((dedupRows rows).map (fun x => (x.1 / (10 ^ n * (d : ℤ)), x.2))) with
  | error e => rw [ho] at hm; cases hm
  | ok b =>
    rw [ho] at hm
    injection hm with hm
    rw [← hm]
    exact h2

theorem fitData_moved (c : ℤ) (rows : List (ℤ × ε)) (n d : ℕ) (q : ℤ) (hc : c = 10 ^ n * d * q) (h : HasScale ((dedupRows rows).map Prod.fst) n d)
    (h' : HasScale ((dedupRows (moveRows c rows)).map Prod.fst) n d) :
    ∃ m m', fitData true rows = .ok m ∧ fitData true (moveRows c rows) = .ok m' ∧ Moved q m.data m'.data ∧ m.nZeros = n ∧ m.divNbSec = d ∧ m'.nZeros = n ∧ m'.divNbSec = d := by
  obtain ⟨b, b', k1, k2, k3⟩ := ofList_move q ((dedupRows rows).map (fun x => (x.1 / (10 ^ n * (d : ℤ)), x.2)))
  refine ⟨⟨b, n, d⟩, ⟨b', n, d⟩, ?_, ?_, k3, rfl, rfl, rfl, rfl⟩
  · rw [fitData_auto rows n d h, k1]; rfl
  · rw [fitData_auto _ n d h']
    have : (dedupRows (moveRows c rows)).map (fun x => (x.1 / (10 ^ n * (d : ℤ)), x.2)) = moveRows q ((dedupRows rows).map (fun x => (x.1 / (10 ^ n * (d : ℤ)), x.2))) := by
      rw [dedupRows_move]
      unfold moveRows
      rw [List.map_map, List.map_map]
      refine List.map_congr_left (fun x _ => ?_)
      simp only [Function.comp, Prod.mk.injEq, and_true]
      rw [hc, Int.add_mul_ediv_left _ _ (scale_pos h).ne']
    rw [this, k2]; rfl

end Data

/-! ### Reconstruction -/

section Rec

variable {ε : Type} [LinearOrder ε]

/-- Patterns moved by `q` in the scale of the miner, rows changed by `g`. -/
theorem reconstruct_map (srt : Frame ε → Frame ε) (q : ℤ) (g : ℤ → ℤ) (hg : Function.Injective g)
    (hs : ∀ f : Frame ε, srt (f.map (fun r => (r.1, (g r.2.1, r.2.2)))) = (srt f).map (fun r => (r.1, (g r.2.1, r.2.2)))) (m m' : Fitted ε)
    (hdec : ∀ x : ℤ × ℕ, decode m' (x.1 + q, x.2) = (decode m x).map (fun r => (g r.1, r.2))) (ps : List Patt) (ids : List ℕ) :
    reconstruct srt m' (ps.map (movePatt q)) ids = (reconstruct srt m ps ids).map (fun f => f.map (fun r => (r.1, (g r.2.1, r.2.2)))) := by
  have hginj : Function.Injective (fun r : ℤ × ε => (g r.1, r.2)) := fun x y h => by
    simp only [Prod.mk.injEq] at h
    exact Prod.ext (hg h.1) h.2
  have hrow : ∀ p : Patt, patternRows m' (movePatt q p) = (patternRows m p).map (List.map (fun r => (g r.1, r.2))) := by
    intro p
    unfold patternRows
    simp only [movePatt]
    have hocc : getOccs p.1 (occsStar p.1 [] 0) (p.2.1 + q) p.2.2 = (getOccs p.1 (occsStar p.1 [] 0) p.2.1 p.2.2).map (sh q) := by
      unfold getOccs
      have := mapM_map' (fun o : ℤ × ℕ × Path => (getCCorr p.1 o.2.2 (getEDict (occsStar p.1 [] 0) p.2.2)).map (fun k => o.1 + p.2.1 + k))
        (fun o : ℤ × ℕ × Path => (getCCorr p.1 o.2.2 (getEDict (occsStar p.1 [] 0) p.2.2)).map (fun k => o.1 + (p.2.1 + q) + k)) id (· + q) (by
          intro o
          rw [Option.map_map]
          congr 1
          funext k
          simp only [Function.comp, id]
          ring) (occsStar p.1 [] 0)
      rw [List.map_id] at this
      exact this
    rw [hocc]
    cases getOccs p.1 (occsStar p.1 [] 0) p.2.1 p.2.2 with
    | none => rfl
    | some occs =>
      simp only [Option.map_some, Option.bind_some]
      rw [sh, List.zip_map_left]
      exact mapM_map' (decode m) (decode m') (Prod.map (· + q) id) (fun r => (g r.1, r.2)) (fun x => hdec x) _
  have hids : ids.mapM (fun i => ((ps.map (movePatt q))[i]?).bind (patternRows m')) = (ids.mapM (fun i => (ps[i]?).bind (patternRows m))).map (List.map (List.map (fun r => (g r.1, r.2)))) := by
    have := mapM_map' (fun i : ℕ => (ps[i]?).bind (patternRows m)) (fun i : ℕ => ((ps.map (movePatt q))[i]?).bind (patternRows m')) id (List.map (fun r : ℤ × ε => (g r.1, r.2))) (by
      intro i
      simp only [id]
      rw [List.getElem?_map]
      cases ps[i]? with
      | none => rfl
      | some p => exact hrow p) ids
    rw [List.map_id] at this
    exact this
  unfold reconstruct
  rw [hids]
  cases ids.mapM (fun i => (ps[i]?).bind (patternRows m)) with
  | none => rfl
  | some rs =>
    simp only [Option.map_some, Option.bind_some]
    rw [← List.map_flatten]
    by_cases h0 : rs.flatten = []
    · rw [if_pos h0, if_pos (by rw [h0]; rfl)]; rfl
    · rw [if_neg h0, if_neg (by simpa using h0), Option.map_some, List.zipIdx_map, List.map_map]
      have e : (rs.flatten.zipIdx.map (Prod.swap ∘ Prod.map (fun r : ℤ × ε => (g r.1, r.2)) id)) = (rs.flatten.zipIdx.map Prod.swap).map (fun r => (r.1, (g r.2.1, r.2.2))) := by
        rw [List.map_map]; rfl
      rw [e, hs]
      congr 1
      generalize srt (rs.flatten.zipIdx.map Prod.swap) = f
      have : ∀ (f : Frame ε) (seen : List (ℤ × ε)), dropDup (seen.map (fun r => (g r.1, r.2))) (f.map (fun r => (r.1, (g r.2.1, r.2.2)))) = (dropDup seen f).map (fun r => (r.1, (g r.2.1, r.2.2))) := by
        intro f
        induction f with
        | nil => intro seen; rfl
        | cons a f ih =>
          intro seen
          rw [List.map_cons, dropDup, dropDup]
          have hmem : (g a.2.1, a.2.2) ∈ seen.map (fun r : ℤ × ε => (g r.1, r.2)) ↔ a.2 ∈ seen := List.mem_map_of_injective hginj (a := a.2)
          by_cases hin : a.2 ∈ seen
          · rw [if_pos hin, if_pos (hmem.2 hin), ih]
          · rw [if_neg hin, if_neg (fun h => hin (hmem.1 h)), List.map_cons, ← ih, List.map_cons]
      exact this f []

theorem movePatt_zero (ps : List Patt) : ps.map (movePatt 0) = ps := by
  conv_rhs => rw [← List.map_id ps]
  refine List.map_congr_left (fun p _ => ?_)
  simp [movePatt]

end Rec

/-! ### Theorems -/

section Thms

variable {ε : Type} [LinearOrder ε]

/-- C124, unit. With automatic time scale, when all times are multiplied by `10^k` and the scale of the product is still below a second, the miner gets the same data, hence finds the same patterns (simple or complex), and
`reconstruct` gives the same rows with times multiplied by `10^k`. Missing: a scale of one second or more (`unit_matters`). -/
theorem unit_irrelevant_partial (k : ℕ) (rows : List (ℤ × ε)) (m : Fitted ε) (hm : fitData true rows = .ok m) (hk : m.nZeros + k < 9) :
    ∃ m', fitData true (scaleRows (10 ^ k) rows) = .ok m' ∧ m'.data = m.data ∧
      ∀ (ps : List Patt) (ids : List ℕ) (srt : Frame ε → Frame ε), (∀ f, srt (f.map (fun r => (r.1, (r.2.1 * 10 ^ k, r.2.2)))) = (srt f).map (fun r => (r.1, (r.2.1 * 10 ^ k, r.2.2)))) →
        (reconstruct srt m' ps ids).map (List.map Prod.snd) = (reconstruct srt m ps ids).map (fun f => scaleRows (10 ^ k) (f.map Prod.snd)) := by
  have hs := fitData_scale_of rows m hm
  have h10 : (0 : ℤ) < 10 ^ k := by positivity
  have hd : m.divNbSec = 1 := hs.small (by omega)
  have hs' : HasScale ((dedupRows (scaleRows (10 ^ k) rows)).map Prod.fst) (m.nZeros + k) 1 := by
    rw [dedupRows_scale _ h10]
    have := hs.scale k hk
    rw [List.map_map] at this
    unfold scaleRows
    rw [List.map_map]
    exact this
  have hf := fitData_auto rows _ _ hs
  rw [hm] at hf
  cases ho : ofList ((dedupRows rows).map (fun x => (x.1 / (10 ^ m.nZeros * (m.divNbSec : ℤ)), x.2))) with
  | error e => rw [ho] at hf; cases hf
  | ok b =>
    rw [ho] at hf
    injection hf with hf
    have hb : m.data = b := by rw [hf]
    have hf' := fitData_auto (scaleRows (10 ^ k) rows) _ _ hs'
    have hrows : (dedupRows (scaleRows (10 ^ k) rows)).map (fun x => (x.1 / (10 ^ (m.nZeros + k) * ((1 : ℕ) : ℤ)), x.2)) = (dedupRows rows).map (fun x => (x.1 / (10 ^ m.nZeros * (m.divNbSec : ℤ)), x.2)) := by
      rw [dedupRows_scale _ h10]
      unfold scaleRows
      rw [List.map_map]
      refine List.map_congr_left (fun x _ => ?_)
      simp only [Function.comp, Prod.mk.injEq, and_true]
      rw [hd, Nat.cast_one, mul_one, mul_one, pow_add, Int.mul_ediv_mul_of_pos_left _ _ h10]
    rw [hrows, ho] at hf'
    refine ⟨_, hf', hb.symm, ?_⟩
    intro ps ids srt hsrt
    have hr := reconstruct_map srt 0 (fun t => t * 10 ^ k) (fun x y h => mul_right_cancel₀ h10.ne' h) hsrt m ⟨b, m.nZeros + k, 1⟩ (by
      intro x
      unfold decode numToEv
      rw [hb, Option.map_map]
      congr 1
      funext e
      simp only [Function.comp, restore, hd, Prod.mk.injEq, and_true, Nat.cast_one]
      rw [pow_add]
      ring) ps ids
    rw [movePatt_zero] at hr
    rw [hr, Option.map_map]
    congr 1
    funext f
    simp [scaleRows]

variable {K : Type} [Field K] [LinearOrder K] [IsStrictOrderedRing K] {R κ : Type} [LinearOrder κ]

/-- C124, origin. With automatic time scale, a series in the order of time, all times moved by a whole number of days: the same scale is used, the same simple cycles are found, each starting later by the displacement, and
`reconstruct` gives the same rows, moved. Missing: other displacements (`hour_matters`). The costs are any costs that do not see the origin (those of the code: `exactCosts_shift`). -/
theorem days_irrelevant_partial (rws : (ℕ × Cyc K) → ℕ → ℕ → Bool → List R) (rk : R → κ) (c : ℤ) (hc : day ∣ c) (W : ℕ → Costs K) (hW : ∀ a (q : ℤ), CostsShift q (W a) (W a)) (one : ℕ → K)
    (rows : List (ℤ × ε)) (h : rows.Pairwise (fun a b => a.1 ≤ b.1)) :
    ∃ m m' q, fitData true rows = .ok m ∧ fitData true (moveRows c rows) = .ok m' ∧ m'.nZeros = m.nZeros ∧ m'.divNbSec = m.divNbSec ∧ m'.data.listEv = m.data.listEv ∧
      m'.data.evNbOccs = m.data.evNbOccs ∧ m'.data.tEnd - m'.data.tStart = m.data.tEnd - m.data.tStart ∧ restore m.nZeros m.divNbSec q = c ∧
      ∃ F, ∀ fuel, F ≤ fuel → ∃ ps, mineSimple rws rk W one fuel m.data = some ps ∧ mineSimple rws rk W one fuel m'.data = some (ps.map (movePatt q)) ∧
        (∀ srt : Frame ε → Frame ε, (∀ f, srt (f.map (fun r => (r.1, (r.2.1 + c, r.2.2)))) = (srt f).map (fun r => (r.1, (r.2.1 + c, r.2.2)))) → ∀ ids,
          (reconstruct srt m' (ps.map (movePatt q)) ids).map (List.map Prod.snd) = (reconstruct srt m ps ids).map (fun f => moveRows c (f.map Prod.snd))) := by
  obtain ⟨n, d, u, -, hs⟩ := autoscale_hasScale ((dedupRows rows).map Prod.fst)
  have hs' : HasScale ((dedupRows (moveRows c rows)).map Prod.fst) n d := by
    have := hs.move c hc
    rw [List.map_map] at this
    rw [dedupRows_move]
    unfold moveRows
    rw [List.map_map]
    exact this
  obtain ⟨q, hq⟩ := hs.dvd_day.trans hc
  obtain ⟨m, m', h1, h2, h3, z1, z2, z3, z4⟩ := fitData_moved c rows n d q hq hs hs'
  obtain ⟨m1, hm1, hd⟩ := fitData_dataOk true rows h
  rw [h1] at hm1
  obtain rfl : m = m1 := by injection hm1
  have hrest : restore m.nZeros m.divNbSec q = c := by
    unfold restore
    rw [z1, z2, hq]; ring
  refine ⟨m, m', q, h1, h2, by rw [z1, z3], by rw [z2, z4], h3.listEv, h3.counts, h3.span, hrest, (m.data.seqd.map (fun e => e.2.length)).sum + 2, ?_⟩
  intro fuel hF
  have hf : ∀ k, (getSequence m.data k).length + 2 ≤ fuel := by
    intro k
    unfold getSequence
    cases hlk : m.data.seqd.lookup k with
    | none => simp; omega
    | some ts =>
      have := List.le_sum_of_mem (List.mem_map.2 ⟨(k, ts), lookup_mem' hlk, rfl⟩ : ts.length ∈ m.data.seqd.map (fun e => e.2.length))
      rw [Option.getD_some]
      omega
  obtain ⟨_, _, ps, _, hp, _⟩ := mineSimple_ok rws rk W one fuel m.data hd hf
  refine ⟨ps, hp, ?_, ?_⟩
  · rw [mineSimple_move rws rk rws rk W W (fun a => hW a q) one fuel m.data m'.data h3 hd.1 hf, hp]; rfl
  · intro srt hsrt ids
    rw [reconstruct_map srt q (fun t => t + c) (fun x y h => add_right_cancel h) hsrt m m' (by
      intro x
      unfold decode numToEv
      rw [h3.listEv, z3, z4, ← z1, ← z2, Option.map_map]
      congr 1
      funext e
      simp only [Function.comp, Prod.mk.injEq, and_true]
      rw [← hrest]
      unfold restore
      ring) ps ids, Option.map_map]
    congr 1
    funext f
    simp [moveRows]

/-- C124, origin, with the costs of the code (exact real numbers). -/
theorem days_exact_partial (rws : (ℕ × Cyc ℝ) → ℕ → ℕ → Bool → List R) (rk : R → κ) (c : ℤ) (hc : day ∣ c) (u : ℝ) (maxP : Option ℤ) (rows : List (ℤ × ε)) (h : rows.Pairwise (fun a b => a.1 ≤ b.1)) :
    ∃ m m' q, fitData true rows = .ok m ∧ fitData true (moveRows c rows) = .ok m' ∧ restore m.nZeros m.divNbSec q = c ∧
      ∃ F, ∀ fuel, F ≤ fuel → ∃ ps,
        mineSimple rws rk (exactCosts u maxP (details m.data)) (fun a => (Cost.costOne (details m.data) a).getD u) fuel m.data = some ps ∧
        mineSimple rws rk (exactCosts u maxP (details m'.data)) (fun a => (Cost.costOne (details m'.data) a).getD u) fuel m'.data = some (ps.map (movePatt q)) := by
  obtain ⟨m, hm, -⟩ := fitData_dataOk true rows h
  obtain ⟨m1, m', q, h1, h2, -, -, -, h3, h4, h5, F, hF⟩ := days_irrelevant_partial rws rk c hc (exactCosts u maxP (details m.data)) (fun a q => exactCosts_shift u maxP (details m.data) q a)
    (fun a => (Cost.costOne (details m.data) a).getD u) rows h
  rw [hm] at h1
  obtain rfl : m = m1 := by injection h1
  obtain ⟨hD1, hD2⟩ := costs_congr (details m.data) (details m'.data) h3 h4
  refine ⟨m, m', q, hm, h2, h5, F, ?_⟩
  intro fuel hf
  obtain ⟨ps, p1, p2, -⟩ := hF fuel hf
  exact ⟨ps, p1, by rw [hD1, hD2]; exact p2⟩

end Thms

/-! ### Three equidistant occurrences of one event -/

theorem fold_three (P : Fold.Par) (a d : ℤ) (h1 : P.maxP = none) (h2 : P.small 0 = true) (h3 : P.effTrip 0 d = true) :
    Fold.extractFold P 20 [a, a + d, a + 2 * d] = some ([], [(0, d, [0, 1, 2])]) := by
  have c1 : Fold.center P 20 [a, a + d, a + 2 * d] ⟨[], [], [], []⟩ 1 = some ⟨[((1, 2), (0, d, 0))], [], [], []⟩ := by
    have e1 : Fold.aft P [a, a + d, a + 2 * d] 1 = [d] := by simp [Fold.aft, h1]; ring
    have e2 : Fold.bef P [a, a + d, a + 2 * d] 1 = [-d] := by simp [Fold.bef, h1]
    have e3 : Fold.scan P 20 [d] [-d] 3 0 0 [] = some [(0, 0)] := by
      have h0 : P.small |d + -d| = true := by rw [add_neg_cancel]; exact h2
      rw [Fold.scan]
      simp only [List.getElem?_cons_zero, h0]
      rw [show Fold.scan P 20 [d] [-d] 2 (0 + 1) (0 + 1) = fun _ => some [] from by funext x; rfl]
      rfl
    unfold Fold.center
    rw [e1, e2]
    simp only [List.length_singleton]
    rw [e3]
    have e4 : |d + -d| = 0 := by simp
    have e5 : min d (- -d) = d := by simp
    change some (⟨[((1, 2), (|d + -d|, min d (- -d), 0))], [], [], []⟩ : Fold.St) = _
    rw [e4, e5]
  have c2 : ∀ s, Fold.center P 20 [a, a + d, a + 2 * d] s 2 = some s := by
    intro s
    have e1 : Fold.aft P [a, a + d, a + 2 * d] 2 = [] := by simp [Fold.aft, h1]
    unfold Fold.center
    rw [e1]
    rfl
  have c3 : Fold.centers P 20 [a, a + d, a + 2 * d] = some ⟨[((1, 2), (0, d, 0))], [], [], [((1, 2), (0, d, 0))]⟩ := by
    unfold Fold.centers
    change (([1, 2] : List ℕ).foldlM (Fold.center P 20 [a, a + d, a + 2 * d]) ⟨[], [], [], []⟩).map _ = _
    simp only [List.foldlM_cons, c1, List.foldlM_nil, Option.bind_eq_bind, Option.bind_some, c2]
    rfl
  unfold Fold.extractFold Fold.foldWith
  rw [if_pos (by simp)]
  unfold Fold.foldSub
  rw [c3]
  have h3' : ([((1, 2), (0, d, 0))] : Fold.Dict).filter (fun x => P.effTrip x.2.1 x.2.2.1) = [((1, 2), (0, d, 0))] := by simp [h3]
  change some (([] : List Fold.Chain), ((([((1, 2), (0, d, 0))] : Fold.Dict).filter (fun x => P.effTrip x.2.1 x.2.2.1)).map _)) = _
  rw [h3']
  rfl

theorem fold_none (P : Fold.Par) (a d : ℤ) (h1 : P.maxP = none) (h2 : P.small 0 = false) : Fold.extractFold P 20 [a, a + d, a + 2 * d] = some ([], []) := by
  have c1 : Fold.center P 20 [a, a + d, a + 2 * d] ⟨[], [], [], []⟩ 1 = some ⟨[], [], [], []⟩ := by
    have e1 : Fold.aft P [a, a + d, a + 2 * d] 1 = [d] := by simp [Fold.aft, h1]; ring
    have e2 : Fold.bef P [a, a + d, a + 2 * d] 1 = [-d] := by simp [Fold.bef, h1]
    have e3 : Fold.scan P 20 [d] [-d] 3 0 0 [] = some [] := by
      have h0 : P.small |d + -d| = false := by rw [add_neg_cancel]; exact h2
      rw [Fold.scan]
      simp only [List.getElem?_cons_zero, h0]
      rfl
    unfold Fold.center
    rw [e1, e2]
    simp only [List.length_singleton]
    rw [e3]
    rfl
  have c2 : ∀ s, Fold.center P 20 [a, a + d, a + 2 * d] s 2 = some s := by
    intro s
    have e1 : Fold.aft P [a, a + d, a + 2 * d] 2 = [] := by simp [Fold.aft, h1]
    unfold Fold.center
    rw [e1]
    rfl
  have c3 : Fold.centers P 20 [a, a + d, a + 2 * d] = some ⟨[], [], [], []⟩ := by
    unfold Fold.centers
    change (([1, 2] : List ℕ).foldlM (Fold.center P 20 [a, a + d, a + 2 * d]) ⟨[], [], [], []⟩).map _ = _
    simp only [List.foldlM_cons, c1, List.foldlM_nil, Option.bind_eq_bind, Option.bind_some, c2]
    rfl
  unfold Fold.extractFold Fold.foldWith
  rw [if_pos (by simp)]
  unfold Fold.foldSub
  rw [c3]
  rfl

theorem dyn_three (cyc : List ℤ → ℝ) (res : ℝ) (a b c : ℤ) (h : cyc [a, b, c] < 3 * res) : ∃ r, Cycles.computeCycles cyc res [a, b, c] = some ([[a, b, c]], r) := by
  simp [Cycles.computeCycles, Cycles.dynSplits, Cycles.blockSplits, Cycles.computeTable, Cycles.triple, Cycles.segment, h, Cycles.recover, Cycles.Table.set, List.range_succ]

theorem dyn_none (cyc : List ℤ → ℝ) (res : ℝ) (a b c : ℤ) (h : ¬ cyc [a, b, c] < 3 * res) : ∃ r, Cycles.computeCycles cyc res [a, b, c] = some ([], r) := by
  simp [Cycles.computeCycles, Cycles.dynSplits, Cycles.blockSplits, Cycles.computeTable, Cycles.triple, Cycles.segment, h, Cycles.recover, Cycles.Table.set, List.range_succ]

theorem merge_pair (x : Cyc ℝ) (h : x.occs ≠ []) : mergeLists [[x], [], [x]] = some [x] := by
  obtain ⟨k, hk⟩ : ∃ k, key x = some k := by
    unfold key
    cases hx : x.occs with
    | nil => exact absurd hx h
    | cons t l => exact ⟨_, rfl⟩
  have he : entries [[x], [], [x]] = some [⟨k, 0, 0, x⟩, ⟨k, 0, 2, x⟩] := by
    simp [entries, hk]
  have hs : ([⟨k, 0, 0, x⟩, ⟨k, 0, 2, x⟩] : List (Entry ℝ)).insertionSort (fun a b => a.tup ≤ b.tup) = [⟨k, 0, 0, x⟩, ⟨k, 0, 2, x⟩] := by
    rw [List.insertionSort_cons, List.insertionSort_cons, List.insertionSort_nil, List.orderedInsert_nil, List.orderedInsert_cons_of_le]
    simp [Entry.tup, Prod.Lex.toLex_le_toLex]
  unfold mergeLists
  rw [he, Option.map_some, hs]
  simp [mergeLoop]

theorem period_three (a d : ℤ) : computePeriod [a, a + d, a + 2 * d] = some d := by
  have e : diff [a, a + d, a + 2 * d] = [d, d] := by simp [diff]; ring
  unfold computePeriod
  rw [e]
  have : (d + d) / 2 = d := by omega
  simp [periodDiffs, this]

theorem merged_three (W : Costs ℝ) (a d : ℤ) (h1 : W.par.maxP = none) (h2 : W.par.small 0 = true) (h3 : W.par.effTrip 0 d = true) (h4 : W.cyc [a, a + d, a + 2 * d] < 3 * W.res)
   (h5 : W.trip 0 d = W.cyc [a, a + d, a + 2 * d]) : mergedAlpha W 20 [a, a + d, a + 2 * d] = some [⟨[a, a + d, a + 2 * d], d, W.cyc [a, a + d, a + 2 * d]⟩] := by
  have e : tmpOccs [a, a + d, a + 2 * d] [[a, a + d, a + 2 * d]] = [a, a + d, a + 2 * d] := rfl
  have hc : withPeriod W.cyc [a, a + d, a + 2 * d] = some ⟨[a, a + d, a + 2 * d], d, W.cyc [a, a + d, a + 2 * d]⟩ := by
    simp [withPeriod, period_three]
  have ht : tripleCyc W.trip [a, a + d, a + 2 * d] (0, d, [0, 1, 2]) = some ⟨[a, a + d, a + 2 * d], d, W.cyc [a, a + d, a + 2 * d]⟩ := by
    simp [tripleCyc, period_three, h5]
  obtain ⟨r, hr⟩ := dyn_three W.cyc W.res _ _ _ h4
  unfold mergedAlpha
  rw [hr, Option.bind_some, e, fold_three _ a d h1 h2 h3, Option.bind_some]
  simp only [List.mapM_cons, List.mapM_nil, hc, ht, List.map_nil, Option.pure_def, Option.bind_eq_bind, Option.bind_some]
  exact merge_pair _ (by simp)

theorem merged_none (W : Costs ℝ) (a d : ℤ) (h1 : W.par.maxP = none) (h2 : W.par.small 0 = false) (h4 : ¬ W.cyc [a, a + d, a + 2 * d] < 3 * W.res) :
    mergedAlpha W 20 [a, a + d, a + 2 * d] = some [] := by
  obtain ⟨r, hr⟩ := dyn_none W.cyc W.res _ _ _ h4
  have e : tmpOccs [a, a + d, a + 2 * d] [] = [a, a + d, a + 2 * d] := rfl
  unfold mergedAlpha
  rw [hr, Option.bind_some, e, fold_none _ a d h1 h2, Option.bind_some]
  rfl

/-- Details of three equidistant occurrences of the only event. -/
structure Three (D : Cost.Details ℕ) (d : ℤ) : Prop where
  nb : D.nb = [(0, 3)]
  delta : D.deltaT = 2 * d
  pos : 0 < d

theorem log2_pos (x : ℝ) (h : 0 < x) : Cost.log2 x = some (Real.logb 2 x) := by unfold Cost.log2; rw [if_pos h]

theorem logb_third : Real.logb 2 (1 / 3) = -Real.logb 2 3 := by rw [one_div, Real.logb_inv]

theorem Three.one {D : Cost.Details ℕ} {d : ℤ} (h : Three D d) : Cost.costOne D 0 = some (Real.logb 2 (2 * d + 1)) := by
  have hp : (0 : ℝ) < d := by exact_mod_cast h.pos
  have e1 : ((D.deltaT + 1 : ℤ) : ℝ) = 2 * d + 1 := by rw [h.delta]; push_cast; ring
  have e2 : Cost.orgFreq D 0 = some 1 := by
    unfold Cost.orgFreq Cost.Details.total
    rw [h.nb]
    simp
  unfold Cost.costOne
  rw [e1, log2_pos _ (by positivity), e2]
  simp [log2_pos 1 one_pos]

theorem Three.ar {D : Cost.Details ℕ} {d : ℤ} (h : Three D d) : Cost.alphaAndR D (.one 0) = some (4 * Real.logb 2 3) := by
  have e1 : Cost.adjFreq D 0 = some (1 / 3) := by
    unfold Cost.adjFreq Cost.Details.total
    rw [h.nb]
    norm_num
  have e2 : Cost.blckDelim = some (2 * Real.logb 2 3) := by
    unfold Cost.blckDelim Cost.adjDelim
    rw [log2_pos _ (by norm_num), logb_third]
    simp
    ring
  have e3 : D.nb.lookup 0 = some 3 := by rw [h.nb]; rfl
  unfold Cost.alphaAndR
  simp only [e1, e2, e3, Option.bind_eq_bind, Option.bind_some]
  rw [log2_pos _ (by norm_num), logb_third, log2_pos _ (by norm_num)]
  simp
  ring

theorem Three.cyc {D : Cost.Details ℕ} {d : ℤ} (h : Three D d) (a : ℤ) : Cost.lengthCycleNone D (.one 0) [a, a + d, a + 2 * d] = some (4 * Real.logb 2 3 + Real.logb 2 d + 4) := by
  have hp : (0 : ℝ) < d := by exact_mod_cast h.pos
  have e : diff [a, a + d, a + 2 * d] = [d, d] := by simp [diff]; ring
  have e1 : Cost.lengthEOccs [a, a + d, a + 2 * d] d = 4 := by unfold Cost.lengthEOccs; rw [e]; simp
  have e2 : (Cost.computeE [a, a + d, a + 2 * d] d).sum = 0 := by unfold Cost.computeE; rw [e]; simp
  have e3 : (2 * d - 0) / (((([a, a + d, a + 2 * d] : List ℤ).length : ℕ) : ℤ) - 1) = d := by
    simp only [List.length_cons, List.length_nil]
    omega
  have e4 : 2 * d - 0 - d * (((([a, a + d, a + 2 * d] : List ℤ).length : ℕ) : ℤ) - 1) + 1 = 1 := by
    simp only [List.length_cons, List.length_nil]
    push_cast
    ring
  unfold Cost.lengthCycleNone
  rw [period_three, Option.bind_some]
  unfold Cost.lengthCycle
  simp only [h.ar, h.delta, e1, e2, e3, e4, Option.bind_eq_bind, Option.bind_some, Bool.false_eq_true, if_false, log2_pos _ hp]
  simp [log2_pos 1 one_pos]

theorem Three.trip {D : Cost.Details ℕ} {d : ℤ} (h : Three D d) : Cost.costTriple D (.one 0) d 0 = some (4 * Real.logb 2 3 + Real.logb 2 d + 4) := by
  have hp : (0 : ℝ) < d := by exact_mod_cast h.pos
  have e1 : 2 * d - 0 - 2 * d + 1 = 1 := by ring
  have e2 : (2 * d - 0) / 2 = d := by omega
  unfold Cost.costTriple
  simp only [h.ar, h.delta, e1, e2, Option.bind_eq_bind, Option.bind_some, log2_pos _ hp]
  simp [log2_pos 1 one_pos]

theorem three_cheap (d : ℤ) (hd : 0 < d) : 4 * Real.logb 2 3 + Real.logb 2 d + 4 < 3 * Real.logb 2 (2 * d + 1) ↔ 1296 * d < (2 * d + 1) ^ 3 := by
  have hp : (0 : ℝ) < d := by exact_mod_cast hd
  have e1 : 4 * Real.logb 2 3 + Real.logb 2 (d : ℝ) + 4 = Real.logb 2 (1296 * d) := by
    rw [show (1296 : ℝ) * d = 3 ^ 4 * d * 2 ^ 4 from by ring, Real.logb_mul (by positivity) (by positivity), Real.logb_mul (by positivity) (by positivity), Real.logb_pow, Real.logb_pow, Real.logb_self_eq_one (by norm_num)]
    push_cast
    ring
  have e2 : 3 * Real.logb 2 (2 * (d : ℝ) + 1) = Real.logb 2 ((2 * d + 1) ^ 3) := by rw [Real.logb_pow]; push_cast; ring
  rw [e1, e2, Real.logb_lt_logb_iff (by norm_num) (by positivity) (by positivity)]
  constructor
  · intro h; exact_mod_cast h
  · intro h; exact_mod_cast h

section Wit

variable {ε R κ : Type} [LinearOrder ε] [LinearOrder κ]

theorem getSequence_three (ds : Built ε) (a d : ℤ) (hd : 0 < d) (hseq : ds.seqd = [(0, [a, a + d, a + 2 * d])]) :
    getSequence ds 0 = [a, a + d, a + 2 * d] ∧ (∀ k, (getSequence ds k).Pairwise (· < ·)) ∧ ∀ k, (getSequence ds k).length + 2 ≤ 20 := by
  have h0 : getSequence ds 0 = [a, a + d, a + 2 * d] := by unfold getSequence; rw [hseq]; rfl
  have h1 : ∀ k, k ≠ 0 → getSequence ds k = [] := by
    intro k hk
    unfold getSequence
    rw [hseq]
    simp [List.lookup, beq_eq_false_iff_ne.2 hk]
  refine ⟨h0, fun k => ?_, fun k => ?_⟩
  · by_cases hk : k = 0
    · subst hk; rw [h0]; simp; omega
    · rw [h1 k hk]; exact List.Pairwise.nil
  · by_cases hk : k = 0
    · subst hk; rw [h0]; simp
    · rw [h1 k hk]; simp

theorem mine_three (rws : (ℕ × Cyc ℝ) → ℕ → ℕ → Bool → List R) (rk : R → κ) (u : ℝ) (ds : Built ε) (a d : ℤ) (hev : ds.listEv.length = 1) (hseq : ds.seqd = [(0, [a, a + d, a + 2 * d])])
    (h3 : Three (details ds) d) (hch : 1296 * d < (2 * d + 1) ^ 3) :
    mineSimple rws rk (exactCosts u none (details ds)) (fun a => (Cost.costOne (details ds) a).getD u) 20 ds = some [(.node 3 d (.cons 0 (.leaf 0) .nil), a, [0, 0])] := by
  obtain ⟨g0, g1, g2⟩ := getSequence_three ds a d h3.pos hseq
  have hp : (0 : ℝ) < d := by exact_mod_cast h3.pos
  have hcheap := (three_cheap d h3.pos).2 hch
  have hd2 : 2 ≤ d := by
    by_contra h
    have : d = 1 := by have := h3.pos; omega
    subst this
    norm_num at hch
  have hone : 2 < Real.logb 2 (2 * (d : ℝ) + 1) := by
    have h4 : Real.logb 2 4 = 2 := by
      rw [show (4 : ℝ) = 2 ^ 2 from by norm_num, Real.logb_pow, Real.logb_self_eq_one (by norm_num)]; norm_num
    have h2 : (2 : ℝ) ≤ d := by exact_mod_cast hd2
    have h5 : Real.logb 2 4 < Real.logb 2 (2 * (d : ℝ) + 1) := Real.logb_lt_logb (by norm_num) (by norm_num) (by linarith)
    linarith
  have e1 : ((((details ds).deltaT + 1 : ℤ)) : ℝ) = 2 * d + 1 := by rw [h3.delta]; push_cast; ring
  have ecyc : (exactCosts u none (details ds) 0).cyc [a, a + d, a + 2 * d] = 4 * Real.logb 2 3 + Real.logb 2 d + 4 := by simp only [exactCosts, h3.cyc, Option.getD_some]
  have eres : (exactCosts u none (details ds) 0).res = Real.logb 2 (2 * d + 1) := by simp only [exactCosts, h3.one, Option.getD_some]
  have hm := merged_three (exactCosts u none (details ds) 0) a d rfl (by
      simp only [exactCosts, e1]
      rw [log2_pos _ (by positivity), Option.getD_some, Int.cast_zero]
      exact decide_eq_true (by linarith)) (by
      simp only [exactCosts, h3.one, h3.trip, Option.getD_some]
      exact decide_eq_true (Or.inr (by linarith))) (by rw [ecyc, eres]; exact hcheap) (by rw [ecyc]; simp only [exactCosts, h3.trip, Option.getD_some])
  rw [ecyc] at hm
  obtain ⟨x, hx⟩ : ∃ x : ℝ, x = 4 * Real.logb 2 3 + Real.logb 2 d + 4 := ⟨_, rfl⟩
  rw [← hx] at hm hcheap
  have ha : mineAlpha (exactCosts u none (details ds) 0) 20 0 (getSequence ds 0) = some [⟨[a, a + d, a + 2 * d], d, x⟩] := by
    unfold mineAlpha
    rw [g0, hm]
    rfl
  obtain ⟨s, s1, s2, s3, -, -⟩ := poolLoop_all rws rk (exactCosts u none (details ds)) 20 ds g1 g2 1
  have hcands : s.candidates = [(0, (0, ⟨[a, a + d, a + 2 * d], d, x⟩))] := by
    rw [show List.range 1 = [0] from rfl] at s3
    simp only [List.flatMap_cons, List.flatMap_nil, ha, Option.getD_some, List.map_cons, List.map_nil, List.append_nil] at s3
    have hl : s.candidates.length = 1 := by rw [← List.length_map (f := Prod.snd), s3]; rfl
    rw [hl] at s2
    obtain ⟨y, hy⟩ := List.length_eq_one_iff.1 hl
    rw [hy] at s2 s3 ⊢
    simp only [List.map_cons, List.map_nil, List.cons.injEq, and_true] at s3
    have : y.1 = 0 := by simpa using s2
    rw [← s3, ← this]
  have hocc : (candsOf s.candidates).occs 0 = ([a, a + d, a + 2 * d].map (fun t => (t, 0))).toFinset := by rw [hcands]; rfl
  have hcost : (candsOf s.candidates).cost 0 = x := by rw [hcands]; rfl
  have hids : s.candidates.map Prod.fst = [0] := by rw [hcands]; rfl
  have hnb : ds.evNbOccs = [(0, 3)] := h3.nb
  have hdc : ds.evNbOccs.map (fun e => (e.1, (Cost.costOne (details ds) e.1).getD u)) = [(0, Real.logb 2 (2 * (d : ℝ) + 1))] := by
    rw [hnb]
    simp [h3.one]
  have hlook : ∀ c ∈ s.candidates.map Prod.fst, ∀ o ∈ (candsOf s.candidates).occs c, (([(0, Real.logb 2 (2 * (d : ℝ) + 1))] : List (ℕ × ℝ)).lookup o.2).isSome := by
    intro c hc o ho
    rw [hids, List.mem_singleton] at hc
    subst hc
    rw [hocc, List.mem_toFinset] at ho
    obtain ⟨t, -, rfl⟩ := List.mem_map.1 ho
    rfl
  have hnd : (s.candidates.map Prod.fst).Nodup := by rw [hids]; simp
  obtain ⟨sel, f1, f2, f3, -⟩ := Select.selection_efficient (candsOf s.candidates) [(0, Real.logb 2 (2 * (d : ℝ) + 1))] (Prod.snd : ℤ × ℕ → ℕ) 3 (s.candidates.map Prod.fst) hnd hlook
  have hcard : (([a, a + d, a + 2 * d].map (fun t => (t, (0 : ℕ)))).toFinset).card = 3 := by
    rw [List.toFinset_card_of_nodup]
    · rfl
    · have := h3.pos
      simp
      omega
  have h0 : 0 ∈ sel := by
    by_contra hn
    have hsel : sel = [] := by
      refine List.eq_nil_iff_forall_not_mem.2 (fun i hi => ?_)
      have := f3 i hi
      rw [hids, List.mem_singleton] at this
      exact hn (this ▸ hi)
    have hu := Select.selection_complete (candsOf s.candidates) [(0, Real.logb 2 (2 * (d : ℝ) + 1))] (Prod.snd : ℤ × ℕ → ℕ) 3 (s.candidates.map Prod.fst) hnd hlook (by
      intro y hy
      simp only [List.map_cons, List.map_nil, List.mem_singleton] at hy
      rw [hy]; linarith) sel f1 0 (by rw [hids]; simp) hn (Real.logb 2 (2 * (d : ℝ) + 1)) (by simp) (by
      intro y hy
      simp only [List.map_cons, List.map_nil, List.mem_singleton] at hy
      rw [hy])
    unfold Select.Useless at hu
    rw [hsel, hocc, hcost] at hu
    have hcov : Select.covered (candsOf s.candidates) [] = ∅ := by unfold Select.covered; simp
    rw [hcov, Finset.sdiff_empty, hcard] at hu
    rcases hu with hu | hu | hu
    · omega
    · omega
    · push_cast at hu
      linarith
  have hsel : sel = [0] := by
    cases sel with
    | nil => simp at h0
    | cons i l =>
      have hi := f3 i (by simp)
      rw [hids, List.mem_singleton] at hi
      subst hi
      cases l with
      | nil => rfl
      | cons j l =>
        have hj := f3 j (by simp)
        rw [hids, List.mem_singleton] at hj
        subst hj
        simp at f2
  unfold mineSimple
  rw [hev, s1, Option.bind_some, hdc, f1, Option.bind_some, hsel, hcands]
  have he : computeE [a, a + d, a + 2 * d] d = [0, 0] := by simp [computeE, diff]; ring
  simp [List.lookup, Miner.simplePatt, he]

theorem mine_none (rws : (ℕ × Cyc ℝ) → ℕ → ℕ → Bool → List R) (rk : R → κ) (u : ℝ) (ds : Built ε) (a : ℤ) (hev : ds.listEv.length = 1) (hseq : ds.seqd = [(0, [a, a + 1, a + 2 * 1])])
    (h3 : Three (details ds) 1) :
    mineSimple rws rk (exactCosts u none (details ds)) (fun a => (Cost.costOne (details ds) a).getD u) 20 ds = some [] := by
  obtain ⟨g0, g1, g2⟩ := getSequence_three ds a 1 h3.pos hseq
  have hcheap := mt (three_cheap 1 h3.pos).1 (by norm_num)
  have e1 : ((((details ds).deltaT + 1 : ℤ)) : ℝ) = 3 := by rw [h3.delta]; norm_num
  have ecyc : (exactCosts u none (details ds) 0).cyc [a, a + 1, a + 2 * 1] = 4 * Real.logb 2 3 + Real.logb 2 ((1 : ℤ) : ℝ) + 4 := by simp only [exactCosts, h3.cyc, Option.getD_some]
  have eres : (exactCosts u none (details ds) 0).res = Real.logb 2 (2 * ((1 : ℤ) : ℝ) + 1) := by simp only [exactCosts, h3.one, Option.getD_some]
  have hm := merged_none (exactCosts u none (details ds) 0) a 1 rfl (by
      simp only [exactCosts, e1]
      rw [log2_pos _ (by positivity), Option.getD_some, Int.cast_zero]
      have h4 : Real.logb 2 4 = 2 := by
        rw [show (4 : ℝ) = 2 ^ 2 from by norm_num, Real.logb_pow, Real.logb_self_eq_one (by norm_num)]; norm_num
      have : Real.logb 2 3 < Real.logb 2 4 := Real.logb_lt_logb (by norm_num) (by norm_num) (by norm_num)
      exact decide_eq_false (by linarith)) (by rw [ecyc, eres]; exact hcheap)
  have ha : mineAlpha (exactCosts u none (details ds) 0) 20 0 (getSequence ds 0) = some [] := by
    unfold mineAlpha
    rw [g0, hm]
    rfl
  obtain ⟨s, s1, s2, s3, -, -⟩ := poolLoop_all rws rk (exactCosts u none (details ds)) 20 ds g1 g2 1
  have hcands : s.candidates = [] := by
    rw [show List.range 1 = [0] from rfl] at s3
    simpa [ha] using s3
  have hnb : ds.evNbOccs = [(0, 3)] := h3.nb
  unfold mineSimple
  rw [hev, s1, Option.bind_some, hcands, hnb]
  rfl

/-- One event at three midnights, in nanoseconds, moved by `c`. -/
def midnights (c : ℤ) : List (ℤ × ℕ) := moveRows c [(0, 7), (day, 7), (2 * day, 7)]

/-- C124 does not hold for all displacements: an event seen at three consecutive midnights gives no pattern (the scale is the day), the same event one hour later gives one (the scale is the hour). -/
theorem hour_matters (rws : (ℕ × Cyc ℝ) → ℕ → ℕ → Bool → List R) (rk : R → κ) (u : ℝ) :
    ∃ m m' : Fitted ℕ, fitData true (midnights 0) = .ok m ∧ fitData true (midnights (3600 * 10 ^ 9)) = .ok m' ∧
      mineSimple rws rk (exactCosts u none (details m.data)) (fun a => (Cost.costOne (details m.data) a).getD u) 20 m.data = some [] ∧
      mineSimple rws rk (exactCosts u none (details m'.data)) (fun a => (Cost.costOne (details m'.data) a).getD u) 20 m'.data = some [(.node 3 24 (.cons 0 (.leaf 0) .nil), 1, [0, 0])] := by
  refine ⟨_, _, rfl, rfl, mine_none rws rk u _ 0 rfl rfl ⟨rfl, rfl, by norm_num⟩, mine_three rws rk u _ 1 24 rfl rfl ⟨rfl, rfl, by norm_num⟩ (by norm_num)⟩

/-- C124 does not hold for all units: three occurrences at an interval of 3600 (a number) give a pattern, the same times counted in units `10^9` times smaller give none. -/
theorem unit_matters (rws : (ℕ × Cyc ℝ) → ℕ → ℕ → Bool → List R) (rk : R → κ) (u : ℝ) :
    ∃ m m' : Fitted ℕ, fitData true [(0, 7), (3600, 7), (7200, 7)] = .ok m ∧ fitData true (scaleRows (10 ^ 9) [(0, 7), (3600, 7), (7200, 7)]) = .ok m' ∧
      mineSimple rws rk (exactCosts u none (details m.data)) (fun a => (Cost.costOne (details m.data) a).getD u) 20 m.data = some [(.node 3 36 (.cons 0 (.leaf 0) .nil), 0, [0, 0])] ∧
      mineSimple rws rk (exactCosts u none (details m'.data)) (fun a => (Cost.costOne (details m'.data) a).getD u) 20 m'.data = some [] := by
  refine ⟨_, _, rfl, rfl, mine_three rws rk u _ 0 36 rfl rfl ⟨rfl, rfl, by norm_num⟩ (by norm_num), mine_none rws rk u _ 0 rfl rfl ⟨rfl, rfl, by norm_num⟩⟩

/-- A series meeting the hypotheses of `unit_irrelevant_partial`: two decimal zeros, six more. -/
example : ∃ m : Fitted ℕ, fitData true [(0, 7), (3600, 7), (7200, 7)] = .ok m ∧ m.nZeros + 6 < 9 ∧ m.data.seqd = [(0, [0, 36, 72])] := ⟨_, rfl, by decide, rfl⟩

/-- Cases meeting the hypotheses of `days_irrelevant_partial`: the midnights moved by a week. -/
example : day ∣ 7 * day ∧ (midnights 0).Pairwise (fun a b => a.1 ≤ b.1) ∧ midnights (7 * day) = [(7 * day, 7), (8 * day, 7), (9 * day, 7)] := by decide

end Wit

end Verif.Mine
