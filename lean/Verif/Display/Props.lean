import Verif.Display.Lemmas
import Verif.TimeScale.Model

/-!
# The table of patterns (C104)
-/

set_option autoImplicit false
set_option linter.unusedSectionVars false

namespace Verif.Display

open Verif.PTree Verif.Text Verif.PattKey

variable {α : Type}

theorem showInt_bracket (x : ℤ) : ']' ∉ showInt x := fun h => absurd (mem_showInt x _ h) (by decide)

theorem showInt_injective (x y : ℤ) (h : showInt x = showInt y) : x = y :=
  (showInt_prefix x y [] [] (by simp [Stop]) (by simp [Stop]) (by rw [h])).1

theorem timeText_bracket (dates : Bool) (k x : ℤ) : ']' ∉ timeText dates k x := by
  unfold timeText
  split
  · exact deltaText_bracket _
  · exact showInt_bracket x

theorem timeText_inj (dates : Bool) (k : ℤ) (hk : 0 < k) (x y : ℤ) (hx : Exact dates k x) (hy : Exact dates k y) (h : timeText dates k x = timeText dates k y) : x = y := by
  unfold timeText at h
  split at h
  · rename_i hd
    have h1 := deltaText_inj _ _ h
    have hx := hx hd
    have hy := hy hd
    rw [micro_whole _ hx, micro_whole _ hy] at h1
    have : x * k = y * k := by omega
    exact Int.eq_of_mul_eq_mul_right (by omega) this
  · exact showInt_injective x y h

/-! ### The text -/

/-- Full statement (C104): the printed pattern determines the pattern. Proved for event names that differ when printed and have no round bracket and no opening square bracket, and, for dates, for periods and distances that are whole
microseconds. Missing: other names (`text_names_ambiguous`) and shorter times (`text_times_ambiguous`), where it is false. -/
theorem text_identifies_partial (lf dates : Bool) (k : ℤ) (hk : 0 < k) (P : α → Prop) (name : α → List Char) (hn : NamesOk P name) (t t' : PTree.Tree α) (ht : t.Regular) (ht' : t'.Regular) (ho : Over P (Exact dates k) t)
    (ho' : Over P (Exact dates k) t') (h : text lf name (timeText dates k) t = text lf name (timeText dates k) t') : t = t' :=
  (text_prefix lf hn (timeText_bracket dates k) (timeText_inj dates k hk) t t' ht ht' ho ho' [] [] (.inl rfl) (.inl rfl) (by rw [h])).1

/-- Full statement (C104): the table returned by `transform` with `dE_sum=False` determines the selected patterns, with their starts and their corrections. Same conditions. -/
theorem table_identifies_partial (dates : Bool) (k : ℤ) (hk : 0 < k) (P : α → Prop) (name : α → List Char) (hn : NamesOk P name) (ms ms' : List (Mined α)) (hr : ∀ m ∈ ms, m.tree.Regular ∧ Over P (Exact dates k) m.tree)
    (hr' : ∀ m ∈ ms', m.tree.Regular ∧ Over P (Exact dates k) m.tree) (h : transform dates k name ms = transform dates k name ms') : ms = ms' := by
  induction ms generalizing ms' with
  | nil =>
    cases ms' with
    | nil => rfl
    | cons m ms' => cases h
  | cons m ms ih =>
    cases ms' with
    | nil => cases h
    | cons m' ms' =>
      obtain ⟨h1, h2⟩ := List.cons.inj h
      have e := ih ms' (fun x hx => hr x (List.mem_cons_of_mem _ hx)) (fun x hx => hr' x (List.mem_cons_of_mem _ hx)) h2
      have a := hr m List.mem_cons_self
      have a' := hr' m' List.mem_cons_self
      simp only [rescale, baseRow, TRow.mk.injEq] at h1
      obtain ⟨c1, c2, -, -, c5⟩ := h1
      have c3 := text_identifies_partial true dates k hk P name hn _ _ a.1 a'.1 a.2 a'.2 c2
      simp only [Mined.tree, PTree.Tree.node.injEq] at c3
      have c4 : m.t0 = m'.t0 := Int.eq_of_mul_eq_mul_right (by omega) c1
      have c6 : m.E = m'.E := by
        split at c5
        · exact List.map_injective_iff.2 (fun x y hxy => Int.eq_of_mul_eq_mul_right (by omega) hxy) c5
        · exact c5
      rw [e]
      congr 1
      cases m
      cases m'
      simp only at c3 c4 c6
      simp only [c3, c4, c6]

/-- Three names; the first one looks like two children. -/
def oddName : ℕ → List Char
  | 0 => ['a', ' ', '[', 'd', '=', '2', ']', ' ', 'b']
  | 1 => ['a']
  | _ => ['b']

/-- C104 is false for names with brackets: the event `a [d=2] b` and the event `b` two units after the event `a` are printed alike. -/
theorem text_names_ambiguous : ∃ t t' : PTree.Tree ℕ, t.Regular ∧ t'.Regular ∧ (∀ lf, text lf oddName showInt t = text lf oddName showInt t') ∧ t ≠ t' ∧ oddName 0 ≠ oddName 1 ∧ oddName 0 ≠ oddName 2 ∧ oddName 1 ≠ oddName 2 := by
  refine ⟨.node 3 10 (.cons 0 (.leaf 0) .nil), .node 3 10 (.cons 0 (.leaf 1) (.cons 2 (.leaf 2) .nil)), ?_, ?_, ?_, by simp, by decide, by decide, by decide⟩
  · simp [PTree.Tree.Regular, Forest.NonEmpty, Forest.firstDist, Forest.Regular]
  · simp [PTree.Tree.Regular, Forest.NonEmpty, Forest.firstDist, Forest.Regular]
  · decide

/-- C104 is false for dates with nanoseconds: periods of one and of two nanoseconds are both printed as `0:00:00`. -/
theorem text_times_ambiguous : ∃ t t' : PTree.Tree ℕ, t.Regular ∧ t'.Regular ∧ t ≠ t' ∧ text true oddName (timeText true 1) t = ['(', 'a', ')', '[', 'r', '=', '3', ' ', 'p', '=', '0', ':', '0', '0', ':', '0', '0', ']'] ∧
    text true oddName (timeText true 1) t' = text true oddName (timeText true 1) t := by
  refine ⟨.node 3 1 (.cons 0 (.leaf 1) .nil), .node 3 2 (.cons 0 (.leaf 1) .nil), ?_, ?_, by simp, by decide, by decide⟩
  all_goals simp [PTree.Tree.Regular, Forest.NonEmpty, Forest.firstDist, Forest.Regular]

/-- C104. For dates, the printed duration is the nearest whole number of microseconds (`x` times `k` are nanoseconds): at most half a
microsecond away, and the even one of two equally near. -/
theorem printed_nearest (k x : ℤ) : timeText true k x = deltaText (micro (x * k)) ∧ 2 * |1000 * micro (x * k) - x * k| ≤ 1000 ∧
    (2 * |1000 * micro (x * k) - x * k| = 1000 → micro (x * k) % 2 = 0) := by
  refine ⟨rfl, ?_⟩
  generalize x * k = y
  unfold micro
  simp only
  have h1 := Int.emod_add_mul_ediv y 1000
  have h2 := Int.emod_nonneg y (by norm_num : (1000 : ℤ) ≠ 0)
  have h3 := Int.emod_lt_of_pos y (by norm_num : (0 : ℤ) < 1000)
  split_ifs with g1 g2 g3
  all_goals
    rcases abs_cases (1000 * _ - y) with ⟨e, _⟩ | ⟨e, _⟩
    all_goals
      rw [e]
      constructor <;> omega

example : micro 1500 = 2 ∧ micro 2500 = 2 ∧ micro 2501 = 3 := by decide

/-! ### The unit -/

mutual
theorem text_scale (lf : Bool) (name : α → List Char) (k : ℤ) : ∀ t : PTree.Tree α, text lf name (timeText true k) t = text lf name (timeText true 1) (scale k t)
  | .leaf a => rfl
  | .node r p ch => by simp only [text, scale, textF_scale lf name k true ch, rp, timeText, if_true, mul_one]
theorem textF_scale (lf : Bool) (name : α → List Char) (k : ℤ) : ∀ (first : Bool) (F : Forest α), textF lf name (timeText true k) first F = textF lf name (timeText true 1) first (scaleF k F)
  | _, .nil => rfl
  | first, .cons d t rest => by simp only [textF, scaleF, text_scale lf name k t, textF_scale lf name k false rest, timeText, if_true, mul_one]
end

/-- Full statement (C104): every row of the table gives the start, the periods, the distances and the corrections of its pattern in the unit of the data. Proved for dates, and for integer times when the scaling took nothing out.
Missing: integer times with a common factor (`int_units_wrong`), where it is false. -/
theorem table_units_partial (dates : Bool) (k : ℤ) (h : dates = false → k = 1) (name : α → List Char) (ms : List (Mined α)) : transform dates k name ms = ms.map (fun m => dataRow dates name (m.inData k)) := by
  unfold transform
  refine List.map_congr_left (fun m _ => ?_)
  cases dates with
  | true =>
    simp only [rescale, baseRow, dataRow, Mined.inData, if_true, TRow.mk.injEq, true_and, and_true]
    exact text_scale true name k m.tree
  | false =>
    rw [h rfl]
    simp only [rescale, baseRow, dataRow, Mined.inData, Bool.false_eq_true, if_false, mul_one, TRow.mk.injEq, true_and, and_true, List.map_id']
    have : ∀ t : PTree.Tree α, scale 1 t = t := scale_one
    have e : m.tree = PTree.Tree.node m.r m.p (scaleF 1 m.ch) := by
      have := this m.tree
      simp only [Mined.tree, scale, mul_one] at this
      rw [this]
      rfl
    rw [e]
    rfl

/-- The start and the period of the root are in the unit of the data in every table. -/
theorem columns_units (dates : Bool) (k : ℤ) (name : α → List Char) (m : Mined α) :
    (rescale dates k (baseRow dates k name m)).t0 = (m.inData k).t0 ∧ (rescale dates k (baseRow dates k name m)).period = (m.inData k).p ∧ (rescale dates k (baseRow dates k name m)).rep = (m.inData k).r := ⟨rfl, rfl, rfl⟩

/-- C104 is false for integer times with a common factor `k` that the scaling takes out: the printed pattern is never the one of the data (its periods are too small by the factor `k`, also against the column with the period), and the
corrections are too small by the same factor. -/
theorem int_units_wrong (k : ℤ) (hk : 1 < k) (P : α → Prop) (name : α → List Char) (hn : NamesOk P name) (m : Mined α) (hp : m.p ≠ 0) (hr : m.tree.Regular) (ho : Over P (fun _ => True) m.tree) :
    (rescale false k (baseRow false k name m)).pattern ≠ (dataRow false name (m.inData k)).pattern ∧ (rescale false k (baseRow false k name m)).period = m.p * k ∧
      (dataRow false name (m.inData k)).sumE = k * (rescale false k (baseRow false k name m)).sumE := by
  refine ⟨fun h => ?_, rfl, ?_⟩
  · have h1 := text_identifies_partial true false 1 (by decide) P name hn m.tree (scale k m.tree) hr (scale_regular k m.tree hr) (over_mono (fun _ _ => by simp [Exact]) m.tree ho) (over_scale k _ _ (fun _ => by simp [Exact]) m.tree ho) (by
      simp only [rescale, baseRow, dataRow] at h
      exact h)
    simp only [Mined.tree, scale, PTree.Tree.node.injEq] at h1
    have : m.p * (k - 1) = 0 := by rw [Int.mul_sub, ← h1.2.1]; omega
    rcases Int.mul_eq_zero.1 this with h2 | h2
    · exact hp h2
    · omega
  · simp only [TRow.sumE, dataRow, Mined.inData, rescale, baseRow, Bool.false_eq_true, if_false]
    induction m.E with
    | nil => simp
    | cons e E ih =>
      simp only [List.map_cons, List.sum_cons, ih, Int.mul_add, Int.natAbs_mul, Nat.cast_mul]
      congr 1
      have : ((k.natAbs : ℕ) : ℤ) = k := Int.natAbs_of_nonneg (by omega)
      rw [this, Int.mul_comm]

/-! ### Examples -/

/-- Three events with plain names. -/
def plainName : ℕ → List Char
  | 0 => ['w', 'a', 'k', 'e', ' ', 'u', 'p']
  | 1 => ['t', 'e', 'a', ']']
  | _ => []

theorem plainName_ok : NamesOk (fun n : ℕ => n < 3) plainName :=
  ⟨fun a b ha hb h => by
    interval_cases a <;> interval_cases b <;> first | rfl | exact absurd h (by decide), fun a ha => by
    interval_cases a <;> exact ⟨by decide, by decide, by decide⟩⟩

/-- A nested pattern, in minutes: every day, and three times 10 minutes apart. -/
def dayPattern : Mined ℕ := ⟨7, 1440, .cons 0 (.leaf 0) (.cons 30 (.node 3 10 (.cons 0 (.leaf 1) (.cons 2 (.leaf 2) .nil))) .nil), 28000000, [0, 1, 0, -2]⟩

theorem dayPattern_regular : dayPattern.tree.Regular := by
  simp [dayPattern, Mined.tree, PTree.Tree.Regular, Forest.NonEmpty, Forest.firstDist, Forest.Regular]

theorem dayPattern_over (Q : ℤ → Prop) (h : ∀ x, Q x) : Over (fun n : ℕ => n < 3) Q dayPattern.tree := by
  simp [dayPattern, Mined.tree, Over, OverF, h]

/-- The text of the pattern, for dates in minutes. -/
example : text true plainName (timeText true (10 ^ 9 * 60)) dayPattern.tree =
    "(wake up [d=0:30:00] (tea] [d=0:02:00] )[r=3 p=0:10:00])[r=7 p=1 day, 0:00:00]".toList := by decide +kernel

/-- The hypotheses of `table_identifies_partial` hold for dates in minutes. -/
example (ms : List (Mined ℕ)) (hr : ∀ m ∈ ms, m.tree.Regular ∧ Over (fun n : ℕ => n < 3) (Exact true (10 ^ 9 * 60)) m.tree) (h : transform true (10 ^ 9 * 60) plainName ms = transform true (10 ^ 9 * 60) plainName [dayPattern]) : ms = [dayPattern] :=
  table_identifies_partial true (10 ^ 9 * 60) (by decide) _ _ plainName_ok ms [dayPattern] hr
    (fun m hm => by rw [List.mem_singleton.1 hm]; exact ⟨dayPattern_regular, dayPattern_over _ (fun x _ => by omega)⟩) h

/-- Integer times that are multiples of 10 are divided by 10, so the hypotheses of `int_units_wrong` hold: an event every 20 units is printed with period 2, next to a column with period 20. -/
example : (TimeScale.autoscale [0, 20, 40, 60]).1 = [0, 2, 4, 6] ∧ 10 ^ (TimeScale.autoscale [0, 20, 40, 60]).2.1 * (TimeScale.autoscale [0, 20, 40, 60]).2.2.1 = 10 ∧
    transform false 10 plainName [⟨4, 2, .cons 0 (.leaf 0) .nil, 0, [0, 0, 0]⟩] = [⟨0, "(wake up)[r=4 p=2]".toList, 4, 20, [0, 0, 0]⟩] := by decide +kernel

example : (rescale false 10 (baseRow false 10 plainName dayPattern)).pattern ≠ (dataRow false plainName (dayPattern.inData 10)).pattern :=
  (int_units_wrong 10 (by decide) _ _ plainName_ok dayPattern (by decide) dayPattern_regular (dayPattern_over _ (fun _ => trivial))).1

end Verif.Display
