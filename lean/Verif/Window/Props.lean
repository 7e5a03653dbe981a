import Verif.Window.Model
import Mathlib.Data.List.Basic
import Mathlib.Data.List.Forall2
import Mathlib.Tactic.Ring
import Mathlib.Tactic.Linarith

/-!
# Sliding windows: properties (C170)
-/

set_option autoImplicit false
set_option linter.unusedSectionVars false

namespace Verif.Window

variable {β : Type*}

/-! ### Specification -/

/-- The index is one of an array of this shape. -/
def Within (idx shape : List ℕ) : Prop := idx.length = shape.length ∧ ∀ d, d < shape.length → idx.getD d 0 < shape.getD d 0

/-- Where the element `j` of the window at the position `i` is: every `j[k]` is added to the coordinate `axes[k]`. -/
def place (i : List ℕ) : List ℕ → List ℕ → List ℕ
  | a :: as, j :: js => (place i as js).set a ((place i as js).getD a 0 + j)
  | _, _ => i

/-- The axes meant: all in order when none are given; a given number is an axis or, when negative, one counted from the end. -/
def Meant (n : ℕ) (axis : Option (List ℤ)) (axes : List ℕ) : Prop :=
  match axis with
  | none => axes = List.range n
  | some a => List.Forall₂ (fun (z : ℤ) (k : ℕ) => k < n ∧ ((k : ℤ) = z ∨ (k : ℤ) = z + n)) a axes

/-- How much the windows take from an axis: every window along it one less than its size. -/
def taken (axes : List ℕ) (sizes : List ℤ) (d : ℕ) : ℤ := (((axes.zip sizes).filter (fun p => p.1 = d)).map (fun p => p.2 - 1)).sum

/-! ### Lemmas -/

theorem getD_set (l : List ℕ) (a d v : ℕ) (ha : a < l.length) : (l.set a v).getD d 0 = if d = a then v else l.getD d 0 := by
  rw [List.getD_eq_getElem?_getD, List.getElem?_set, List.getD_eq_getElem?_getD]
  by_cases h : a = d
  · rw [if_pos h, if_pos h.symm, if_pos ha]; rfl
  · rw [if_neg h, if_neg (fun h' => h h'.symm)]

theorem place_length (i : List ℕ) : ∀ as js : List ℕ, (place i as js).length = i.length
  | [], _ => by cases ‹List ℕ› <;> rfl
  | _ :: _, [] => rfl
  | a :: as, j :: js => by rw [place, List.length_set, place_length i as js]

theorem dot_append : ∀ (i : List ℕ) (s : List ℤ) (j : List ℕ) (t : List ℤ), i.length = s.length → dot (i ++ j) (s ++ t) = dot i s + dot j t
  | [], [], j, t, _ => by simp [dot]
  | i :: is, s :: ss, j, t, h => by
    simp only [List.cons_append, dot]
    rw [dot_append is ss j t (by simpa using h)]
    ring
  | [], _ :: _, _, _, h => by cases h
  | _ :: _, [], _, _, h => by cases h

theorem dot_set : ∀ (i : List ℕ) (s : List ℤ) (a v : ℕ), i.length = s.length → a < i.length →
    dot (i.set a (i.getD a 0 + v)) s = dot i s + v * s.getD a 0
  | [], _, _, _, _, h => by cases h
  | _ :: _, [], _, _, h, _ => by cases h
  | i :: is, s :: ss, 0, v, h, _ => by
    simp only [List.set_cons_zero, List.getD_cons_zero, dot]
    push_cast
    ring
  | i :: is, s :: ss, a + 1, v, h, ha => by
    simp only [List.set_cons_succ, List.getD_cons_succ, dot]
    rw [dot_set is ss a v (by simpa using h) (by simpa using ha)]
    ring

theorem dot_place (i : List ℕ) (s : List ℤ) (h : i.length = s.length) : ∀ (as js : List ℕ), as.length = js.length → (∀ a ∈ as, a < i.length) →
    dot (place i as js) s = dot i s + dot js (as.map (fun a => s.getD a 0))
  | [], [], _, _ => by simp [place, dot]
  | a :: as, j :: js, hl, ha => by
    rw [place, dot_set _ _ _ _ (by rw [place_length, h]) (by rw [place_length]; exact ha a List.mem_cons_self),
      dot_place i s h as js (by simpa using hl) (fun b hb => ha b (List.mem_cons_of_mem _ hb)), List.map_cons, dot]
    ring
  | [], _ :: _, hl, _ => by cases hl
  | _ :: _, [], hl, _ => by cases hl

theorem trim_length : ∀ (ps : List (ℕ × ℕ)) (shape s : List ℕ), trim shape ps = .ok s → s.length = shape.length
  | [], shape, s, h => by cases h; rfl
  | (a, w) :: ps, shape, s, h => by
    rw [trim] at h
    split at h
    · cases h
    · rw [trim_length ps _ s h, List.length_set]

theorem trim_place (i : List ℕ) : ∀ (as ws js shape s : List ℕ), trim shape (as.zip ws) = .ok s → as.length = ws.length → (∀ a ∈ as, a < shape.length) →
    Within i s → Within js ws → Within (place i as js) shape
  | [], ws, js, shape, s, h, hl, _, hi, hj => by
    cases h
    cases js with
    | nil => exact hi
    | cons j js => exact hi
  | a :: as, [], _, _, _, _, hl, _, _, _ => by cases hl
  | a :: as, w :: ws, [], shape, s, h, hl, _, hi, hj => by cases hj.1
  | a :: as, w :: ws, j :: js, shape, s, h, hl, ha, hi, hj => by
    rw [List.zip_cons_cons, trim] at h
    split at h
    · cases h
    · next hw =>
      have hs := ha a List.mem_cons_self
      have hj0 : j < w := by have := hj.2 0 (by simp); simpa using this
      have hjs : Within js ws := ⟨by simpa using hj.1, fun d hd => by
        have := hj.2 (d + 1) (by simpa using hd)
        simpa using this⟩
      obtain ⟨h1, h2⟩ := trim_place i as ws js _ s h (by simpa using hl) (fun b hb => by rw [List.length_set]; exact ha b (List.mem_cons_of_mem _ hb)) hi hjs
      rw [List.length_set] at h1 h2
      refine ⟨by rw [place, List.length_set, h1], fun d hd => ?_⟩
      have h3 := h2 d hd
      rw [getD_set _ _ _ _ hs] at h3
      rw [place, getD_set _ _ _ _ (by rw [h1]; exact hs)]
      by_cases hda : d = a
      · subst hda
        rw [if_pos rfl] at h3 ⊢
        omega
      · rw [if_neg hda] at h3 ⊢
        exact h3

theorem trim_nodup : ∀ (as ws shape : List ℕ), as.Nodup → as.length = ws.length → (∀ a ∈ as, a < shape.length) →
    ((∃ p ∈ as.zip ws, shape.getD p.1 0 < p.2) → trim shape (as.zip ws) = .error .tooLarge) ∧
    ((∀ p ∈ as.zip ws, p.2 ≤ shape.getD p.1 0) → ∃ s, trim shape (as.zip ws) = .ok s ∧
      (∀ p ∈ as.zip ws, s.getD p.1 0 = shape.getD p.1 0 + 1 - p.2) ∧ ∀ d, d ∉ as → s.getD d 0 = shape.getD d 0)
  | [], ws, shape, _, _, _ => by
    refine ⟨?_, fun _ => ⟨shape, rfl, ?_, fun _ _ => rfl⟩⟩
    · rintro ⟨p, hp, _⟩; cases hp
    · intro p hp; cases hp
  | _ :: _, [], _, _, hl, _ => by cases hl
  | a :: as, w :: ws, shape, hn, hl, ha => by
    obtain ⟨hna, hn'⟩ := List.nodup_cons.1 hn
    have hs := ha a List.mem_cons_self
    obtain ⟨h1, h2⟩ := trim_nodup as ws (shape.set a (shape.getD a 0 + 1 - w)) hn' (by simpa using hl)
      (fun b hb => by rw [List.length_set]; exact ha b (List.mem_cons_of_mem _ hb))
    have hne : ∀ p ∈ as.zip ws, p.1 ≠ a := fun p hp h => hna (by rw [← h]; exact (List.of_mem_zip (show (p.1, p.2) ∈ as.zip ws from hp)).1)
    have hget : ∀ p ∈ as.zip ws, (shape.set a (shape.getD a 0 + 1 - w)).getD p.1 0 = shape.getD p.1 0 := fun p hp => by
      rw [getD_set _ _ _ _ hs, if_neg (hne p hp)]
    rw [List.zip_cons_cons, trim]
    constructor
    · rintro ⟨p, hp, hlt⟩
      by_cases hw : shape.getD a 0 < w
      · rw [if_pos hw]
      · rw [if_neg hw]
        rcases List.mem_cons.1 hp with rfl | hp
        · exact absurd hlt hw
        · exact h1 ⟨p, hp, by rw [hget p hp]; exact hlt⟩
    · intro hall
      rw [if_neg (by have := hall (a, w) List.mem_cons_self; simp only at this; omega)]
      obtain ⟨s, hts, h3, h4⟩ := h2 (fun p hp => by rw [hget p hp]; exact hall p (List.mem_cons_of_mem _ hp))
      refine ⟨s, hts, fun p hp => ?_, fun d hd => ?_⟩
      · rcases List.mem_cons.1 hp with rfl | hp
        · simp only
          rw [h4 a hna, getD_set _ _ _ _ hs, if_pos rfl]
        · rw [h3 p hp, hget p hp]
      · rw [List.mem_cons, not_or] at hd
        rw [h4 d hd.2, getD_set _ _ _ _ hs, if_neg hd.1]

theorem taken_cons (a : ℕ) (as : List ℕ) (w : ℤ) (ws : List ℤ) (d : ℕ) : taken (a :: as) (w :: ws) d = if a = d then w - 1 + taken as ws d else taken as ws d := by
  unfold taken
  rw [List.zip_cons_cons, List.filter_cons]
  by_cases h : a = d
  · rw [if_pos (by simpa using h), if_pos h, List.map_cons, List.sum_cons]
  · rw [if_neg (by simpa using h), if_neg h]

theorem taken_nonneg : ∀ (as : List ℕ) (ws : List ℤ) (d : ℕ), (∀ w ∈ ws, 1 ≤ w) → 0 ≤ taken as ws d
  | [], _, _, _ => by simp [taken]
  | _ :: _, [], _, _ => by simp [taken]
  | a :: as, w :: ws, d, h => by
    have h1 := taken_nonneg as ws d (fun v hv => h v (List.mem_cons_of_mem _ hv))
    have h2 := h w List.mem_cons_self
    rw [taken_cons]
    split <;> omega

theorem taken_not_mem : ∀ (as : List ℕ) (ws : List ℤ) (d : ℕ), d ∉ as → taken as ws d = 0
  | [], _, _, _ => by simp [taken]
  | _ :: _, [], _, _ => by simp [taken]
  | a :: as, w :: ws, d, h => by
    rw [List.mem_cons, not_or] at h
    rw [taken_cons, if_neg (fun h' => h.1 h'.symm), taken_not_mem as ws d h.2]

theorem trim_repeated : ∀ (as : List ℕ) (ws : List ℤ) (shape : List ℕ), (∀ w ∈ ws, 1 ≤ w) → as.length = ws.length → (∀ a ∈ as, a < shape.length) →
    ((∃ s, trim shape (as.zip (ws.map Int.toNat)) = .ok s) ↔ ∀ a ∈ as, taken as ws a < shape.getD a 0) ∧
    ∀ s, trim shape (as.zip (ws.map Int.toNat)) = .ok s → ∀ d, (s.getD d 0 : ℤ) = shape.getD d 0 - taken as ws d
  | [], ws, shape, _, _, _ => by
    refine ⟨⟨fun _ a ha => (by cases ha), fun _ => ⟨shape, rfl⟩⟩, fun s hs d => ?_⟩
    cases hs
    simp [taken]
  | _ :: _, [], _, _, hl, _ => by cases hl
  | a :: as, w :: ws, shape, hw, hl, ha => by
    have hw1 := hw w List.mem_cons_self
    have hs := ha a List.mem_cons_self
    have hws : ∀ v ∈ ws, 1 ≤ v := fun v hv => hw v (List.mem_cons_of_mem _ hv)
    obtain ⟨h1, h2⟩ := trim_repeated as ws (shape.set a (shape.getD a 0 + 1 - w.toNat)) hws (by simpa using hl)
      (fun b hb => by rw [List.length_set]; exact ha b (List.mem_cons_of_mem _ hb))
    have hget : ∀ d, (shape.set a (shape.getD a 0 + 1 - w.toNat)).getD d 0 = if d = a then shape.getD a 0 + 1 - w.toNat else shape.getD d 0 := fun d => getD_set _ _ _ _ hs
    have hnn := taken_nonneg as ws a hws
    rw [List.map_cons, List.zip_cons_cons, trim]
    by_cases hlt : shape.getD a 0 < w.toNat
    · rw [if_pos hlt]
      refine ⟨⟨?_, fun hall => ?_⟩, fun s h => by cases h⟩
      · rintro ⟨s, h⟩; cases h
      · have := hall a List.mem_cons_self
        rw [taken_cons, if_pos rfl] at this
        omega
    · rw [if_neg hlt]
      refine ⟨h1.trans ⟨fun h b hb => ?_, fun h b hb => ?_⟩, fun s h d => ?_⟩
      · rw [taken_cons]
        by_cases hab : a = b
        · subst hab
          rw [if_pos rfl]
          by_cases hmem : a ∈ as
          · have := h a hmem
            rw [hget, if_pos rfl] at this
            omega
          · rw [taken_not_mem as ws a hmem]
            omega
        · rw [if_neg hab]
          rcases List.mem_cons.1 hb with rfl | hb
          · exact absurd rfl hab
          · have := h b hb
            rw [hget, if_neg (fun h' => hab h'.symm)] at this
            exact this
      · have := h b (List.mem_cons_of_mem _ hb)
        rw [taken_cons] at this
        rw [hget]
        by_cases hab : a = b
        · subst hab
          rw [if_pos rfl] at this ⊢
          omega
        · rw [if_neg hab] at this
          rw [if_neg (fun h' => hab h'.symm)]
          exact this
      · rw [h2 s h d, hget, taken_cons]
        by_cases hab : a = d
        · subst hab
          rw [if_pos rfl, if_pos rfl]
          omega
        · rw [if_neg hab, if_neg (fun h' => hab h'.symm)]

theorem axesOf_spec (n w : ℕ) (axis : Option (List ℤ)) (ax : List ℕ) (h : axesOf n w axis = .ok ax) : ax.length = w ∧ ∀ a ∈ ax, a < n := by
  unfold axesOf at h
  split at h
  · split at h
    · cases h
    · next hw =>
      cases h
      exact ⟨by rw [List.length_range]; omega, fun a ha => List.mem_range.1 ha⟩
  · split at h
    · cases h
    · next a ax' hn =>
      split at h
      · cases h
      · next hw =>
        cases h
        refine ⟨by omega, fun b hb => ?_⟩
        unfold normAxis at hn
        split at hn
        · next hall =>
          cases hn
          obtain ⟨c, hc, rfl⟩ := List.mem_map.1 hb
          have := of_decide_eq_true (List.all_eq_true.1 hall c hc)
          split <;> omega
        · cases hn

theorem axesOf_meant (n w : ℕ) (axis : Option (List ℤ)) (ax : List ℕ) (h : axesOf n w axis = .ok ax) : Meant n axis ax := by
  unfold axesOf at h
  split at h
  · split at h
    · cases h
    · cases h; rfl
  · split at h
    · cases h
    · next a ax' hn =>
      split at h
      · cases h
      · cases h
        unfold normAxis at hn
        split at hn
        · next hall =>
          cases hn
          unfold Meant
          simp only
          rw [List.forall₂_map_right_iff, List.forall₂_same]
          intro c hc
          have := of_decide_eq_true (List.all_eq_true.1 hall c hc)
          split <;> omega
        · cases hn

theorem normAxis_meant (n : ℕ) (axis : List ℤ) (axes : List ℕ) (hm : Meant n (some axis) axes) : normAxis n axis = .ok axes := by
  unfold Meant at hm
  simp only at hm
  unfold normAxis
  rw [if_pos]
  · congr 1
    induction hm with
    | nil => rfl
    | cons h _ ih =>
      rw [List.map_cons, ih]
      congr 1
      split <;> omega
  · rw [List.all_eq_true]
    induction hm with
    | nil => intro z hz; cases hz
    | cons h _ ih =>
      intro z hz
      rcases List.mem_cons.1 hz with rfl | hz
      · exact decide_eq_true (by omega)
      · exact ih z hz

theorem split_index (idx s w : List ℕ) (h : Within idx (s ++ w)) : ∃ i j, idx = i ++ j ∧ Within i s ∧ Within j w := by
  obtain ⟨h1, h2⟩ := h
  rw [List.length_append] at h1 h2
  refine ⟨idx.take s.length, idx.drop s.length, (List.take_append_drop _ _).symm, ⟨by rw [List.length_take]; omega, fun d hd => ?_⟩, ⟨by rw [List.length_drop]; omega, fun d hd => ?_⟩⟩
  · have := h2 d (by omega)
    rw [List.getD_eq_getElem?_getD (l := s ++ w), List.getElem?_append_left hd, ← List.getD_eq_getElem?_getD] at this
    rw [List.getD_eq_getElem?_getD, List.getElem?_take, if_pos hd, ← List.getD_eq_getElem?_getD]
    exact this
  · have := h2 (s.length + d) (by omega)
    rw [List.getD_eq_getElem?_getD (l := s ++ w), List.getElem?_append_right (by omega), Nat.add_sub_cancel_left, ← List.getD_eq_getElem?_getD] at this
    rw [List.getD_eq_getElem?_getD, List.getElem?_drop, ← List.getD_eq_getElem?_getD]
    exact this

/-! ### C170 -/

/-- C170. Whenever a view is returned, its elements are elements of the array: the one at the position `i`, in the window at `j`, is the element of the array at `i` moved by every `j[k]` along the axis `axes[k]`, and this place is within the array, so that no memory
outside of it is read. Axes may be repeated or negative, windows may be empty. -/
theorem view_elements (x : Arr β) (hx : x.strides.length = x.shape.length) (window : List ℤ) (axis : Option (List ℤ)) (v : Arr β) (h : slide x window axis = .ok v) :
    ∃ (axes s : List ℕ), Meant x.shape.length axis axes ∧ axes.length = window.length ∧ s.length = x.shape.length ∧ v.shape = s ++ window.map Int.toNat ∧
      (∀ w ∈ window, 0 ≤ w) ∧
      ∀ idx, Within idx v.shape → ∃ i j, idx = i ++ j ∧ Within i s ∧ Within j (window.map Int.toNat) ∧
        Within (place i axes j) x.shape ∧ v.get idx = x.get (place i axes j) := by
  unfold slide at h
  split at h
  · cases h
  · next hneg =>
    split at h
    · cases h
    · next ax hax =>
      simp only at h
      split at h
      · cases h
      · next s hs =>
        cases h
        obtain ⟨hl, hb⟩ := axesOf_spec _ _ _ _ hax
        have hsl := trim_length _ _ _ hs
        refine ⟨ax, s, axesOf_meant _ _ _ _ hax, hl, hsl, rfl, fun w hw => ?_, fun idx hidx => ?_⟩
        · by_contra hc
          exact hneg (List.any_eq_true.2 ⟨w, hw, decide_eq_true (by omega)⟩)
        · obtain ⟨i, j, rfl, hi, hj⟩ := split_index idx s _ hidx
          have hin := trim_place i ax _ j x.shape s hs (by rw [hl, List.length_map]) hb hi hj
          refine ⟨i, j, rfl, hi, hj, hin, ?_⟩
          have hil : i.length = x.strides.length := by rw [hi.1, hsl, hx]
          unfold Arr.get
          simp only
          rw [dot_append _ _ _ _ hil, dot_place i x.strides hil ax j (by rw [hl, hj.1, List.length_map]) (fun a ha => by rw [hi.1, hsl]; exact hb a ha)]

/-- C170, default axes: a view is returned exactly when the window has one size per axis, none negative and none larger than the array. Every axis has as many positions as the window fits into it. -/
theorem view_exists (x : Arr β) (window : List ℤ) :
    ((∃ v, slide x window none = .ok v) ↔ window.length = x.shape.length ∧ ∀ d, d < window.length → 0 ≤ window.getD d 0 ∧ window.getD d 0 ≤ x.shape.getD d 0) ∧
    ∀ v, slide x window none = .ok v → ∃ s : List ℕ, v.shape = s ++ window.map Int.toNat ∧ s.length = x.shape.length ∧
      ∀ d, d < x.shape.length → (s.getD d 0 : ℤ) = x.shape.getD d 0 + 1 - window.getD d 0 := by
  have hget : ∀ d, d < window.length → (window.map Int.toNat).getD d 0 = (window.getD d 0).toNat := fun d hd => by
    simp [List.getD_eq_getElem?_getD, List.getElem?_map, List.getElem?_eq_getElem hd]
  have hzip : window.length = x.shape.length → ∀ d, d < window.length → (d, (window.getD d 0).toNat) ∈ (List.range x.shape.length).zip (window.map Int.toNat) := by
    intro hl d hd
    rw [List.mem_iff_getElem?]
    refine ⟨d, ?_⟩
    rw [List.getElem?_zip_eq_some]
    refine ⟨by rw [List.getElem?_range (by omega)], ?_⟩
    rw [← hget d hd, List.getD_eq_getElem?_getD, List.getElem?_map, List.getElem?_eq_getElem hd]
    rfl
  have hzip' : window.length = x.shape.length → ∀ p ∈ (List.range x.shape.length).zip (window.map Int.toNat), p.1 < window.length ∧ p.2 = (window.getD p.1 0).toNat := by
    intro hl p hp
    obtain ⟨d, hd⟩ := List.mem_iff_getElem?.1 hp
    rw [List.getElem?_zip_eq_some] at hd
    obtain ⟨h1, h2⟩ := hd
    obtain ⟨h3, h4⟩ := List.getElem?_eq_some_iff.1 h1
    rw [List.getElem_range] at h4
    rw [List.length_range] at h3
    subst h4
    have h5 : p.1 < window.length := by omega
    refine ⟨h5, ?_⟩
    rw [← hget p.1 h5, List.getD_eq_getElem?_getD, h2]
    rfl
  have hT := fun hl : window.length = x.shape.length => trim_nodup (List.range x.shape.length) (window.map Int.toNat) x.shape List.nodup_range
    (by rw [List.length_range, List.length_map, hl]) (fun a ha => List.mem_range.1 ha)
  have hnn : ¬ (window.any (fun w => decide (w < 0)) = true) → ∀ d, d < window.length → 0 ≤ window.getD d 0 := by
    intro h d hd
    by_contra hc
    refine h (List.any_eq_true.2 ⟨window[d], List.getElem_mem _, decide_eq_true ?_⟩)
    rw [List.getD_eq_getElem?_getD, List.getElem?_eq_getElem hd] at hc
    simpa using hc
  have main : ∀ v, slide x window none = .ok v → window.length = x.shape.length ∧ (∀ d, d < window.length → 0 ≤ window.getD d 0 ∧ window.getD d 0 ≤ x.shape.getD d 0) ∧
      ∃ s : List ℕ, v.shape = s ++ window.map Int.toNat ∧ s.length = x.shape.length ∧ ∀ d, d < x.shape.length → (s.getD d 0 : ℤ) = x.shape.getD d 0 + 1 - window.getD d 0 := by
    intro v h
    unfold slide axesOf at h
    split at h
    · cases h
    · next hneg =>
      simp only at h
      by_cases hl : window.length ≠ x.shape.length
      · rw [if_pos hl] at h; cases h
      · rw [if_neg hl] at h
        simp only at h
        push Not at hl
        split at h
        · cases h
        · next s hs =>
          cases h
          have hle : ∀ d, d < window.length → window.getD d 0 ≤ x.shape.getD d 0 := by
            intro d hd
            by_contra hc
            have := (hT hl).1 ⟨_, hzip hl d hd, by simp only; omega⟩
            rw [this] at hs
            cases hs
          have h0 := hnn hneg
          refine ⟨hl, fun d hd => ⟨h0 d hd, hle d hd⟩, s, rfl, trim_length _ _ _ hs, fun d hd => ?_⟩
          obtain ⟨s', hs', h3, _⟩ := (hT hl).2 (fun p hp => by
            obtain ⟨h4, h5⟩ := hzip' hl p hp
            have := hle p.1 h4
            omega)
          rw [hs'] at hs
          cases hs
          have hd' : d < window.length := by omega
          have h6 := h3 _ (hzip hl d hd')
          simp only at h6
          have := hle d hd'
          have := h0 d hd'
          rw [h6]
          omega
  refine ⟨⟨fun ⟨v, hv⟩ => ⟨(main v hv).1, (main v hv).2.1⟩, fun ⟨hl, hall⟩ => ?_⟩, fun v hv => (main v hv).2.2⟩
  obtain ⟨s, hs, _⟩ := (hT hl).2 (fun p hp => by
    obtain ⟨h4, h5⟩ := hzip' hl p hp
    have := hall p.1 h4
    omega)
  refine ⟨⟨x.mem, x.off, s ++ window.map Int.toNat, x.strides ++ (List.range x.shape.length).map (fun a => x.strides.getD a 0)⟩, ?_⟩
  unfold slide axesOf
  rw [if_neg (by
    intro hc
    obtain ⟨w, hw, hlt⟩ := List.any_eq_true.1 hc
    obtain ⟨d, hd, rfl⟩ := List.mem_iff_getElem.1 hw
    have := (hall d hd).1
    rw [List.getD_eq_getElem?_getD, List.getElem?_eq_getElem hd] at this
    simp only [Option.getD_some] at this
    have := of_decide_eq_true hlt
    omega)]
  simp only
  rw [if_neg (by simpa using hl)]
  simp only
  rw [hs]

/-- C170, given axes that are different from one another and exist: a view is returned exactly when there are as many sizes as axes, none is negative and none is larger than the array along its axis; then its positions are reduced along these axes only. -/
theorem view_given_axes (x : Arr β) (window axis : List ℤ) (axes : List ℕ) (hm : Meant x.shape.length (some axis) axes) (hn : axes.Nodup) :
    ((∃ v, slide x window (some axis) = .ok v) ↔ axis.length = window.length ∧ ∀ p ∈ axes.zip window, 0 ≤ p.2 ∧ p.2 ≤ x.shape.getD p.1 0) ∧
    ∀ v, slide x window (some axis) = .ok v → ∃ s : List ℕ, v.shape = s ++ window.map Int.toNat ∧ s.length = x.shape.length ∧
      (∀ p ∈ axes.zip window, (s.getD p.1 0 : ℤ) = x.shape.getD p.1 0 + 1 - p.2) ∧ ∀ d, d ∉ axes → s.getD d 0 = x.shape.getD d 0 := by
  have hnorm := normAxis_meant _ _ _ hm
  have hlen : axis.length = axes.length := hm.length_eq
  have hlt : ∀ a ∈ axes, a < x.shape.length := by
    intro a ha
    exact (axesOf_spec x.shape.length axes.length (some axis) axes (by unfold axesOf; simp only [hnorm]; rw [if_neg (by simp)])).2 a ha
  have hz : axes.zip (window.map Int.toNat) = (axes.zip window).map (fun p => (p.1, p.2.toNat)) := by
    rw [List.zip_map_right]
    rfl
  have hT := fun hl : axes.length = window.length => trim_nodup axes (window.map Int.toNat) x.shape hn (by rw [List.length_map, hl]) hlt
  have main : ∀ v, slide x window (some axis) = .ok v → axes.length = window.length ∧ (∀ p ∈ axes.zip window, 0 ≤ p.2 ∧ p.2 ≤ x.shape.getD p.1 0) ∧
      ∃ s : List ℕ, v.shape = s ++ window.map Int.toNat ∧ s.length = x.shape.length ∧
      (∀ p ∈ axes.zip window, (s.getD p.1 0 : ℤ) = x.shape.getD p.1 0 + 1 - p.2) ∧ ∀ d, d ∉ axes → s.getD d 0 = x.shape.getD d 0 := by
    intro v h
    unfold slide axesOf at h
    split at h
    · cases h
    · next hneg =>
      simp only [hnorm] at h
      by_cases hl : window.length ≠ axes.length
      · rw [if_pos hl] at h; cases h
      · rw [if_neg hl] at h
        simp only at h
        push Not at hl
        split at h
        · cases h
        · next s hs =>
          cases h
          have h0 : ∀ p ∈ axes.zip window, 0 ≤ p.2 := fun p hp => by
            by_contra hc
            exact hneg (List.any_eq_true.2 ⟨p.2, (List.of_mem_zip (show (p.1, p.2) ∈ axes.zip window from hp)).2, decide_eq_true (by omega)⟩)
          have hle : ∀ p ∈ axes.zip window, p.2 ≤ x.shape.getD p.1 0 := fun p hp => by
            by_contra hc
            have := (hT hl.symm).1 ⟨(p.1, p.2.toNat), by rw [hz]; exact List.mem_map.2 ⟨p, hp, rfl⟩, by simp only; omega⟩
            rw [this] at hs
            cases hs
          obtain ⟨s', hs', h3, h4⟩ := (hT hl.symm).2 (fun q hq => by
            rw [hz] at hq
            obtain ⟨p, hp, rfl⟩ := List.mem_map.1 hq
            have := hle p hp
            simp only
            omega)
          rw [hs'] at hs
          cases hs
          refine ⟨hl.symm, fun p hp => ⟨h0 p hp, hle p hp⟩, _, rfl, trim_length _ _ _ hs', fun p hp => ?_, h4⟩
          have h6 := h3 (p.1, p.2.toNat) (by rw [hz]; exact List.mem_map.2 ⟨p, hp, rfl⟩)
          simp only at h6
          have := hle p hp
          have := h0 p hp
          rw [h6]
          omega
  refine ⟨⟨fun ⟨v, hv⟩ => ⟨by rw [hlen]; exact (main v hv).1, (main v hv).2.1⟩, fun ⟨hl, hall⟩ => ?_⟩, fun v hv => (main v hv).2.2⟩
  rw [hlen] at hl
  obtain ⟨s, hs, _⟩ := (hT hl).2 (fun q hq => by
    rw [hz] at hq
    obtain ⟨p, hp, rfl⟩ := List.mem_map.1 hq
    have := hall p hp
    simp only
    omega)
  refine ⟨⟨x.mem, x.off, s ++ window.map Int.toNat, x.strides ++ axes.map (fun a => x.strides.getD a 0)⟩, ?_⟩
  unfold slide axesOf
  rw [if_neg (by
    intro hc
    obtain ⟨w, hw, hlt'⟩ := List.any_eq_true.1 hc
    obtain ⟨d, hd, rfl⟩ := List.mem_iff_getElem.1 hw
    have hmem : (axes[d]'(by omega), window[d]) ∈ axes.zip window := by
      rw [List.mem_iff_getElem]
      exact ⟨d, by rw [List.length_zip]; omega, by rw [List.getElem_zip]⟩
    have := (hall _ hmem).1
    have := of_decide_eq_true hlt'
    simp only at *
    omega)]
  simp only [hnorm]
  rw [if_neg (by omega)]
  simp only
  rw [hs]

/-- C170, axes that may be repeated: with sizes that are not zero, a view is returned exactly when the windows along an axis together leave a position, and there are as many positions as they leave. -/
theorem view_repeated_axes (x : Arr β) (window axis : List ℤ) (axes : List ℕ) (hm : Meant x.shape.length (some axis) axes) (hl : axis.length = window.length) (hw : ∀ w ∈ window, 1 ≤ w) :
    ((∃ v, slide x window (some axis) = .ok v) ↔ ∀ a ∈ axes, taken axes window a < x.shape.getD a 0) ∧
    ∀ v, slide x window (some axis) = .ok v → ∃ s : List ℕ, v.shape = s ++ window.map Int.toNat ∧ s.length = x.shape.length ∧
      ∀ d, (s.getD d 0 : ℤ) = x.shape.getD d 0 - taken axes window d := by
  have hnorm := normAxis_meant _ _ _ hm
  have hlen : axes.length = window.length := by rw [← hl]; exact hm.length_eq.symm
  have hax : axesOf x.shape.length window.length (some axis) = .ok axes := by
    unfold axesOf
    simp only [hnorm]
    rw [if_neg (by omega)]
  obtain ⟨h1, h2⟩ := trim_repeated axes window x.shape hw hlen (axesOf_spec _ _ _ _ hax).2
  have hs : slide x window (some axis) = match trim x.shape (axes.zip (window.map Int.toNat)) with
      | .error e => .error e
      | .ok s => .ok ⟨x.mem, x.off, s ++ window.map Int.toNat, x.strides ++ axes.map (fun a => x.strides.getD a 0)⟩ := by
    unfold slide
    rw [if_neg (by
      intro hc
      obtain ⟨w, hmem, hlt⟩ := List.any_eq_true.1 hc
      have := of_decide_eq_true hlt
      have := hw w hmem
      omega)]
    simp only [hax]
    cases trim x.shape (axes.zip (window.map Int.toNat)) <;> rfl
  rw [hs, ← h1]
  rcases ht : trim x.shape (axes.zip (window.map Int.toNat)) with e | s
  · refine ⟨⟨?_, ?_⟩, fun v h => by cases h⟩
    · rintro ⟨v, h⟩; cases h
    · rintro ⟨v, h⟩; cases h
  · refine ⟨⟨fun _ => ⟨s, rfl⟩, fun _ => ⟨_, rfl⟩⟩, fun v h => ?_⟩
    cases h
    exact ⟨s, rfl, trim_length _ _ _ ht, h2 s ht⟩

/-- Two windows of two along an axis of three leave one position; an empty window gives one position more, in which there is nothing. -/
example : taken [1, 1] [2, 2] 1 = 2 ∧ taken [1, 1] [2, 3] 1 = 3 ∧ (slide ⟨fun a => a, 0, [2, 3], [3, 1]⟩ [2, 3] (some [1, -1])).toOption.isNone ∧
    (slide ⟨fun a => a, 0, [2, 3], [3, 1]⟩ [0, 4] (some [1, -1])).toOption.map (fun v => v.shape) = some [2, 1, 0, 4] := by decide

/-- C170: an axis that the array does not have is refused, and so is a window with more or fewer sizes than there are axes. -/
theorem axis_refused (x : Arr β) (window axis : List ℤ) (h : (∃ a ∈ axis, a < -(x.shape.length : ℤ) ∨ (x.shape.length : ℤ) ≤ a) ∨ axis.length ≠ window.length) :
    ∃ e, slide x window (some axis) = .error e := by
  rcases hv : slide x window (some axis) with e | v
  · exact ⟨e, rfl⟩
  · exfalso
    unfold slide at hv
    split at hv
    · cases hv
    · split at hv
      · cases hv
      · next ax hax =>
        have hm := axesOf_meant _ _ _ _ hax
        have hl := (axesOf_spec _ _ _ _ hax).1
        unfold Meant at hm
        simp only at hm
        rcases h with ⟨a, ha, hout⟩ | h
        · obtain ⟨d, hd, rfl⟩ := List.mem_iff_getElem.1 ha
          have := hm.get hd (by rw [← hm.length_eq]; exact hd)
          simp only [List.get_eq_getElem] at this
          omega
        · exact h (by rw [hm.length_eq, hl])

/-- The array of a list. -/
def ofList (l : List β) (dflt : β) : Arr β := ⟨fun a => l.getD a.toNat dflt, 0, [l.length], [1]⟩

/-- C170 in one dimension: the rows of the view of a list are its windows, from left to right. -/
theorem rows_of_list (l : List β) (dflt : β) (w : ℕ) (h : w ≤ l.length) :
    ∃ v, slide (ofList l dflt) [(w : ℤ)] none = .ok v ∧ v.shape = [l.length + 1 - w, w] ∧
      ∀ i < l.length + 1 - w, (List.range w).map (fun j => v.get [i, j]) = (l.drop i).take w := by
  obtain ⟨v, hv⟩ := (view_exists (ofList l dflt) [(w : ℤ)]).1.2 ⟨rfl, fun d hd => by
    have : d = 0 := by simpa using hd
    subst this
    simp only [List.getD_cons_zero, ofList]
    omega⟩
  obtain ⟨axes, s, hax, _, hsl, hsh, _, hel⟩ := view_elements (ofList l dflt) rfl _ _ v hv
  have haxes : axes = [0] := hax
  subst haxes
  have hs : s = [l.length + 1 - w] := by
    obtain ⟨s', h1, h2, h3⟩ := (view_exists (ofList l dflt) [(w : ℤ)]).2 v hv
    have hss : s' = s := List.append_cancel_right (h1.symm.trans hsh)
    subst hss
    have h4 := h3 0 (by simp [ofList])
    match s', h2, h4 with
    | [a], _, h4 =>
      simp only [List.getD_cons_zero, ofList] at h4
      congr 1
      omega
  subst hs
  refine ⟨v, hv, by rw [hsh]; rfl, fun i hi => ?_⟩
  apply List.ext_getElem?
  intro j
  rw [List.getElem?_map, List.getElem?_take]
  by_cases hj : j < w
  · rw [List.getElem?_range hj, if_pos hj, List.getElem?_drop, Option.map_some]
    obtain ⟨i', j', he, hi', hj', hp, hg⟩ := hel [i, j] (by
      rw [hsh]
      refine ⟨rfl, fun d hd => ?_⟩
      match d, hd with
      | 0, _ => exact hi
      | 1, _ => simpa using hj)
    have h1 : i' = [i] ∧ j' = [j] := by
      have hl := hi'.1
      match i', hl with
      | [a], _ =>
        simp only [List.cons_append, List.nil_append, List.cons.injEq] at he
        exact ⟨by rw [he.1], he.2.symm⟩
    obtain ⟨rfl, rfl⟩ := h1
    rw [hg]
    have hpl : place [i] [0] [j] = [i + j] := rfl
    rw [hpl]
    have hlt : i + j < l.length := by omega
    simp only [Arr.get, ofList, dot]
    rw [List.getElem?_eq_getElem hlt]
    have : ((0 : ℤ) + (((i + j : ℕ) : ℤ) * 1 + 0)).toNat = i + j := by omega
    rw [this, List.getD_eq_getElem?_getD, List.getElem?_eq_getElem hlt]
    rfl
  · rw [if_neg hj, List.getElem?_eq_none (by rw [List.length_range]; omega)]
    rfl

/-- The docstring's example, and windows that are refused. -/
example : (slide (ofList [0, 1, 2, 3, 4, 5] 9) [3] none).toOption.map (fun v => (v.shape, (List.range 4).map (fun i => (List.range 3).map (fun j => v.get [i, j])))) =
    some ([4, 3], [[0, 1, 2], [1, 2, 3], [2, 3, 4], [3, 4, 5]]) ∧
    (slide (ofList [0, 1] 9) [3] none).toOption.isNone ∧ (slide (ofList [0, 1] 9) [-1] none).toOption.isNone ∧ (slide (ofList [0, 1] 9) [1, 1] none).toOption.isNone := by decide

/-- Hypotheses of `view_given_axes` and of `axis_refused`. -/
example : Meant 2 (some [-1, 0]) [1, 0] ∧ [1, 0].Nodup ∧ ∃ a ∈ [(0 : ℤ), 2], a < -2 ∨ 2 ≤ a := by
  refine ⟨?_, by decide, by decide⟩
  unfold Meant
  simp

/-- A table with two rows and three columns, windows along the columns, given as the axis -1; and the same axis twice. -/
example : (slide ⟨fun a => a, 0, [2, 3], [3, 1]⟩ [2] (some [-1])).toOption.map (fun v => (v.shape, v.get [1, 0, 1])) = some ([2, 2, 2], 4) ∧
    (slide ⟨fun a => a, 0, [2, 3], [3, 1]⟩ [2, 2] (some [1, -1])).toOption.map (fun v => (v.shape, v.get [1, 0, 1, 1])) = some ([2, 1, 2, 2], 5) := by decide

end Verif.Window
