import Verif.Ubiq.Lemmas

/-! # Smartphone logs: properties (C101) -/

set_option autoImplicit false
set_option linter.unusedSectionVars false

namespace Verif.Ubiq

theorem mem_parseAll (minOcc : ℕ) (log : List Rec) (u : ℕ) (f : Files) : (u, f) ∈ parseAll minOcc log ↔ ∃ d, (run log).users.lookup u = some d ∧ AllParsed log u ∧ filesOf minOcc d = some f := by
  have inv := run_inv log
  unfold parseAll
  rw [List.mem_filterMap]
  constructor
  · rintro ⟨⟨v, d⟩, hm, h⟩
    split_ifs at h with hd
    simp only at h hd
    cases hf : filesOf minOcc d with
    | none => rw [hf] at h; cases h
    | some g =>
      rw [hf] at h
      obtain ⟨rfl, rfl⟩ := Prod.mk.inj (Option.some.inj h)
      exact ⟨d, (lookup_of_mem _ inv.keys _ _).1 hm, not_not.1 (fun h => hd ((inv.drop _).2 h)), hf⟩
  · rintro ⟨d, h1, h2, h3⟩
    refine ⟨(u, d), (lookup_of_mem _ inv.keys _ _).2 h1, ?_⟩
    rw [if_neg (fun h => (inv.drop u).1 h h2)]
    simp [h3]

theorem mem_kept (minOcc : ℕ) (log : List Rec) (u : ℕ) (d : UserData) (hl : (run log).users.lookup u = some d) (ha : AllParsed log u) (t : ℤ) (e : Str) :
    (t, e) ∈ kept minOcc d ↔ ∃ p k, e = eventName p k ∧ Happens log u p k t ∧ minOcc < number log u p k := by
  have inv := run_inv log
  have hev : d.ev = raw log u := by
    rcases inv.data u ha with ⟨h, -⟩ | ⟨d', h, h', -⟩
    · rw [h] at hl; cases hl
    · rw [h] at hl; obtain rfl := Option.some.inj hl; exact h'
  unfold kept
  rw [List.mem_filter, decide_eq_true_eq, hev]
  simp only
  rw [inv.counts u d hl e, hev]
  constructor
  · rintro ⟨h1, h2⟩
    obtain ⟨p, k, rfl, h⟩ := (mem_raw log u t e).1 h1
    rw [count_raw] at h2
    exact ⟨p, k, rfl, h, h2⟩
  · rintro ⟨p, k, rfl, h1, h2⟩
    rw [count_raw]
    exact ⟨(mem_raw log u t _).2 ⟨p, k, rfl, h1⟩, h2⟩

theorem kept_long (minOcc : ℕ) (d : UserData) (hc : CountsOk d) (x : ℤ × Str) (hx : x ∈ kept minOcc d) : minOcc < (kept minOcc d).length := by
  have h1 : minOcc < (d.counts.lookup x.2).getD 0 := of_decide_eq_true (List.mem_filter.1 hx).2
  have h2 : (d.ev.map Prod.snd).count x.2 = ((kept minOcc d).map Prod.snd).count x.2 := by
    unfold kept
    generalize d.ev = L
    induction L with
    | nil => rfl
    | cons y L ih =>
      by_cases hy : minOcc < (d.counts.lookup y.2).getD 0
      · rw [List.filter_cons_of_pos (by simpa using hy), List.map_cons, List.map_cons, List.count_cons, List.count_cons, ih]
      · rw [List.filter_cons_of_neg (by simpa using hy), List.map_cons, List.count_cons, ih]
        have : ¬ y.2 = x.2 := fun h => hy (h ▸ h1)
        simp [this]
  have h3 := List.count_le_length (a := x.2) (l := (kept minOcc d).map Prod.snd)
  rw [List.length_map, ← h2, ← hc x.2] at h3
  omega

theorem filesOf_some (minOcc : ℕ) (d : UserData) (f : Files) (h : filesOf minOcc d = some f) :
    ∃ x l, sorted (kept minOcc d) = x :: l ∧ f = ⟨x.1, dropRepeats none (offsets x.1 (x :: l)), dropRepeats none (isRows (offsets x.1 (x :: l)))⟩ := by
  unfold filesOf at h
  split_ifs at h
  split at h
  · cases h
  · rename_i x l hs
    exact ⟨x, l, hs, (Option.some.inj h).symm⟩

/-- A user is loaded exactly if all the dates of the user can be parsed and some event is there more often than `min_occ`. -/
theorem loaded_iff (minOcc : ℕ) (log : List Rec) (u : ℕ) : (∃ f, (u, f) ∈ parseAll minOcc log) ↔ AllParsed log u ∧ ∃ p k, minOcc < number log u p k := by
  have inv := run_inv log
  constructor
  · rintro ⟨f, hf⟩
    obtain ⟨d, h1, h2, h3⟩ := (mem_parseAll minOcc log u f).1 hf
    obtain ⟨x, l, hs, -⟩ := filesOf_some minOcc d f h3
    have hx : x ∈ kept minOcc d := (mem_sorted _ x).1 (by rw [hs]; exact List.mem_cons_self)
    obtain ⟨p, k, -, -, h⟩ := (mem_kept minOcc log u d h1 h2 x.1 x.2).1 hx
    exact ⟨h2, p, k, h⟩
  · rintro ⟨h2, p, k, hn⟩
    obtain ⟨t, ht⟩ := number_pos log u p k (by omega)
    rcases inv.data u h2 with ⟨-, h⟩ | ⟨d, h1, -, -⟩
    · have := (mem_raw log u t _).2 ⟨p, k, rfl, ht⟩
      rw [h] at this
      simp at this
    · have hk := (mem_kept minOcc log u d h1 h2 t _).2 ⟨p, k, rfl, ht, hn⟩
      have hlen := kept_long minOcc d (inv.counts u d h1) _ hk
      have hs := (mem_sorted _ _).2 hk
      cases hl : sorted (kept minOcc d) with
      | nil => rw [hl] at hs; simp at hs
      | cons x l =>
        refine ⟨⟨x.1, dropRepeats none (offsets x.1 (x :: l)), dropRepeats none (isRows (offsets x.1 (x :: l)))⟩, (mem_parseAll minOcc log u _).2 ⟨d, h1, h2, ?_⟩⟩
        unfold filesOf
        rw [if_pos hlen, hl]

/-- Each user has one pair of files. -/
theorem one_file (minOcc : ℕ) (log : List Rec) (u : ℕ) (f g : Files) (hf : (u, f) ∈ parseAll minOcc log) (hg : (u, g) ∈ parseAll minOcc log) : f = g := by
  obtain ⟨d, h1, -, h3⟩ := (mem_parseAll minOcc log u f).1 hf
  obtain ⟨d', h1', -, h3'⟩ := (mem_parseAll minOcc log u g).1 hg
  rw [h1] at h1'
  obtain rfl := Option.some.inj h1'
  rw [h3] at h3'
  exact Option.some.inj h3'

theorem start_props (minOcc : ℕ) (log : List Rec) (u : ℕ) (f : Files) (hf : (u, f) ∈ parseAll minOcc log) :
    (∃ p k, Happens log u p k f.start ∧ minOcc < number log u p k) ∧ (∀ p k t, Happens log u p k t → minOcc < number log u p k → f.start ≤ t) := by
  obtain ⟨d, h1, h2, h3⟩ := (mem_parseAll minOcc log u f).1 hf
  obtain ⟨x, l, hs, rfl⟩ := filesOf_some minOcc d f h3
  have hx : x ∈ kept minOcc d := (mem_sorted _ x).1 (by rw [hs]; exact List.mem_cons_self)
  obtain ⟨p, k, -, h4, h5⟩ := (mem_kept minOcc log u d h1 h2 x.1 x.2).1 hx
  refine ⟨⟨p, k, h4, h5⟩, fun p k t ht hn => ?_⟩
  have hm := (mem_sorted _ _).2 ((mem_kept minOcc log u d h1 h2 t _).2 ⟨p, k, rfl, ht, hn⟩)
  have hp := sorted_pairwise (kept minOcc d)
  rw [hs] at hm hp
  rcases List.mem_cons.1 hm with h | h
  · exact (congrArg Prod.fst h).ge
  · have := (pairLe_iff _ _).1 ((List.pairwise_cons.1 hp).1 _ h)
    simp only at this ⊢
    omega

theorem mem_offsets (minOcc : ℕ) (log : List Rec) (u : ℕ) (d : UserData) (h1 : (run log).users.lookup u = some d) (h2 : AllParsed log u) (x : ℤ × Str) (l : List (ℤ × Str)) (hs : sorted (kept minOcc d) = x :: l)
    (hle : ∀ p k t, Happens log u p k t → minOcc < number log u p k → x.1 ≤ t) (m : ℤ) (e : Str) :
    (m, e) ∈ offsets x.1 (x :: l) ↔ ∃ p k t, e = eventName p k ∧ Happens log u p k t ∧ minOcc < number log u p k ∧ m = (t - x.1) / 60 := by
  unfold offsets
  rw [mem_sorted, List.mem_map, ← hs]
  constructor
  · rintro ⟨⟨t, e'⟩, hm, heq⟩
    obtain ⟨rfl, rfl⟩ := Prod.mk.inj heq
    obtain ⟨p, k, h3, h4, h5⟩ := (mem_kept minOcc log u d h1 h2 t e').1 ((mem_sorted _ _).1 hm)
    exact ⟨p, k, t, h3, h4, h5, Int.tdiv_eq_ediv_of_nonneg (by have := hle p k t h4 h5; simp only; omega)⟩
  · rintro ⟨p, k, t, rfl, h4, h5, rfl⟩
    refine ⟨(t, eventName p k), (mem_sorted _ _).2 ((mem_kept minOcc log u d h1 h2 t _).2 ⟨p, k, rfl, h4, h5⟩), ?_⟩
    simp only
    rw [Int.tdiv_eq_ediv_of_nonneg (by have := hle p k t h4 h5; omega)]

/-- C101, what holds. The series read from the file `_ISE_` of a user has the events of the log that are there more often than `min_occ`, in the order of time, each once per minute counted from the first. Missing: the times. An event at
`t` should come at `t`, or at the beginning of its minute; it comes as many seconds after the first event as it should come minutes (`times_too_early`). -/
theorem ise_content_partial (minOcc : ℕ) (log : List Rec) (u : ℕ) (f : Files) (hf : (u, f) ∈ parseAll minOcc log) :
    (∀ x e, (x, e) ∈ readISE f ↔ ∃ p k t, e = eventName p k ∧ Happens log u p k t ∧ minOcc < number log u p k ∧ x = f.start + (t - f.start) / 60) ∧
    (readISE f).Pairwise (fun x y => x.1 < y.1 ∨ x.1 = y.1 ∧ x.2 ≠ y.2) := by
  obtain ⟨-, hle⟩ := start_props minOcc log u f hf
  obtain ⟨d, h1, h2, h3⟩ := (mem_parseAll minOcc log u f).1 hf
  obtain ⟨x, l, hs, rfl⟩ := filesOf_some minOcc d f h3
  simp only at hle
  constructor
  · intro y e
    unfold readISE
    rw [List.mem_map]
    simp only
    constructor
    · rintro ⟨⟨m, e'⟩, hm, heq⟩
      obtain ⟨rfl, rfl⟩ := Prod.mk.inj heq
      obtain ⟨p, k, t, h4, h5, h6, rfl⟩ := (mem_offsets minOcc log u d h1 h2 x l hs hle m e').1 ((mem_dropRepeats_none _ _).1 hm)
      exact ⟨p, k, t, h4, h5, h6, rfl⟩
    · rintro ⟨p, k, t, rfl, h5, h6, rfl⟩
      exact ⟨_, (mem_dropRepeats_none _ _).2 ((mem_offsets minOcc log u d h1 h2 x l hs hle _ _).2 ⟨p, k, t, rfl, h5, h6, rfl⟩), rfl⟩
  · unfold readISE
    rw [List.pairwise_map]
    refine (dropRepeats_strict _ (sorted_pairwise _) none (by simp)).1.imp ?_
    rintro ⟨a, s⟩ ⟨b, t⟩ ⟨hab, hne⟩
    have := (pairLe_iff _ _).1 hab
    simp only at this ⊢
    rcases this with h | ⟨h, -⟩
    · left; omega
    · subst h
      exact Or.inr ⟨rfl, fun h => hne (by rw [h])⟩

/-- Every event after the first second comes too early, and the error is 59 seconds for each minute. -/
theorem times_too_early (minOcc : ℕ) (log : List Rec) (u : ℕ) (f : Files) (hf : (u, f) ∈ parseAll minOcc log) (p : Str) (k : Kind) (t : ℤ) (ht : Happens log u p k t) (hn : minOcc < number log u p k)
    (hlate : f.start < t) : ∃ x, (x, eventName p k) ∈ readISE f ∧ x < t ∧ 59 * (x - f.start) ≤ t - x ∧ t - x < 59 * (x - f.start) + 60 := by
  refine ⟨f.start + (t - f.start) / 60, ((ise_content_partial minOcc log u f hf).1 _ _).2 ⟨p, k, t, rfl, ht, hn, rfl⟩, ?_⟩
  omega

/-- The start and the end of a use are loaded together, and the end comes later. -/
theorem start_end_together (minOcc : ℕ) (log : List Rec) (u : ℕ) (f : Files) (hf : (u, f) ∈ parseAll minOcc log) (p : Str) (a b : ℤ) (hr : ⟨u, p, some (a, b)⟩ ∈ log) (hab : 60 ≤ b - a)
    (hn : minOcc < number log u p .start ∨ minOcc < number log u p .stop) :
    ∃ x y, (x, eventName p .start) ∈ readISE f ∧ (y, eventName p .stop) ∈ readISE f ∧ x < y := by
  have heq : number log u p .start = number log u p .stop := rfl
  have hn' : minOcc < number log u p .start := hn.elim id (fun h => heq ▸ h)
  have hc := (ise_content_partial minOcc log u f hf).1
  refine ⟨_, _, (hc _ _).2 ⟨p, .start, a, rfl, ⟨_, hr, rfl, rfl, b, rfl, hab⟩, hn', rfl⟩, (hc _ _).2 ⟨p, .stop, b, rfl, ⟨_, hr, rfl, rfl, a, rfl, hab⟩, heq ▸ hn', rfl⟩, ?_⟩
  omega

theorem isRows_mem (evs : List (ℤ × Str)) (hev : ∀ x ∈ evs, ∃ p k, x.2 = eventName p k) (m : ℤ) (p : Str) : (m, p) ∈ isRows evs ↔ (m, eventName p .instant) ∈ evs ∨ (m, eventName p .start) ∈ evs := by
  unfold isRows
  rw [List.mem_filterMap]
  have hl : ∀ (q : Str) (k : Kind), lastPart (eventName q k) = [k.letter] := fun q k => lastPart_mark q _ (by cases k <;> simp [Kind.letter])
  have hb : ∀ (q : Str) (k : Kind), butLast (eventName q k) = q := fun q k => butLast_mark q _ (by cases k <;> simp [Kind.letter])
  constructor
  · rintro ⟨⟨t, e⟩, hx, h⟩
    obtain ⟨q, k, hq⟩ := hev _ hx
    simp only at hq
    subst hq
    simp only [hl, hb] at h
    split_ifs at h with hk
    obtain ⟨rfl, rfl⟩ := Prod.mk.inj (Option.some.inj h)
    cases k
    · exact Or.inl hx
    · exact Or.inr hx
    · simp [Kind.letter] at hk
  · rintro (h | h)
    · exact ⟨_, h, by simp [hl, hb, Kind.letter]⟩
    · exact ⟨_, h, by simp [hl, hb, Kind.letter]⟩

/-- The series read from the file `_IS_`: the times are 1, 2, 3, .., the events are the processes used or started, minute after minute. -/
theorem is_content (minOcc : ℕ) (log : List Rec) (u : ℕ) (f : Files) (hf : (u, f) ∈ parseAll minOcc log) :
    (readIS f).map Prod.fst = List.range' 1 f.is.length ∧ (readIS f).map Prod.snd = f.is.map Prod.snd ∧ f.is.Pairwise (fun x y => x.1 ≤ y.1) ∧
    ∀ m p, (m, p) ∈ f.is ↔ ∃ k t, k ≠ .stop ∧ Happens log u p k t ∧ minOcc < number log u p k ∧ m = (t - f.start) / 60 := by
  obtain ⟨-, hle⟩ := start_props minOcc log u f hf
  obtain ⟨d, h1, h2, h3⟩ := (mem_parseAll minOcc log u f).1 hf
  obtain ⟨x, l, hs, rfl⟩ := filesOf_some minOcc d f h3
  simp only at hle
  have hoff := mem_offsets minOcc log u d h1 h2 x l hs hle
  refine ⟨?_, ?_, ?_, fun m p => ?_⟩
  · unfold readIS
    rw [List.map_map]
    have : (Prod.fst ∘ fun e : (ℤ × Str) × ℕ => (e.2, e.1.2)) = Prod.snd := rfl
    rw [this, List.zipIdx_map_snd]
  · unfold readIS
    rw [List.map_map]
    have : (Prod.snd ∘ fun e : (ℤ × Str) × ℕ => (e.2, e.1.2)) = Prod.snd ∘ Prod.fst := rfl
    rw [this, ← List.map_map, List.zipIdx_map_fst]
  · refine List.Pairwise.sublist (dropRepeats_sublist _ none) ?_
    unfold isRows
    rw [List.pairwise_filterMap]
    refine (sorted_pairwise _).imp ?_
    intro y z hyz a ha b hb
    split_ifs at ha hb
    obtain rfl := Option.some.inj ha
    obtain rfl := Option.some.inj hb
    have := (pairLe_iff _ _).1 hyz
    simp only
    omega
  · simp only
    rw [mem_dropRepeats_none, isRows_mem]
    · constructor
      · rintro (h | h)
        · obtain ⟨q, k, t, he, h4, h5, h6⟩ := (hoff _ _).1 h
          obtain ⟨rfl, rfl⟩ := eventName_inj he
          exact ⟨_, t, by simp, h4, h5, h6⟩
        · obtain ⟨q, k, t, he, h4, h5, h6⟩ := (hoff _ _).1 h
          obtain ⟨rfl, rfl⟩ := eventName_inj he
          exact ⟨_, t, by simp, h4, h5, h6⟩
      · rintro ⟨k, t, hk, h4, h5, h6⟩
        cases k with
        | instant => exact Or.inl ((hoff _ _).2 ⟨p, _, t, rfl, h4, h5, h6⟩)
        | start => exact Or.inr ((hoff _ _).2 ⟨p, _, t, rfl, h4, h5, h6⟩)
        | stop => exact absurd rfl hk
    · intro y hy
      obtain ⟨q, k, t, he, -⟩ := (hoff y.1 y.2).1 hy
      exact ⟨q, k, he⟩

/-! ## What goes wrong -/

/-- An application `a` used for a moment, again one hour later. -/
def hourLog : List Rec := [⟨1, [97], some (0, 10)⟩, ⟨1, [97], some (3600, 3610)⟩]

/-- The second use comes one minute after the first, when nothing happened. -/
theorem hour_is_a_minute : (parseAll 0 hourLog).map (fun f => (f.1, readISE f.2)) = [(1, [(0, [97, 95, 73]), (60, [97, 95, 73])])] ∧ ∀ p k, ¬ Happens hourLog 1 p k 60 := by
  refine ⟨by decide, ?_⟩
  rintro p k ⟨r, hr, -, ht⟩
  simp only [hourLog, List.mem_cons, List.not_mem_nil, or_false] at hr
  rcases hr with rfl | rfl <;> cases k <;> simp [Rec.Tells] at ht

/-- Applications `a` (for a moment, and for two minutes) and `a_K` in one minute: `a` is written twice for this minute in the file `_IS_`, because the repeats are not neighbours. -/
theorem is_repeats : (parseAll 0 [⟨1, [97], some (0, 10)⟩, ⟨1, [97], some (20, 140)⟩, ⟨1, [97, 95, 75], some (30, 40)⟩]).map (fun f => (f.1, f.2.is)) = [(1, [(0, [97]), (0, [97, 95, 75]), (0, [97])])] := by decide

/-- One date that cannot be parsed, in the last line: nothing is loaded for the user. -/
theorem one_bad_date (minOcc : ℕ) (log : List Rec) (u : ℕ) (p : Str) : ¬ ∃ f, (u, f) ∈ parseAll minOcc (log ++ [⟨u, p, none⟩]) := by
  rw [loaded_iff]
  rintro ⟨h, -⟩
  exact h ⟨u, p, none⟩ (by simp) rfl rfl

/-! ## Cases -/

example : (parseAll 0 [⟨1, [97], some (100, 110)⟩, ⟨2, [98], some (0, 300)⟩, ⟨1, [97], some (220, 230)⟩, ⟨1, [98], none⟩]).map (fun f => (f.1, readISE f.2, readIS f.2)) =
    [(2, [(0, [98, 95, 83]), (5, [98, 95, 69])], [(1, [98])])] := by decide

example : (parseAll 1 hourLog).length = 1 ∧ (parseAll 2 hourLog).length = 0 ∧ number hourLog 1 [97] .instant = 2 := by decide

example : Happens hourLog 1 [97] .instant 3600 := ⟨_, List.mem_cons_of_mem _ List.mem_cons_self, rfl, rfl, 3610, rfl, by decide⟩

end Verif.Ubiq
