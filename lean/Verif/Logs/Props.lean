import Verif.Logs.Model

/-!
# Files of logs (C163)
-/

set_option autoImplicit false
set_option linter.unusedSectionVars false

namespace Verif.Logs

open Verif.Text

variable {T : Type}

/-! ### Specification -/

/-- The text with these lines, each one ended. -/
def ofLines (ls : List (List Char)) : List Char := ls.flatMap (fun l => l ++ ['\n'])

/-- The lines `time,event` of some rows. -/
def ofRows (sep : Char) (rows : List (List Char × List Char)) : List Char := ofLines (rows.map (fun r => r.1 ++ sep :: r.2))

/-- A word that can be a field as it is: no separator, no line end, no leading space, and no word for missing values (nor empty). -/
structure Clean (sep : Char) (w : List Char) : Prop where
  noSep : sep ∉ w
  noEnd : '\n' ∉ w
  noSpace : w.head? ≠ some ' '
  present : w ∉ naWords

/-- The words that pandas reads as missing values by default, as in its documentation. -/
def documentedNa : List String :=
  ["", "#N/A", "#N/A N/A", "#NA", "-1.#IND", "-1.#QNAN", "-NaN", "-nan", "1.#IND", "1.#QNAN", "<NA>", "N/A", "NA", "NULL", "NaN", "None", "n/a", "nan", "null"]

/-! ### Lemmas -/

theorem splitOn_ofLines (ls : List (List Char)) (h : ∀ l ∈ ls, '\n' ∉ l) : splitOn '\n' (ofLines ls) = ls ++ [[]] := by
  induction ls with
  | nil => rfl
  | cons l ls ih =>
    rw [ofLines, List.flatMap_cons, List.append_assoc, List.singleton_append, splitOn_append _ _ _ (h l List.mem_cons_self)]
    rw [show ls.flatMap (fun l => l ++ ['\n']) = ofLines ls from rfl, ih (fun x hx => h x (List.mem_cons_of_mem _ hx))]
    rfl

theorem field_clean {sep : Char} {w : List Char} (h : Clean sep w) : field w = some w := by
  have : w.dropWhile (fun c => decide (c = ' ')) = w := by
    cases w with
    | nil => rfl
    | cons c w =>
      have : c ≠ ' ' := fun hc => h.noSpace (by rw [hc]; rfl)
      simp [this]
  unfold field
  simp only [this]
  rw [if_neg h.present]

theorem clean_ne_nil {sep : Char} {w : List Char} (h : Clean sep w) : w ≠ [] := by
  rintro rfl
  exact h.present (by decide)

theorem not_blank {sep : Char} {w : List Char} (h : Clean sep w) (rest : List Char) : isBlank (w ++ rest) = false := by
  cases w with
  | nil => exact absurd rfl (clean_ne_nil h)
  | cons c w =>
    have : c ≠ ' ' := fun hc => h.noSpace (by rw [hc]; rfl)
    simp [isBlank, this]

theorem readCsv_lines (sep : Char) (ls : List (List Char)) (h : ∀ l ∈ ls, '\n' ∉ l) :
    readCsv sep (ofLines ls) = match (ls.filter (fun l => !isBlank l)).map (fun l => (splitOn sep l).map field) with
      | [] => .error .emptyData
      | r :: rs => if (r :: rs).any (fun x => decide (r.length < x.length)) then .error .parserError
        else .ok ((r :: rs).map (fun x => x ++ List.replicate (r.length - x.length) none), r.length) := by
  unfold readCsv
  rw [splitOn_ofLines ls h, List.filter_append]
  have : ([[]] : List (List Char)).filter (fun l => !isBlank l) = [] := rfl
  rw [this, List.append_nil]
  simp only
  generalize (ls.filter (fun l => !isBlank l)).map (fun l => (splitOn sep l).map field) = M
  cases M <;> rfl

/-- The lines of equal width. -/
theorem readCsv_width (sep : Char) (ls : List (List Char)) (h : ∀ l ∈ ls, '\n' ∉ l) (k : ℕ) (hk : ∀ l ∈ ls.filter (fun l => !isBlank l), (splitOn sep l).length = k) (hne : ls.filter (fun l => !isBlank l) ≠ []) :
    readCsv sep (ofLines ls) = .ok ((ls.filter (fun l => !isBlank l)).map (fun l => (splitOn sep l).map field), k) := by
  rw [readCsv_lines sep ls h]
  generalize ls.filter (fun l => !isBlank l) = M at hk hne
  cases M with
  | nil => exact absurd rfl hne
  | cons m M =>
    have hlen : ∀ x ∈ (m :: M).map (fun l => (splitOn sep l).map field), x.length = k := by
      intro x hx
      obtain ⟨l, hl, rfl⟩ := List.mem_map.1 hx
      rw [List.length_map, hk l hl]
    rw [List.map_cons] at hlen ⊢
    simp only
    rw [hlen _ List.mem_cons_self]
    rw [if_neg]
    · congr 2
      conv_rhs => rw [← List.map_id ((splitOn sep m).map field :: M.map (fun l => (splitOn sep l).map field))]
      apply List.map_congr_left
      intro x hx
      rw [hlen x hx]
      simp
    · intro hany
      obtain ⟨x, hx, hlt⟩ := List.any_eq_true.1 hany
      have := of_decide_eq_true hlt
      rw [hlen x hx] at this
      omega

theorem rows_read {sep : Char} (hs : sep ≠ '\n') (rows : List (List Char × List Char)) (hne : rows ≠ []) (hr : ∀ r ∈ rows, Clean sep r.1 ∧ Clean sep r.2) :
    readCsv sep (ofRows sep rows) = .ok (rows.map (fun r => [some r.1, some r.2]), 2) := by
  have hfil : (rows.map (fun r => r.1 ++ sep :: r.2)).filter (fun l => !isBlank l) = rows.map (fun r => r.1 ++ sep :: r.2) := by
    rw [List.filter_eq_self]
    intro l hl
    obtain ⟨r, hr', rfl⟩ := List.mem_map.1 hl
    rw [not_blank (hr r hr').1]
    rfl
  have hsplit : ∀ r ∈ rows, splitOn sep (r.1 ++ sep :: r.2) = [r.1, r.2] := by
    intro r hr'
    rw [splitOn_append _ _ _ (hr r hr').1.noSep, splitOn_noSep _ _ (hr r hr').2.noSep]
  rw [ofRows, readCsv_width sep _ ?_ 2 ?_ ?_, hfil, List.map_map]
  · congr 2
    apply List.map_congr_left
    intro r hr'
    simp only [Function.comp, hsplit r hr', List.map_cons, List.map_nil, field_clean (hr r hr').1, field_clean (hr r hr').2]
  · intro l hl
    obtain ⟨r, hr', rfl⟩ := List.mem_map.1 hl
    simp only [List.mem_append, List.mem_cons, not_or]
    exact ⟨(hr r hr').1.noEnd, fun h => hs h.symm, (hr r hr').2.noEnd⟩
  · rw [hfil]
    intro l hl
    obtain ⟨r, hr', rfl⟩ := List.mem_map.1 hl
    rw [hsplit r hr']
    rfl
  · rw [hfil]
    simpa using hne

theorem clean_int {sep : Char} (hs : sep ∉ ['-', '0', '1', '2', '3', '4', '5', '6', '7', '8', '9']) (z : ℤ) : Clean sep (showInt z) where
  noSep := fun h => hs (mem_showInt z _ h)
  noEnd := fun h => absurd (mem_showInt z _ h) (by decide)
  noSpace := by
    intro h
    have : ' ' ∈ showInt z := List.mem_of_mem_head? h
    exact absurd (mem_showInt z _ this) (by decide)
  present := by
    intro h
    have key : ∀ w ∈ naWords, w = [] ∨ ∃ c ∈ w, c ∉ ['-', '0', '1', '2', '3', '4', '5', '6', '7', '8', '9'] := by decide
    rcases key _ h with h0 | ⟨c, hc, hn⟩
    · exact showInt_ne_nil z h0
    · exact hn (mem_showInt z c hc)

/-! ### C163 -/

/-- C163, for clean events: when the times of the rows are dates, they are read as these dates, each with its event, in the order of the file. -/
theorem dates_read_partial (toDate : List (Option (List Char)) → Option (List T)) {sep : Char} (hs : sep ≠ '\n') (rows : List (List Char × List Char)) (hne : rows ≠ [])
    (hr : ∀ r ∈ rows, Clean sep r.1 ∧ Clean sep r.2) (ds : List T) (hd : toDate (rows.map (fun r => some r.1)) = some ds) :
    fetchFile toDate sep (ofRows sep rows) = .ok ⟨.dates ds, rows.map (fun r => some r.2)⟩ := by
  unfold fetchFile
  rw [rows_read hs rows hne hr]
  simp only [show ¬ ((2 : ℕ) = 1) by decide, if_false, List.map_map, Function.comp_def, List.getD_cons_zero, List.getD_cons_succ, hd]

/-- C163, for clean events: integer times that are not read as dates are read as these integers, each with its event, in the order of the file. -/
theorem ints_read_partial (toDate : List (Option (List Char)) → Option (List T)) {sep : Char} (hs : sep ∉ ['\n', '-', '0', '1', '2', '3', '4', '5', '6', '7', '8', '9']) (rows : List (ℤ × List Char)) (hne : rows ≠ [])
    (hr : ∀ r ∈ rows, Clean sep r.2) (hd : toDate (rows.map (fun r => some (showInt r.1))) = none) :
    fetchFile toDate sep (ofRows sep (rows.map (fun r => (showInt r.1, r.2)))) = .ok ⟨.ints (rows.map Prod.fst), rows.map (fun r => some r.2)⟩ := by
  rw [List.mem_cons, not_or] at hs
  unfold fetchFile
  rw [rows_read hs.1 _ (by simpa using hne) (by
    intro r hr'
    obtain ⟨x, hx, rfl⟩ := List.mem_map.1 hr'
    exact ⟨clean_int hs.2 x.1, hr x hx⟩)]
  simp only [show ¬ ((2 : ℕ) = 1) by decide, if_false, List.map_map, Function.comp_def, List.getD_cons_zero, List.getD_cons_succ, hd]
  have : ∀ rows : List (ℤ × List Char), (rows.map (fun r => some (showInt r.1))).mapM (fun t => t.bind parseInt) = some (rows.map Prod.fst) := by
    intro rows
    induction rows with
    | nil => rfl
    | cons r rows ih => rw [List.map_cons, List.mapM_cons, ih, Option.bind_some, parseInt_showInt]; rfl
  rw [this]

/-- C163. A time that is neither part of readable dates nor an integer raises: nothing is returned for the file. -/
theorem bad_time_raises (toDate : List (Option (List Char)) → Option (List T)) {sep : Char} (hs : sep ≠ '\n') (rows : List (List Char × List Char))
    (hr : ∀ r ∈ rows, Clean sep r.1 ∧ Clean sep r.2) (hd : toDate (rows.map (fun r => some r.1)) = none) (hb : ∃ r ∈ rows, parseInt r.1 = none) :
    fetchFile toDate sep (ofRows sep rows) = .error .valueError := by
  unfold fetchFile
  rw [rows_read hs rows (by obtain ⟨r, h, _⟩ := hb; exact List.ne_nil_of_mem h) hr]
  simp only [show ¬ ((2 : ℕ) = 1) by decide, if_false, List.map_map, Function.comp_def, List.getD_cons_zero, List.getD_cons_succ, hd]
  have : ∀ rows : List (List Char × List Char), (∃ r ∈ rows, parseInt r.1 = none) → (rows.map (fun r => some r.1)).mapM (fun t => t.bind parseInt) = none := by
    intro rows
    induction rows with
    | nil => rintro ⟨r, h, _⟩; cases h
    | cons r rows ih =>
      rintro ⟨x, hx, hn⟩
      rw [List.map_cons, List.mapM_cons, Option.bind_some]
      rcases List.mem_cons.1 hx with rfl | hx
      · rw [hn]; rfl
      · rw [ih ⟨x, hx, hn⟩]
        cases parseInt r.1 <;> rfl
  rw [this rows hb]

/-- What is read of a file with one value per line: the values of the lines that are not blank, at the positions `0, 1, …`. -/
theorem single_column (toDate : List (Option (List Char)) → Option (List T)) (sep : Char) (ls : List (List Char)) (h : ∀ l ∈ ls, '\n' ∉ l ∧ sep ∉ l) (hne : ∃ l ∈ ls, ∃ c ∈ l, c ≠ ' ') :
    fetchFile toDate sep (ofLines ls) = .ok ⟨.positions (ls.filter (fun l => !isBlank l)).length, (ls.filter (fun l => !isBlank l)).map field⟩ := by
  have hsplit : ∀ l ∈ ls.filter (fun l => !isBlank l), splitOn sep l = [l] := fun l hl => splitOn_noSep _ _ (h l (List.mem_filter.1 hl).1).2
  unfold fetchFile
  rw [readCsv_width sep ls (fun l hl => (h l hl).1) 1 (fun l hl => by rw [hsplit l hl]; rfl)]
  · simp only [if_true, List.map_map, List.length_map]
    congr 2
    apply List.map_congr_left
    intro l hl
    simp only [Function.comp, hsplit l hl, List.map_cons, List.map_nil, List.getD_cons_zero]
  · obtain ⟨l, hl, c, hc, hcs⟩ := hne
    refine List.ne_nil_of_mem (a := l) (List.mem_filter.2 ⟨hl, ?_⟩)
    rw [Bool.not_eq_true', isBlank, List.all_eq_false]
    exact ⟨c, hc, by simpa using hcs⟩

/-- C163, for clean events: with one event per line, every event is read, and its index is the number of its line. -/
theorem lines_read_partial (toDate : List (Option (List Char)) → Option (List T)) (sep : Char) (ls : List (List Char)) (hne : ls ≠ []) (h : ∀ l ∈ ls, Clean sep l) :
    fetchFile toDate sep (ofLines ls) = .ok ⟨.positions ls.length, ls.map some⟩ := by
  have hfil : ls.filter (fun l => !isBlank l) = ls := by
    rw [List.filter_eq_self]
    intro l hl
    have := not_blank (h l hl) []
    rw [List.append_nil] at this
    rw [this]
    rfl
  rw [single_column toDate sep ls (fun l hl => ⟨(h l hl).noEnd, (h l hl).noSep⟩), hfil]
  · congr 2
    exact List.map_congr_left (fun l hl => field_clean (h l hl))
  · obtain ⟨l, hl⟩ := List.exists_mem_of_ne_nil _ hne
    refine ⟨l, hl, ?_⟩
    cases hll : l with
    | nil => exact absurd hll (clean_ne_nil (h l hl))
    | cons c w =>
      refine ⟨c, List.mem_cons_self, fun hc => (h l hl).noSpace ?_⟩
      rw [hll, hc]
      rfl

/-- C163: a word without leading space is missing exactly when it is one of the documented words; any other word is kept as it is. -/
theorem missing_words (w : List Char) (h : w.head? ≠ some ' ') : (field w = none ↔ ∃ s ∈ documentedNa, w = s.toList) ∧ ((∀ s ∈ documentedNa, w ≠ s.toList) → field w = some w) := by
  have hd : w.dropWhile (fun c => decide (c = ' ')) = w := by
    cases w with
    | nil => rfl
    | cons c w =>
      have : c ≠ ' ' := fun hc => h (by rw [hc]; rfl)
      simp [this]
  have hm : w ∈ naWords ↔ ∃ s ∈ documentedNa, w = s.toList := by
    have : naWords = documentedNa.map String.toList := by decide
    rw [this, List.mem_map]
    exact ⟨fun ⟨s, h1, h2⟩ => ⟨s, h1, h2.symm⟩, fun ⟨s, h1, h2⟩ => ⟨s, h1, h2.symm⟩⟩
  unfold field
  simp only [hd]
  constructor
  · rw [← hm]
    split
    · next h1 => exact ⟨fun _ => h1, fun _ => rfl⟩
    · next h1 => exact ⟨fun h2 => (nomatch h2), fun h2 => absurd h2 h1⟩
  · intro h1
    rw [if_neg]
    intro h2
    obtain ⟨s, h3, h4⟩ := hm.1 h2
    exact h1 s h3 h4

/-- C163 fails: an event called `NA`, `None`, `null`, … is read as a missing value, wherever it stands. -/
theorem na_event_missing (toDate : List (Option (List Char)) → Option (List T)) {sep : Char} (hs : sep ∉ ['\n', '-', '0', '1', '2', '3', '4', '5', '6', '7', '8', '9']) (hw : ∀ w ∈ naWords, sep ∉ w) (w : List Char)
    (hna : w ∈ naWords) (t : ℤ) (hd : toDate [some (showInt t)] = none) :
    fetchFile toDate sep (ofRows sep [(showInt t, w)]) = .ok ⟨.ints [t], [none]⟩ := by
  rw [List.mem_cons, not_or] at hs
  have hc := clean_int hs.2 t
  have hend : ∀ w ∈ naWords, '\n' ∉ w ∧ field w = none := by decide
  have hb : isBlank (showInt t ++ sep :: w) = false := not_blank hc _
  have hfil : [showInt t ++ sep :: w].filter (fun l => !isBlank l) = [showInt t ++ sep :: w] := by simp [hb]
  have hsp : splitOn sep (showInt t ++ sep :: w) = [showInt t, w] := by rw [splitOn_append _ _ _ hc.noSep, splitOn_noSep _ _ (hw w hna)]
  unfold fetchFile
  rw [ofRows, List.map_cons, List.map_nil, readCsv_width sep _ ?_ 2 ?_ ?_]
  · simp only [hfil, List.map_cons, List.map_nil, hsp, field_clean hc, (hend w hna).2, show ¬ ((2 : ℕ) = 1) by decide, if_false, List.getD_cons_zero, List.getD_cons_succ, hd]
    rw [List.mapM_cons, Option.bind_some, parseInt_showInt]
    rfl
  · intro l hl
    rw [List.mem_singleton.1 hl]
    simp only [List.mem_append, List.mem_cons, not_or]
    exact ⟨hc.noEnd, fun h => hs.1 h.symm, (hend w hna).1⟩
  · rw [hfil]
    intro l hl
    rw [List.mem_singleton.1 hl, hsp]
    rfl
  · rw [hfil]
    simp

/-- C163 fails: after an empty line the index of an event is no longer the number of its line. -/
theorem empty_line_shifts (toDate : List (Option (List Char)) → Option (List T)) (sep : Char) (before after : List (List Char)) (hb : ∀ l ∈ before ++ after, Clean sep l) (hne : after ≠ []) :
    fetchFile toDate sep (ofLines (before ++ [] :: after)) = .ok ⟨.positions (before ++ after).length, (before ++ after).map some⟩ := by
  have hnb : ∀ l ∈ before ++ after, isBlank l = false := by
    intro l hl
    have := not_blank (hb l hl) []
    rwa [List.append_nil] at this
  have hfil : (before ++ [] :: after).filter (fun l => !isBlank l) = before ++ after := by
    rw [List.filter_append, List.filter_cons]
    simp only [isBlank, List.all_nil, Bool.not_true, Bool.false_eq_true, if_false]
    rw [List.filter_eq_self.2, List.filter_eq_self.2]
    · intro l hl
      have := hnb l (List.mem_append_right _ hl)
      rw [isBlank] at this
      rw [this]; rfl
    · intro l hl
      have := hnb l (List.mem_append_left _ hl)
      rw [isBlank] at this
      rw [this]; rfl
  have hmem : ∀ l ∈ before ++ [] :: after, l = [] ∨ l ∈ before ++ after := by
    intro l hl
    rcases List.mem_append.1 hl with h | h
    · exact .inr (List.mem_append_left _ h)
    · rcases List.mem_cons.1 h with h | h
      · exact .inl h
      · exact .inr (List.mem_append_right _ h)
  rw [single_column toDate sep _ ?_ ?_, hfil]
  · congr 2
    exact List.map_congr_left (fun l hl => field_clean (hb l hl))
  · intro l hl
    rcases hmem l hl with rfl | h
    · exact ⟨List.not_mem_nil, List.not_mem_nil⟩
    · exact ⟨(hb l h).noEnd, (hb l h).noSep⟩
  · obtain ⟨l, hl⟩ := List.exists_mem_of_ne_nil _ hne
    have hl' : l ∈ before ++ after := List.mem_append_right _ hl
    refine ⟨l, List.mem_append_right _ (List.mem_cons_of_mem _ hl), ?_⟩
    cases hll : l with
    | nil => exact absurd hll (clean_ne_nil (hb l hl'))
    | cons c w =>
      refine ⟨c, List.mem_cons_self, fun hc => (hb l hl').noSpace ?_⟩
      rw [hll, hc]
      rfl

/-! ### Examples -/

/-- No time is a date. -/
def noDates : List (Option (List Char)) → Option (List ℕ) := fun _ => none

example : fetchFile noDates ',' "10,wake up\n\n 12, coffee\n".toList = .ok ⟨.ints [10, 12], [some "wake up".toList, some "coffee".toList]⟩ := by decide +kernel
example : ofRows ',' [(showInt 10, "wake up".toList), (showInt (-3), "coffee".toList)] = "10,wake up\n-3,coffee\n".toList := by decide +kernel
example : Clean ',' "wake up".toList ∧ Clean ',' "2020-04-01".toList := ⟨⟨by decide, by decide, by decide, by decide⟩, ⟨by decide, by decide, by decide, by decide⟩⟩
example : ∀ w ∈ naWords, ',' ∉ w := by decide

/-- `noon` is not a time. -/
example : parseInt "noon".toList = none ∧ fetchFile noDates ',' "7,a\nnoon,b\n".toList = .error .valueError := ⟨by decide +kernel, by decide +kernel⟩

/-- `NA` at time 7 is lost. -/
example : fetchFile noDates ',' "7,NA\n".toList = .ok ⟨.ints [7], [none]⟩ := by decide +kernel

/-- `b` is on the line 2 and gets the index 1. -/
example : fetchFile noDates ',' (ofLines [['a'], [], ['b']]) = .ok ⟨.positions 2, [some ['a'], some ['b']]⟩ :=
  empty_line_shifts noDates ',' [['a']] [['b']] (by
    intro l hl
    rcases List.mem_cons.1 hl with rfl | hl
    · exact ⟨by decide, by decide, by decide, by decide⟩
    · rw [List.mem_singleton.1 hl]; exact ⟨by decide, by decide, by decide, by decide⟩) (by simp)

/-- A file with a longer line raises. -/
example : readCsv ',' "1,a\n2,b,c\n".toList = .error .parserError ∧ readCsv ',' "\n \n".toList = .error .emptyData := ⟨by rfl, by rfl⟩

end Verif.Logs
