import Verif.Graph.FileModel
import Verif.Datasets.Props
import Mathlib.Data.List.Nodup
import Mathlib.Data.List.Induction

/-!
# Graphs read from files (C122)
-/

set_option autoImplicit false
set_option linter.unusedSectionVars false

namespace Verif.GraphFile

open Verif.Text
open Verif.Datasets (universalNewlines universalNewlines_id isSpace rstrip)

/-! ## Specification -/

/-- A record of the file: a vertex with its number, an unused field and its label, or an edge with its ends and its label. -/
inductive Rec where
  | vertex (id : ℤ) (unused : List Char) (l : Label)
  | edge (src dst : ℤ) (l : Label)

/-- The fields of the record, separated by blanks in the file. -/
def Rec.fields : Rec → List (List Char)
  | .vertex i u l => [['v'], showInt i, u, l]
  | .edge s d l => [['e'], showInt s, showInt d, l]

/-- The file: three lines of header, then one line per record. -/
def fileText (header : List (List Char)) (rs : List Rec) : List Char :=
  (header ++ rs.map (fun r => join ' ' r.fields)).flatMap (fun l => l ++ ['\n'])

/-- A text that can be a field: no blank and no end of line in it. -/
def IsField (f : List Char) : Prop := ' ' ∉ f ∧ '\n' ∉ f ∧ '\r' ∉ f

/-- The free texts of the record are fields. -/
def Rec.Clean : Rec → Prop
  | .vertex _ u l => IsField u ∧ IsField l
  | .edge _ _ l => IsField l

/-- The header has three lines. -/
def HeaderOk (header : List (List Char)) : Prop := header.length = 3 ∧ ∀ h ∈ header, '\n' ∉ h ∧ '\r' ∉ h

/-- The labels given to a vertex by the records, in order. -/
def vertexLabels (i : ℤ) (rs : List Rec) : List Label := rs.filterMap (fun r => match r with
  | .vertex j _ l => if j = i then some l else none
  | .edge _ _ _ => none)

/-- The labels given to an ordered pair by the records, in order. -/
def edgeLabels (s d : ℤ) (rs : List Rec) : List Label := rs.filterMap (fun r => match r with
  | .vertex _ _ _ => none
  | .edge a b l => if a = s ∧ b = d then some l else none)

/-- The vertex is an end of an edge record. -/
def IsEnd (i : ℤ) (rs : List Rec) : Prop := ∃ s d l, Rec.edge s d l ∈ rs ∧ (i = s ∨ i = d)

/-! ## Lemmas: dictionaries -/

section Dict

variable {K V : Type*} [DecidableEq K]

theorem get_put (k k' : K) (v : V) (d : List (K × V)) : get k' (put k v d) = if k' = k then some v else get k' d := by
  induction d with
  | nil =>
    simp only [put, get]
    by_cases h : k = k'
    · rw [if_pos h, if_pos h.symm]
    · rw [if_neg h, if_neg (fun h' => h h'.symm)]
  | cons e d ih =>
    obtain ⟨a, w⟩ := e
    simp only [put]
    by_cases ha : a = k
    · rw [if_pos ha]
      simp only [get]
      by_cases hk : a = k'
      · rw [if_pos hk, if_pos (hk.symm.trans ha)]
      · rw [if_neg hk, if_neg (fun h => hk (ha.trans h.symm)), if_neg hk]
    · rw [if_neg ha]
      simp only [get]
      by_cases hk : a = k'
      · rw [if_pos hk, if_pos hk, if_neg (fun h => ha (hk.trans h))]
      · rw [if_neg hk, if_neg hk, ih]

theorem mem_put_key (k k' : K) (v : V) (d : List (K × V)) : k' ∈ (put k v d).map Prod.fst ↔ k' = k ∨ k' ∈ d.map Prod.fst := by
  induction d with
  | nil => simp [put]
  | cons e d ih =>
    obtain ⟨a, w⟩ := e
    simp only [put]
    by_cases ha : a = k
    · rw [if_pos ha, ha]; simp
    · rw [if_neg ha, List.map_cons, List.mem_cons, ih, List.map_cons, List.mem_cons]
      tauto

theorem nodup_put (k : K) (v : V) (d : List (K × V)) (h : (d.map Prod.fst).Nodup) : ((put k v d).map Prod.fst).Nodup := by
  induction d with
  | nil => simp [put]
  | cons e d ih =>
    obtain ⟨a, w⟩ := e
    simp only [put]
    rw [List.map_cons, List.nodup_cons] at h
    by_cases ha : a = k
    · rw [if_pos ha, List.map_cons, List.nodup_cons]; exact h
    · rw [if_neg ha, List.map_cons, List.nodup_cons, mem_put_key]
      exact ⟨fun hh => hh.elim ha h.1, ih h.2⟩

theorem mem_iff_get (d : List (K × V)) (h : (d.map Prod.fst).Nodup) (k : K) (v : V) : (k, v) ∈ d ↔ get k d = some v := by
  induction d with
  | nil => simp [get]
  | cons e d ih =>
    obtain ⟨a, w⟩ := e
    rw [List.map_cons, List.nodup_cons] at h
    simp only [get, List.mem_cons, Prod.mk.injEq]
    by_cases ha : a = k
    · rw [if_pos ha, Option.some.injEq]
      constructor
      · rintro (h1 | h1)
        · exact h1.2.symm
        · exact absurd (List.mem_map.2 ⟨_, h1, ha.symm⟩) h.1
      · exact fun h1 => Or.inl ⟨ha.symm, h1.symm⟩
    · rw [if_neg ha, ← ih h.2]
      exact ⟨fun h1 => h1.elim (fun h2 => absurd h2.1.symm ha) id, Or.inr⟩

end Dict

theorem get_touch (u k : ℤ) (d : List (ℤ × Option Label)) : get k (touch u d) = if k = u ∧ get u d = none then some none else get k d := by
  unfold touch
  cases h : get u d with
  | none =>
    simp only [and_true]
    rw [get_put]
  | some w => simp

theorem nodup_touch (u : ℤ) (d : List (ℤ × Option Label)) (h : (d.map Prod.fst).Nodup) : ((touch u d).map Prod.fst).Nodup := by
  unfold touch
  split
  · exact nodup_put _ _ _ h
  · exact h

/-! ## Lemmas: text -/

theorem fileLines_line (line rest cur : List Char) (h : '\n' ∉ line) : fileLines cur (line ++ '\n' :: rest) = (cur.reverse ++ line ++ ['\n']) :: fileLines [] rest := by
  induction line generalizing cur with
  | nil => simp [fileLines]
  | cons c line ih =>
    rw [List.cons_append, fileLines, if_neg (fun hc : c = '\n' => h (by rw [hc]; exact List.mem_cons_self)), ih _ (fun hc => h (List.mem_cons_of_mem _ hc))]
    simp

theorem fileLines_lines (lines : List (List Char)) (h : ∀ l ∈ lines, '\n' ∉ l) : fileLines [] (lines.flatMap (fun l => l ++ ['\n'])) = lines.map (fun l => l ++ ['\n']) := by
  induction lines with
  | nil => rfl
  | cons l lines ih =>
    rw [List.flatMap_cons, List.append_assoc, List.singleton_append, fileLines_line _ _ _ (h l List.mem_cons_self), ih (fun l' hl' => h l' (List.mem_cons_of_mem _ hl'))]
    rfl

theorem splitOn_snoc (sep c : Char) (hc : c ≠ sep) (s : List Char) : splitOn sep (s ++ [c]) = (splitOn sep s).dropLast ++ [(splitOn sep s).getLastD [] ++ [c]] := by
  induction s with
  | nil => simp [splitOn, hc]
  | cons a s ih =>
    have hne := splitOn_ne_nil sep s
    rw [List.cons_append]
    obtain ⟨w, ws, hw⟩ : ∃ w ws, splitOn sep s = w :: ws := by
      cases hs : splitOn sep s with
      | nil => exact absurd hs hne
      | cons w ws => exact ⟨w, ws, rfl⟩
    by_cases ha : a = sep
    · simp only [splitOn, if_pos ha, ih]
      rw [hw]
      simp
    · simp only [splitOn, if_neg ha, ih]
      rw [hw]
      cases ws with
      | nil => simp
      | cons w' ws => simp

/-- The fields of a line, with the end of line in the last one. -/
theorem fields_line (fs : List (List Char)) (f : List Char) (h : ∀ x ∈ fs, ' ' ∉ x) (hf : ' ' ∉ f) : splitOn ' ' (join ' ' (fs ++ [f]) ++ ['\n']) = fs ++ [f ++ ['\n']] := by
  rw [splitOn_snoc ' ' '\n' (by decide), splitOn_join ' ' (fs ++ [f]) (by simp)]
  · simp
  · intro w hw
    rcases List.mem_append.1 hw with hw | hw
    · exact h w hw
    · rw [List.mem_singleton.1 hw]; exact hf

theorem blank_not_showInt (c : Char) (hc : isSpace c = true) (z : ℤ) : c ∉ showInt z := by
  intro h
  have h1 := mem_showInt z c h
  have h2 : ∀ c ∈ ['-', '0', '1', '2', '3', '4', '5', '6', '7', '8', '9'], isSpace c = false := by decide
  rw [h2 c h1] at hc
  cases hc

theorem strip_showInt (z : ℤ) : (rstrip (showInt z)).dropWhile isSpace = showInt z := by
  have h : ∀ c ∈ showInt z, isSpace c = false := by
    intro c hc
    cases hb : isSpace c with
    | false => rfl
    | true => exact absurd hc (blank_not_showInt c hb z)
  have hdw : ∀ s : List Char, (∀ c ∈ s, isSpace c = false) → s.dropWhile isSpace = s := by
    intro s hs
    cases s with
    | nil => rfl
    | cons c s => rw [List.dropWhile_cons, if_neg (by rw [hs c List.mem_cons_self]; simp)]
  unfold rstrip
  rw [hdw _ (fun c hc => h c (List.mem_reverse.1 hc)), List.reverse_reverse, hdw _ h]

theorem number_showInt (line : List (List Char)) (i : ℕ) (z : ℤ) (h : line[i]? = some (showInt z)) : number line i = .ok (z + 1) := by
  unfold number field
  rw [h]
  simp only
  rw [strip_showInt, parseInt_showInt]

theorem label_field (line : List (List Char)) (l : Label) (h : line[3]? = some (l ++ ['\n'])) (hl : '\n' ∉ l) : label line = .ok l := by
  unfold label field
  rw [h]
  simp only
  rw [splitOn_append '\n' l [] hl]
  rfl

/-- What a record does to the graph. -/
def Rec.apply (g : Gr) : Rec → Gr
  | .vertex i _ l => addNode g (i + 1) l
  | .edge s d l => addEdge g (s + 1) (d + 1) l

theorem showInt_noBlank (z : ℤ) : ' ' ∉ showInt z := blank_not_showInt ' ' (by decide) z

theorem readLine_rec (g : Gr) (r : Rec) (h : r.Clean) : readLine g (splitOn ' ' (join ' ' r.fields ++ ['\n'])) = .ok (r.apply g) := by
  cases r with
  | vertex i u l =>
    obtain ⟨hu, hl⟩ := h
    have e : splitOn ' ' (join ' ' (Rec.vertex i u l).fields ++ ['\n']) = [['v'], showInt i, u, l ++ ['\n']] := by
      refine fields_line [['v'], showInt i, u] l ?_ hl.1
      intro x hx
      simp only [List.mem_cons, List.not_mem_nil, or_false] at hx
      rcases hx with rfl | rfl | rfl
      · decide
      · exact showInt_noBlank i
      · exact hu.1
    rw [e]
    unfold readLine
    rw [if_pos (by simp), number_showInt _ 1 i rfl]
    simp only
    rw [label_field _ l rfl hl.2.1]
    rfl
  | edge s d l =>
    have hl : IsField l := h
    have e : splitOn ' ' (join ' ' (Rec.edge s d l).fields ++ ['\n']) = [['e'], showInt s, showInt d, l ++ ['\n']] := by
      refine fields_line [['e'], showInt s, showInt d] l ?_ hl.1
      intro x hx
      simp only [List.mem_cons, List.not_mem_nil, or_false] at hx
      rcases hx with rfl | rfl | rfl
      · decide
      · exact showInt_noBlank s
      · exact showInt_noBlank d
    rw [e]
    unfold readLine
    rw [if_neg (by simp), number_showInt _ 1 s rfl]
    simp only
    rw [number_showInt _ 2 d rfl]
    simp only
    rw [label_field _ l rfl hl.2.1]
    rfl

theorem readLines_recs (g : Gr) (rs : List Rec) (h : ∀ r ∈ rs, r.Clean) : readLines g (rs.map (fun r => splitOn ' ' (join ' ' r.fields ++ ['\n']))) = .ok (rs.foldl Rec.apply g) := by
  induction rs generalizing g with
  | nil => rfl
  | cons r rs ih =>
    rw [List.map_cons, readLines, readLine_rec g r (h r List.mem_cons_self)]
    exact ih _ (fun r' hr' => h r' (List.mem_cons_of_mem _ hr'))

theorem clean_chars (r : Rec) (h : r.Clean) (c : Char) (hc : c = '\n' ∨ c = '\r') : c ∉ join ' ' r.fields := by
  intro hm
  have hcs : isSpace c = true := by rcases hc with rfl | rfl <;> decide
  have hcb : c ≠ ' ' := by rcases hc with rfl | rfl <;> decide
  have hfield : ∀ f, IsField f → c ∉ f := by
    intro f hf
    rcases hc with rfl | rfl
    · exact hf.2.1
    · exact hf.2.2
  rcases mem_join ' ' c _ hm with h1 | ⟨w, hw, hcw⟩
  · exact hcb h1
  · cases r with
    | vertex i u l =>
      simp only [Rec.fields, List.mem_cons, List.not_mem_nil, or_false] at hw
      rcases hw with rfl | rfl | rfl | rfl
      · rw [List.mem_singleton] at hcw
        rcases hc with rfl | rfl
        · exact absurd hcw (by decide)
        · exact absurd hcw (by decide)
      · exact blank_not_showInt c hcs i hcw
      · exact hfield _ h.1 hcw
      · exact hfield _ h.2 hcw
    | edge s d l =>
      simp only [Rec.fields, List.mem_cons, List.not_mem_nil, or_false] at hw
      rcases hw with rfl | rfl | rfl | rfl
      · rw [List.mem_singleton] at hcw
        rcases hc with rfl | rfl
        · exact absurd hcw (by decide)
        · exact absurd hcw (by decide)
      · exact blank_not_showInt c hcs s hcw
      · exact blank_not_showInt c hcs d hcw
      · exact hfield _ h hcw

theorem readGraph_eq (header : List (List Char)) (hh : HeaderOk header) (rs : List Rec) (h : ∀ r ∈ rs, r.Clean) : readGraph (fileText header rs) = .ok (rs.foldl Rec.apply ⟨[], []⟩) := by
  have hlines : ∀ c : Char, c = '\n' ∨ c = '\r' → ∀ l ∈ header ++ rs.map (fun r => join ' ' r.fields), c ∉ l := by
    intro c hc l hl
    rcases List.mem_append.1 hl with hl | hl
    · rcases hc with rfl | rfl
      · exact (hh.2 l hl).1
      · exact (hh.2 l hl).2
    · obtain ⟨r, hr, rfl⟩ := List.mem_map.1 hl
      exact clean_chars r (h r hr) c hc
  unfold readGraph
  rw [universalNewlines_id]
  · unfold fileText
    rw [fileLines_lines _ (hlines '\n' (Or.inl rfl)), List.map_append, List.map_append, List.drop_left' (by rw [List.length_map, List.length_map, hh.1]), List.map_map, List.map_map]
    exact readLines_recs _ rs h
  · intro hm
    unfold fileText at hm
    obtain ⟨l, hl, hc⟩ := List.mem_flatMap.1 hm
    rcases List.mem_append.1 hc with hc | hc
    · exact hlines '\r' (Or.inr rfl) l hl hc
    · exact absurd (List.mem_singleton.1 hc) (by decide)

/-! ## Lemmas: the graph after all the records -/

theorem vertexLabels_append (i : ℤ) (rs : List Rec) (r : Rec) : vertexLabels i (rs ++ [r]) = vertexLabels i rs ++ vertexLabels i [r] := by
  unfold vertexLabels; rw [List.filterMap_append]

theorem edgeLabels_append (s d : ℤ) (rs : List Rec) (r : Rec) : edgeLabels s d (rs ++ [r]) = edgeLabels s d rs ++ edgeLabels s d [r] := by
  unfold edgeLabels; rw [List.filterMap_append]

theorem isEnd_append (i : ℤ) (rs : List Rec) (r : Rec) : IsEnd i (rs ++ [r]) ↔ IsEnd i rs ∨ IsEnd i [r] := by
  unfold IsEnd
  simp only [List.mem_append]
  constructor
  · rintro ⟨s, d, l, h | h, he⟩
    · exact Or.inl ⟨s, d, l, h, he⟩
    · exact Or.inr ⟨s, d, l, h, he⟩
  · rintro (⟨s, d, l, h, he⟩ | ⟨s, d, l, h, he⟩)
    · exact ⟨s, d, l, Or.inl h, he⟩
    · exact ⟨s, d, l, Or.inr h, he⟩

theorem nodup_fold (rs : List Rec) : ((rs.foldl Rec.apply ⟨[], []⟩).nodes.map Prod.fst).Nodup ∧ ((rs.foldl Rec.apply ⟨[], []⟩).edges.map Prod.fst).Nodup := by
  induction rs using List.reverseRecOn with
  | nil => exact ⟨List.nodup_nil, List.nodup_nil⟩
  | append_singleton rs r ih =>
    rw [List.foldl_append]
    cases r with
    | vertex i u l => exact ⟨nodup_put _ _ _ ih.1, ih.2⟩
    | edge s d l => exact ⟨nodup_touch _ _ (nodup_touch _ _ ih.1), nodup_put _ _ _ ih.2⟩

theorem edges_fold (rs : List Rec) (s d : ℤ) : get (s + 1, d + 1) (rs.foldl Rec.apply ⟨[], []⟩).edges = (edgeLabels s d rs).getLast? := by
  induction rs using List.reverseRecOn with
  | nil => rfl
  | append_singleton rs r ih =>
    rw [List.foldl_append, edgeLabels_append]
    cases r with
    | vertex i u l =>
      change get _ (rs.foldl Rec.apply ⟨[], []⟩).edges = _
      rw [ih]
      simp [edgeLabels]
    | edge a b l =>
      change get _ (put (a + 1, b + 1) l (rs.foldl Rec.apply ⟨[], []⟩).edges) = _
      rw [get_put, ih]
      by_cases hab : a = s ∧ b = d
      · obtain ⟨rfl, rfl⟩ := hab
        simp [edgeLabels]
      · have hne : ¬ ((s + 1, d + 1) = ((a + 1, b + 1) : ℤ × ℤ)) := by
          rw [Prod.mk.injEq]
          intro h
          exact hab ⟨by omega, by omega⟩
        rw [if_neg hne]
        simp [edgeLabels, hab]

theorem nodes_fold (rs : List Rec) (i : ℤ) :
    (∀ l, (vertexLabels i rs).getLast? = some l → get (i + 1) (rs.foldl Rec.apply ⟨[], []⟩).nodes = some (some l)) ∧
      (vertexLabels i rs = [] → IsEnd i rs → get (i + 1) (rs.foldl Rec.apply ⟨[], []⟩).nodes = some none) ∧
      (vertexLabels i rs = [] → ¬ IsEnd i rs → get (i + 1) (rs.foldl Rec.apply ⟨[], []⟩).nodes = none) := by
  induction rs using List.reverseRecOn with
  | nil =>
    refine ⟨fun l h => ?_, fun _ h => ?_, fun _ _ => rfl⟩
    · cases h
    · obtain ⟨s, d, l, h, _⟩ := h
      cases h
  | append_singleton rs r ih =>
    obtain ⟨ih1, ih2, ih3⟩ := ih
    rw [List.foldl_append, vertexLabels_append, isEnd_append]
    generalize rs.foldl Rec.apply ⟨[], []⟩ = g at ih1 ih2 ih3
    cases r with
    | vertex j u l =>
      change (∀ l', _ → get (i + 1) (put (j + 1) (some l) g.nodes) = some (some l')) ∧ (_ → _ → get (i + 1) (put (j + 1) (some l) g.nodes) = some none) ∧ (_ → _ → get (i + 1) (put (j + 1) (some l) g.nodes) = none)
      rw [get_put]
      have hend : ¬ IsEnd i [Rec.vertex j u l] := by
        rintro ⟨s, d, l', h, _⟩
        simp at h
      by_cases hj : j = i
      · subst hj
        simp [vertexLabels]
      · rw [if_neg (by omega)]
        have : vertexLabels i [Rec.vertex j u l] = [] := by simp [vertexLabels, hj]
        rw [this, List.append_nil]
        simp only [hend, or_false]
        exact ⟨ih1, ih2, ih3⟩
    | edge s d l =>
      change (∀ l', _ → get (i + 1) (touch (d + 1) (touch (s + 1) g.nodes)) = some (some l')) ∧ (_ → _ → get (i + 1) (touch (d + 1) (touch (s + 1) g.nodes)) = some none) ∧
        (_ → _ → get (i + 1) (touch (d + 1) (touch (s + 1) g.nodes)) = none)
      have hv : vertexLabels i [Rec.edge s d l] = [] := rfl
      rw [hv, List.append_nil]
      have hend : IsEnd i [Rec.edge s d l] ↔ i = s ∨ i = d := by
        constructor
        · rintro ⟨s', d', l', h, he⟩
          rw [List.mem_singleton, Rec.edge.injEq] at h
          obtain ⟨rfl, rfl, rfl⟩ := h
          exact he
        · exact fun he => ⟨s, d, l, List.mem_singleton.2 rfl, he⟩
      rw [hend]
      have hget : get (i + 1) (touch (d + 1) (touch (s + 1) g.nodes)) = if (i = s ∨ i = d) ∧ get (i + 1) g.nodes = none then some none else get (i + 1) g.nodes := by
        rw [get_touch, get_touch, get_touch]
        by_cases h1 : i = s
        · subst h1
          by_cases h2 : i = d
          · subst h2
            cases get (i + 1) g.nodes <;> simp
          · have h2' : ¬ (i + 1 = d + 1) := by omega
            cases get (i + 1) g.nodes <;> simp [h2]
        · by_cases h2 : i = d
          · subst h2
            cases get (i + 1) g.nodes <;> simp [h1]
          · simp [h1, h2]
      rw [hget]
      refine ⟨fun l' hl' => ?_, fun h0 _ => ?_, fun h0 hn => ?_⟩
      · rw [ih1 l' hl']; simp
      · by_cases hE : IsEnd i rs
        · rw [ih2 h0 hE]; simp
        · rw [ih3 h0 hE, if_pos ⟨by tauto, rfl⟩]
      · have hE : ¬ IsEnd i rs := fun h => hn (Or.inl h)
        rw [ih3 h0 hE, if_neg (fun h => hn (Or.inr h.1))]

/-! ## The theorems -/

/-- C122 (all files with clean fields). The vertices read are those of the vertex records and the ends of the edge records, one more than in the file; each has the label of its last record, or none. The edges read are the ordered pairs
of the edge records, each with the label of its last record. -/
theorem read_last (header : List (List Char)) (hh : HeaderOk header) (rs : List Rec) (h : ∀ r ∈ rs, r.Clean) :
    ∃ g, readGraph (fileText header rs) = .ok g ∧ (g.nodes.map Prod.fst).Nodup ∧ (g.edges.map Prod.fst).Nodup ∧
      (∀ (i : ℤ) (l : Option Label), (i + 1, l) ∈ g.nodes ↔ (l = (vertexLabels i rs).getLast? ∧ (vertexLabels i rs ≠ [] ∨ IsEnd i rs))) ∧
      ∀ (s d : ℤ) (l : Label), ((s + 1, d + 1), l) ∈ g.edges ↔ (edgeLabels s d rs).getLast? = some l := by
  obtain ⟨hn, he⟩ := nodup_fold rs
  refine ⟨_, readGraph_eq header hh rs h, hn, he, fun i l => ?_, fun s d l => ?_⟩
  · rw [mem_iff_get _ hn]
    obtain ⟨h1, h2, h3⟩ := nodes_fold rs i
    by_cases hv : vertexLabels i rs = []
    · by_cases hE : IsEnd i rs
      · rw [h2 hv hE, hv]
        simp [hE, eq_comm]
      · rw [h3 hv hE, hv]
        simp [hE]
    · obtain ⟨l0, hl0⟩ : ∃ l0, (vertexLabels i rs).getLast? = some l0 := ⟨_, List.getLast?_eq_some_getLast hv⟩
      rw [h1 l0 hl0, hl0, Option.some.injEq]
      constructor
      · exact fun h => ⟨h.symm, Or.inl hv⟩
      · exact fun h => h.1.symm
  · rw [mem_iff_get _ he, edges_fold]

/-- C122. The graph read is the graph of the file: its vertices are the vertex records and its edges are the edge records, with their labels. Missing: files with several records for the same vertex or the same ordered pair, of which only the
last label is kept (`labels_lost`), and labels with a blank, which are cut (`label_cut`). -/
theorem read_graph_partial (header : List (List Char)) (hh : HeaderOk header) (rs : List Rec) (h : ∀ r ∈ rs, r.Clean) (hv : ∀ i, (vertexLabels i rs).length ≤ 1) (he : ∀ s d, (edgeLabels s d rs).length ≤ 1)
    (hends : ∀ i, IsEnd i rs → vertexLabels i rs ≠ []) :
    ∃ g, readGraph (fileText header rs) = .ok g ∧ (g.nodes.map Prod.fst).Nodup ∧ (g.edges.map Prod.fst).Nodup ∧
      (∀ (i : ℤ) (l : Option Label), (i + 1, l) ∈ g.nodes ↔ ∃ u l', Rec.vertex i u l' ∈ rs ∧ l = some l') ∧
      ∀ (s d : ℤ) (l : Label), ((s + 1, d + 1), l) ∈ g.edges ↔ Rec.edge s d l ∈ rs := by
  obtain ⟨g, hg, hn, hed, h1, h2⟩ := read_last header hh rs h
  have hone : ∀ (ls : List Label), ls.length ≤ 1 → ∀ l, ls.getLast? = some l ↔ l ∈ ls := by
    intro ls hls l
    match ls, hls with
    | [], _ => simp
    | [a], _ => simp [eq_comm]
  refine ⟨g, hg, hn, hed, fun i l => ?_, fun s d l => ?_⟩
  · rw [h1]
    have hmem : ∀ l', l' ∈ vertexLabels i rs ↔ ∃ u, Rec.vertex i u l' ∈ rs := by
      intro l'
      unfold vertexLabels
      rw [List.mem_filterMap]
      constructor
      · rintro ⟨r, hr, hl⟩
        cases r with
        | vertex j u l0 =>
          simp only [Option.ite_none_right_eq_some, Option.some.injEq] at hl
          obtain ⟨rfl, rfl⟩ := hl
          exact ⟨u, hr⟩
        | edge a b l0 => cases hl
      · rintro ⟨u, hu⟩
        exact ⟨_, hu, by simp⟩
    constructor
    · rintro ⟨rfl, hne⟩
      have hne' : vertexLabels i rs ≠ [] := hne.elim id (hends i)
      obtain ⟨l0, hl0⟩ : ∃ l0, (vertexLabels i rs).getLast? = some l0 := ⟨_, List.getLast?_eq_some_getLast hne'⟩
      obtain ⟨u, hu⟩ := (hmem l0).1 ((hone _ (hv i) l0).1 hl0)
      exact ⟨u, l0, hu, hl0⟩
    · rintro ⟨u, l', hu, rfl⟩
      have hm := (hmem l').2 ⟨u, hu⟩
      exact ⟨((hone _ (hv i) l').2 hm).symm, Or.inl (List.ne_nil_of_mem hm)⟩
  · rw [h2, hone _ (he s d)]
    unfold edgeLabels
    rw [List.mem_filterMap]
    constructor
    · rintro ⟨r, hr, hl⟩
      cases r with
      | vertex j u l0 => cases hl
      | edge a b l0 =>
        simp only [Option.ite_none_right_eq_some, Option.some.injEq] at hl
        obtain ⟨⟨rfl, rfl⟩, rfl⟩ := hl
        exact hr
    · exact fun hu => ⟨_, hu, by simp⟩

/-! ## Witnesses -/

/-- Two edges from vertex 0 to vertex 1, and two labels of vertex 0: only the last ones are read. -/
theorem labels_lost : readGraph "a\nb\nc\nv 0 2 A\nv 0 2 B\nv 1 1 C\ne 0 1 x\ne 0 1 y\n".toList = .ok ⟨[(1, some ['B']), (2, some ['C'])], [((1, 2), ['y'])]⟩ := by decide +kernel

/-- A label with a blank is cut at the blank. -/
theorem label_cut : readGraph "a\nb\nc\nv 0 1 New York\n".toList = .ok ⟨[(1, some ['N', 'e', 'w'])], []⟩ := by decide +kernel

/-- A blank line raises, also at the end of the file. -/
theorem blank_line_raises : readGraph "a\nb\nc\nv 0 1 A\n\n".toList = .error .index := by decide +kernel

/-- The hypotheses hold for a graph with three vertices and opposite edges. -/
example : let rs : List Rec := [.vertex 0 ['1'] ['A'], .vertex 1 ['1'] ['B'], .vertex 12 ['1'] ['A'], .edge 0 1 ['x'], .edge 1 0 ['x'], .edge 12 12 ['y']]
    fileText [['t'], ['#'], []] rs = "t\n#\n\nv 0 1 A\nv 1 1 B\nv 12 1 A\ne 0 1 x\ne 1 0 x\ne 12 12 y\n".toList ∧
      readGraph (fileText [['t'], ['#'], []] rs) = .ok ⟨[(1, some ['A']), (2, some ['B']), (13, some ['A'])], [((1, 2), ['x']), ((2, 1), ['x']), ((13, 13), ['y'])]⟩ := by
  intro rs
  exact ⟨by decide +kernel, by decide +kernel⟩

end Verif.GraphFile
