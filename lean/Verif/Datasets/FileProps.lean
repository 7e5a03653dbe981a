import Verif.Datasets.FileModel
import Verif.Datasets.Props

/-!
# Files of transactions given by their path: properties (C173)
-/

set_option autoImplicit false
set_option linter.unusedSectionVars false

namespace Verif.Datasets

open Verif.Text

theorem takeWhile_stop (l r : List Char) (c : Char) (h : c ∉ l) : (l ++ c :: r).takeWhile (· ≠ c) = l ∧ (l ++ c :: r).dropWhile (· ≠ c) = c :: r := by
  induction l with
  | nil => simp
  | cons a l ih =>
    rw [List.mem_cons, not_or] at h
    obtain ⟨h1, h2⟩ := ih h.2
    have ha : decide (a ≠ c) = true := decide_eq_true (fun h' => h.1 h'.symm)
    rw [List.cons_append, List.takeWhile_cons, List.dropWhile_cons, ha]
    exact ⟨by rw [if_pos rfl, h1], by rw [if_pos rfl, h2]⟩

theorem basename_of (dir file : List Char) (h : '/' ∉ file) : basename (dir ++ '/' :: file) = file ∧ basename file = file := by
  unfold basename
  constructor
  · rw [List.reverse_append, List.reverse_cons, List.append_assoc, List.singleton_append, (takeWhile_stop file.reverse dir.reverse '/' (by simpa using h)).1, List.reverse_reverse]
  · have := (takeWhile_stop file.reverse [] '/' (by simpa using h)).1
    rw [List.takeWhile_append] at this
    split at this
    · next hl => rw [(List.takeWhile_sublist _).eq_of_length hl, List.reverse_reverse]
    · rw [this, List.reverse_reverse]

theorem rootOf_ext (stem ext : List Char) (he : '.' ∉ ext) (hs : ∃ c ∈ stem, c ≠ '.') : rootOf (stem ++ '.' :: ext) = stem := by
  unfold rootOf
  rw [if_pos (by simp)]
  have hd : (stem ++ '.' :: ext).reverse.dropWhile (· ≠ '.') = '.' :: stem.reverse := by
    rw [List.reverse_append, List.reverse_cons, List.append_assoc, List.singleton_append, (takeWhile_stop ext.reverse stem.reverse '.' (by simpa using he)).2]
  rw [hd]
  simp only [List.drop_succ_cons, List.drop_zero, List.reverse_reverse]
  rw [if_neg]
  intro hall
  obtain ⟨c, hc, hne⟩ := hs
  exact hne (by simpa using List.all_eq_true.1 hall c hc)

theorem rootOf_plain (name : List Char) (h : '.' ∉ name) : rootOf name = name := by
  unfold rootOf
  rw [if_neg h]

/-- C173, names: a file is loaded under its name without the extension (the part after its last dot), wherever it is; a file without dot is loaded under its name. -/
theorem file_name {β : Type*} (parse : List Char → Option β) (sep : Char) (dir stem ext text : List Char) (h1 : '/' ∉ stem) (h2 : '/' ∉ ext) (h3 : '.' ∉ ext) :
    ((∃ c ∈ stem, c ≠ '.') → (fetchFile parse sep (dir ++ '/' :: (stem ++ '.' :: ext)) text).map Prod.fst = (readDat parse sep text).map (fun _ => stem) ∧
      (fetchFile parse sep (stem ++ '.' :: ext) text).map Prod.fst = (readDat parse sep text).map (fun _ => stem)) ∧
    (fetchFile parse sep (dir ++ '/' :: ext) text).map Prod.fst = (readDat parse sep text).map (fun _ => ext) := by
  have hf : '/' ∉ stem ++ '.' :: ext := by
    rw [List.mem_append, List.mem_cons]
    rintro (h | h | h)
    · exact h1 h
    · cases h
    · exact h2 h
  unfold fetchFile
  refine ⟨fun hs => ⟨?_, ?_⟩, ?_⟩
  · rw [(basename_of dir _ hf).1, rootOf_ext stem ext h3 hs, Option.map_map]; rfl
  · rw [(basename_of dir _ hf).2, rootOf_ext stem ext h3 hs, Option.map_map]; rfl
  · rw [(basename_of dir _ h2).1, rootOf_plain ext h3, Option.map_map]; rfl

/-- C173: transactions that are written to a file, items separated by `sep` and one per line, with any trailing blanks, are loaded as they are under the name of the file. -/
theorem file_roundtrip {β : Type*} (parse : List Char → Option β) (shw : β → List Char) (sep : Char)
    (hps : ∀ x, parse (shw x) = some x) (hsep : ∀ x, sep ∉ shw x) (hne : ∀ x, shw x ≠ [])
    (hsp : ∀ x, ∀ c ∈ shw x, isSpace c = false) (hbr : isBreak sep = false ∧ sep ≠ '\r') (D : List (List β × List Char))
    (hD : ∀ d ∈ D, d.1 ≠ [] ∧ ∀ c ∈ d.2, isSpace c = true ∧ isBreak c = false ∧ c ≠ '\r')
    (dir stem ext : List Char) (h1 : '/' ∉ stem) (h2 : '/' ∉ ext) (h3 : '.' ∉ ext) (hs : ∃ c ∈ stem, c ≠ '.') :
    fetchFile parse sep (dir ++ '/' :: (stem ++ '.' :: ext)) (D.flatMap (fun d => (join sep (d.1.map shw) ++ d.2) ++ ['\n'])) =
      some (stem, D.map Prod.fst) := by
  have h := ((file_name parse sep dir stem ext (D.flatMap (fun d => (join sep (d.1.map shw) ++ d.2) ++ ['\n'])) h1 h2 h3).1 hs).1
  unfold fetchFile at h ⊢
  rw [read_roundtrip parse shw sep hps hsep hne hsp hbr D hD] at h ⊢
  simp only [Option.map_some, Option.some.injEq] at h ⊢
  rw [h]

/-- C173, hidden files: a file with only dots before its last dot has no extension and is loaded under its whole name. -/
theorem hidden_file_name {β : Type*} (parse : List Char → Option β) (sep : Char) (dir ext text : List Char) (k : ℕ) (h2 : '/' ∉ ext) (h3 : '.' ∉ ext) :
    (fetchFile parse sep (dir ++ '/' :: (List.replicate k '.' ++ '.' :: ext)) text).map Prod.fst = (readDat parse sep text).map (fun _ => List.replicate (k + 1) '.' ++ ext) := by
  have hf : '/' ∉ List.replicate k '.' ++ '.' :: ext := by
    rw [List.mem_append, List.mem_cons]
    rintro (h | h | h)
    · exact absurd (List.eq_of_mem_replicate h) (by decide)
    · cases h
    · exact h2 h
  have hd : (List.replicate k '.' ++ '.' :: ext).reverse.dropWhile (· ≠ '.') = '.' :: List.replicate k '.' := by
    rw [List.reverse_append, List.reverse_cons, List.append_assoc, List.singleton_append, (takeWhile_stop ext.reverse _ '.' (by simpa using h3)).2, List.reverse_replicate]
  have hr : rootOf (List.replicate k '.' ++ '.' :: ext) = List.replicate k '.' ++ '.' :: ext := by
    unfold rootOf
    rw [if_pos (by simp), hd]
    simp
  unfold fetchFile
  rw [(basename_of dir _ hf).1, hr, Option.map_map, List.replicate_succ', List.append_assoc]
  rfl

/-- A path with a folder whose name has a dot; a name with two dots; a hidden file has no extension. -/
example : (fetchFile parseInt ' ' "my.data/chess.dat".toList "1 2\n3\n".toList).map (fun r => (String.ofList r.1, r.2)) = some ("chess", [[1, 2], [3]]) ∧
    (fetchFile parseInt ' ' "a.tar.gz".toList "1".toList).map (fun r => (String.ofList r.1, r.2)) = some ("a.tar", [[1]]) ∧
    (fetchFile parseInt ' ' "x/.dat".toList "1".toList).map (fun r => (String.ofList r.1, r.2)) = some (".dat", [[1]]) := by decide +kernel

end Verif.Datasets
