import Verif.Hooks.CheckModel
import Mathlib.Data.List.TakeWhile
import Mathlib.Tactic.Common
import Mathlib.Tactic.SplitIfs

/-! # Checks made on callbacks: properties (C102) -/

set_option autoImplicit false
set_option linter.unusedSectionVars false

namespace Verif.Hooks

/-! ## The text -/

/-- The text has an assignment written `self = ..` or `self.name = ..`: spaces before `=`, a name made of word characters. -/
def WritesSelf (k : Classes) (s : List Char) : Prop :=
  ∃ pre name spaces post, s = pre ++ ['s', 'e', 'l', 'f'] ++ name ++ spaces ++ '=' :: post ∧ (∀ c ∈ spaces, k.space c = true) ∧
    (name = [] ∨ ∃ w, w ≠ [] ∧ name = '.' :: w ∧ ∀ c ∈ w, k.word c = true)

/-- What is used of the classes: `=` and `.` and spaces are no word characters, `=` and `.` are no spaces. -/
structure Classes.Ok (k : Classes) : Prop where
  eqWord : k.word '=' = false
  eqSpace : k.space '=' = false
  dotSpace : k.space '.' = false
  disjoint : ∀ c, k.space c = true → k.word c = false

theorem eqAfterSpaces_iff (k : Classes) (hk : k.Ok) (t : List Char) : eqAfterSpaces k t = true ↔ ∃ sp post, t = sp ++ '=' :: post ∧ ∀ c ∈ sp, k.space c = true := by
  unfold eqAfterSpaces
  constructor
  · intro h
    have h := eq_of_beq h
    cases hd : t.dropWhile k.space with
    | nil => rw [hd] at h; cases h
    | cons c post =>
      rw [hd] at h
      obtain rfl := Option.some.inj h
      refine ⟨t.takeWhile k.space, post, by rw [← hd]; exact List.takeWhile_append_dropWhile.symm, fun c hc => List.mem_takeWhile_imp hc⟩
  · rintro ⟨sp, post, rfl, hsp⟩
    rw [List.dropWhile_append_of_pos hsp, List.dropWhile_cons_of_neg (by simp [hk.eqSpace])]
    rfl

theorem takeWhile_word (k : Classes) (hk : k.Ok) (w sp post : List Char) (hw : ∀ c ∈ w, k.word c = true) (hsp : ∀ c ∈ sp, k.space c = true) :
    (w ++ (sp ++ '=' :: post)).takeWhile k.word = w ∧ (w ++ (sp ++ '=' :: post)).dropWhile k.word = sp ++ '=' :: post := by
  have hhead : (sp ++ '=' :: post).takeWhile k.word = [] ∧ (sp ++ '=' :: post).dropWhile k.word = sp ++ '=' :: post := by
    cases sp with
    | nil => simp [hk.eqWord]
    | cons c sp =>
      have := hk.disjoint c (hsp c List.mem_cons_self)
      simp [this]
  rw [List.takeWhile_append_of_pos hw, List.dropWhile_append_of_pos hw, hhead.1, hhead.2, List.append_nil]
  exact ⟨rfl, rfl⟩

theorem afterSelf_iff (k : Classes) (hk : k.Ok) (t : List Char) : afterSelf k t = true ↔
    ∃ name spaces post, t = name ++ spaces ++ '=' :: post ∧ (∀ c ∈ spaces, k.space c = true) ∧ (name = [] ∨ ∃ w, w ≠ [] ∧ name = '.' :: w ∧ ∀ c ∈ w, k.word c = true) := by
  unfold afterSelf
  rw [Bool.or_eq_true, eqAfterSpaces_iff k hk]
  constructor
  · rintro (⟨sp, post, rfl, h⟩ | h)
    · exact ⟨[], sp, post, rfl, h, Or.inl rfl⟩
    · split at h
      · rename_i r
        rw [Bool.and_eq_true, eqAfterSpaces_iff k hk] at h
        obtain ⟨h1, sp, post, h2, h3⟩ := h
        refine ⟨'.' :: r.takeWhile k.word, sp, post, ?_, h3, Or.inr ⟨r.takeWhile k.word, by simpa using h1, rfl, fun c hc => List.mem_takeWhile_imp hc⟩⟩
        rw [List.append_assoc, ← h2, List.cons_append, List.takeWhile_append_dropWhile]
      · cases h
  · rintro ⟨name, sp, post, rfl, h1, rfl | ⟨w, hw0, rfl, hw⟩⟩
    · exact Or.inl ⟨sp, post, rfl, h1⟩
    · right
      obtain ⟨e1, e2⟩ := takeWhile_word k hk w sp post hw h1
      have : '.' :: w ++ sp ++ '=' :: post = '.' :: (w ++ (sp ++ '=' :: post)) := by simp
      rw [this]
      simp only
      rw [e1, e2, Bool.and_eq_true, eqAfterSpaces_iff k hk]
      exact ⟨by simpa using hw0, sp, post, rfl, h1⟩

theorem matchHere_iff (k : Classes) (s : List Char) : matchHere k s = true ↔ ∃ t, s = ['s', 'e', 'l', 'f'] ++ t ∧ afterSelf k t = true := by
  unfold matchHere
  split
  · rename_i t
    exact ⟨fun h => ⟨t, rfl, h⟩, fun ⟨t', h, h'⟩ => by simp at h; rw [h]; exact h'⟩
  · rename_i hno
    refine ⟨fun h => (by cases h), ?_⟩
    rintro ⟨t, rfl, -⟩
    exact absurd rfl (hno t)

theorem search_iff (k : Classes) (s : List Char) : search k s = true ↔ ∃ pre t, s = pre ++ t ∧ matchHere k t = true := by
  induction s with
  | nil =>
    simp only [search]
    exact ⟨fun h => ⟨[], [], rfl, h⟩, fun ⟨p, t, h, h'⟩ => by simp at h; rw [h.2] at h'; exact h'⟩
  | cons c s ih =>
    simp only [search, Bool.or_eq_true]
    rw [ih]
    constructor
    · rintro (h | ⟨p, t, rfl, h⟩)
      · exact ⟨[], c :: s, rfl, h⟩
      · exact ⟨c :: p, t, rfl, h⟩
    · rintro ⟨p, t, h, h'⟩
      cases p with
      | nil => left; rw [h]; exact h'
      | cons d p =>
        rw [List.cons_append] at h
        obtain ⟨-, rfl⟩ := List.cons.inj h
        exact Or.inr ⟨p, t, rfl, h'⟩

/-- A callback with a source is refused exactly if the text contains `self =` or `self.name =`, wherever it is and whatever it means there. -/
theorem refused_iff (k : Classes) (hk : k.Ok) (v : Value) (s : List Char) (hs : v.source = some s) : hasSelfAssignment k v = true ↔ WritesSelf k s := by
  unfold hasSelfAssignment
  rw [hs]
  simp only
  rw [search_iff]
  constructor
  · rintro ⟨pre, t, rfl, h⟩
    obtain ⟨t', rfl, h'⟩ := (matchHere_iff k t).1 h
    obtain ⟨name, sp, post, rfl, h1, h2⟩ := (afterSelf_iff k hk t').1 h'
    exact ⟨pre, name, sp, post, by simp, h1, h2⟩
  · rintro ⟨pre, name, sp, post, rfl, h1, h2⟩
    refine ⟨pre, ['s', 'e', 'l', 'f'] ++ (name ++ sp ++ '=' :: post), by simp, (matchHere_iff k _).2 ⟨_, rfl, (afterSelf_iff k hk _).2 ⟨name, sp, post, rfl, h1, h2⟩⟩⟩

/-! ## The dict -/

theorem check_none (k : Classes) (d : Dict) : check k d = none ↔ ∀ x ∈ d, x.2.callable = true ∧ hasSelfAssignment k x.2 = false := by
  induction d with
  | nil => simp [check]
  | cons x d ih =>
    obtain ⟨n, v⟩ := x
    rw [check, List.forall_mem_cons]
    cases hc : v.callable <;> cases hs : hasSelfAssignment k v <;> simp [ih]

/-- C102, what holds. A collection of callbacks is created exactly if all values can be called and none with a source contains an assignment written `self = ..` or `self.name = ..`; it is then the given one. Assigning items and updating it
fails and changes nothing. Missing: other ways to modify the miner pass, harmless texts are refused, and other methods of dicts change the collection (below). -/
theorem create_partial (k : Classes) (hk : k.Ok) (kwargs : Dict) :
    (∀ d, create k kwargs = .ok d → d = kwargs) ∧
    ((∃ d, create k kwargs = .ok d) ↔ ∀ x ∈ kwargs, x.2.callable = true ∧ ∀ s, x.2.source = some s → ¬ WritesSelf k s) ∧
    (∀ n v, apply kwargs (.setItem n v) = (kwargs, some "NotImplementedError")) ∧ ∀ e, apply kwargs (.update e) = (kwargs, some "NotImplementedError") := by
  have hc : (∃ d, create k kwargs = .ok d) ↔ check k kwargs = none := by
    unfold create
    cases check k kwargs <;> simp
  refine ⟨fun d h => ?_, ?_, fun n v => rfl, fun e => rfl⟩
  · unfold create at h
    split at h
    · cases h
    · exact (Except.ok.inj h).symm
  · rw [hc, check_none]
    refine forall₂_congr fun x _ => and_congr_right fun _ => ?_
    constructor
    · intro h s hs hw
      rw [(refused_iff k hk x.2 s hs).2 hw] at h
      cases h
    · intro h
      cases hs : x.2.source with
      | none => unfold hasSelfAssignment; rw [hs]
      | some s =>
        have := h s hs
        rw [← refused_iff k hk x.2 s hs] at this
        simpa using this

/-- The error tells what is wrong with the first bad value. -/
theorem create_error (k : Classes) (kwargs : Dict) (e : String) (h : create k kwargs = .error e) : e = "TypeError" ∨ e = "ValueError" := by
  unfold create at h
  split at h
  · rename_i e' he
    obtain rfl := Except.error.inj h
    clear h
    induction kwargs with
    | nil => cases he
    | cons x d ih =>
      rw [check] at he
      split_ifs at he
      · exact Or.inl (Option.some.inj he).symm
      · exact Or.inr (Option.some.inj he).symm
      · exact ih he
  · cases h

/-! ## What goes wrong -/

/-- Ascii letters, digits and underscore; blanks and newlines. -/
def ascii : Classes := ⟨fun c => c.isAlphanum || c == '_', fun c => c == ' ' || c == '\n' || c == '\t'⟩

theorem ascii_ok : ascii.Ok := by
  refine ⟨by decide, by decide, by decide, fun c h => ?_⟩
  simp only [ascii, Bool.or_eq_true, beq_iff_eq] at h
  rcases h with (rfl | rfl) | rfl <;> decide

/-- Callbacks that modify the miner and are accepted: augmented assignment, attribute of an attribute, item, `setattr`, another name. -/
theorem accepted : ["def f(self):\n    self.count += 1", "def f(self):\n    self.a.b = 1", "def f(self):\n    self.sizes[0] = 1", "def f(self):\n    setattr(self, 'x', 1)", "def f(s):\n    s.x = 1"].all
    (fun s => !hasSelfAssignment ascii ⟨0, true, some s.toList⟩) = true := by decide

/-- Callbacks that modify nothing and are refused: comparison, keyword argument, another variable, a comment. -/
theorem refused : ["lambda self: print(self.x == 1)", "def f(x):\n    g(self=x)", "def f(x):\n    myself = x", "def f(x):  # sets self.x = 1\n    pass"].all
    (fun s => hasSelfAssignment ascii ⟨0, true, some s.toList⟩) = true := by decide

/-- The collection can be changed, also by callbacks that were not checked. -/
theorem not_frozen (d : Dict) (n : List Char) (v : Value) (hn : n ∉ d.map Prod.fst) :
    apply d (.setDefault n v) = (d ++ [(n, v)], none) ∧ apply d (.ior [(n, v)]) = (d ++ [(n, v)], none) ∧ apply d .clear = ([], none) := by
  simp [apply, put, hn]

/-- `setdefault` with a name that is present changes nothing; `pop` removes this name only. -/
theorem present_name (d : Dict) (n : List Char) (v : Value) (hn : n ∈ d.map Prod.fst) :
    apply d (.setDefault n v) = (d, none) ∧ (apply d (.pop n)).2 = none ∧
      ∀ x, x ∈ (apply d (.pop n)).1 ↔ x ∈ d ∧ x.1 ≠ n := by
  refine ⟨?_, ?_, fun x => ?_⟩
  · show (if n ∈ d.map Prod.fst then d else put d n v, none) = _
    rw [if_pos hn]
  · show (if n ∈ d.map Prod.fst then (d.filter (fun x => decide (x.1 ≠ n)), none) else (d, some "KeyError")).2 = _
    rw [if_pos hn]
  · show x ∈ (if n ∈ d.map Prod.fst then (d.filter (fun x => decide (x.1 ≠ n)), none) else (d, some "KeyError")).1 ↔ _
    rw [if_pos hn, List.mem_filter, decide_eq_true_eq]

/-! ## Cases -/

example : hasSelfAssignment ascii ⟨0, true, some "def f(self):\n    self.x  = 1".toList⟩ = true := by decide
example : (create ascii [("fit".toList, ⟨0, true, none⟩), ("update".toList, ⟨1, true, some "lambda self: print(self.x)".toList⟩)]).toOption.isSome = true := by decide
example : (create ascii [("fit".toList, ⟨0, true, none⟩), ("update".toList, ⟨1, true, some "def f(self):\n  self.x = 1".toList⟩)]).toOption.isSome = false := by decide

end Verif.Hooks
