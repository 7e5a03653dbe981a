import Verif.Fetch.Spec
import Verif.Datasets.Props
import Mathlib.Tactic.Common

/-!
# Fetching datasets through a folder on disk (C109)
-/

set_option autoImplicit false
set_option linter.unusedSectionVars false

namespace Verif.Fetch

open Verif.Text Verif.Datasets

variable {β γ δ : Type}

/-! ### One call -/

/-- The disk after the choice of the folder. -/
def prepared (standard : String) (disk : Disk β) (home : Option String) : Disk β := (homeOf standard disk home).2

theorem homeOf_eq (standard : String) (disk : Disk β) (home : Option String) : homeOf standard disk home = (folder standard home, prepared standard disk home) := by
  unfold prepared folder homeOf
  cases home with
  | none => rfl
  | some d => dsimp only; split <;> rfl

theorem prepared_files (standard : String) (disk : Disk β) (home : Option String) : (prepared standard disk home).files = disk.files := by
  unfold prepared homeOf
  cases home with
  | none => rfl
  | some d => dsimp only; split <;> rfl

theorem prepared_folders (standard : String) (disk : Disk β) (home : Option String) (d : String) (h : d ∈ disk.folders) : d ∈ (prepared standard disk home).folders := by
  unfold prepared homeOf
  cases home with
  | none => dsimp only; split <;> simp [h]
  | some x =>
    dsimp only
    split
    · dsimp only; split <;> simp [h]
    · exact h

/-- What is stored for the content `b`. -/
def stored (lib : Lib β γ δ) (c : Call) (b : β) : Option β :=
  match c.origin with
  | .inl _ => some b
  | .inr l => (lib.parse l b).map lib.write

/-- What a file says to a call. -/
def fromFile (lib : Lib β γ δ) (c : Call) (b : β) : Except Err (Answer δ) :=
  match c.origin with
  | .inl u => (readRows lib (decide (u = Base.cgi.url)) b).map .rows
  | .inr l =>
    match (lib.readBack b).bind (lib.dates l) with
    | some s => .ok (.log s)
    | none => .error .value

theorem url_data (d : Data) : (Call.data d).url = d.source.1.url ++ d.source.2 := by cases d <;> decide +kernel

theorem url_any (base : Base) (name : String) : (Call.any base name).url = base.url ++ name := by cases base <;> rfl

theorem url_log (l : Log) (name : String) : (Call.log l name).url = l.url := by cases l <;> rfl

theorem transactions_eq (lib : Lib β γ δ) (u : String) (b : β) : transactions lib u b = readRows lib (decide (u = Base.cgi.url)) b := by
  unfold transactions readRows
  by_cases h : u = Base.cgi.url
  · have : u = "https://cgi.csc.liv.ac.uk/~frans/KDD/Software/LUCS-KDD-DN/DataSets/" := h
    rw [if_pos this, if_pos (by simpa using h)]
    cases lib.unzip b with
    | none => rfl
    | some text => dsimp only; cases readDat parseInt ' ' text <;> rfl
  · have : ¬ u = "https://cgi.csc.liv.ac.uk/~frans/KDD/Software/LUCS-KDD-DN/DataSets/" := h
    rw [if_neg this, if_neg (by simpa using h)]
    cases lib.plain b with
    | none => rfl
    | some text => dsimp only; cases readDat parseInt ' ' text <;> rfl

/-- A call, in one expression. -/
theorem step_eq (lib : Lib β γ δ) (standard : String) (web : String → Option β) (disk : Disk β) (home : Option String) (c : Call) :
    step lib standard web disk home c =
      if folder standard home ∈ (prepared standard disk home).folders then
        match disk.files.lookup (folder standard home, c.file) with
        | some b => (fromFile lib c b, prepared standard disk home)
        | none =>
          match web c.url with
          | none => (.error .download, prepared standard disk home)
          | some b => (meaning lib c b, match stored lib c b with
            | none => prepared standard disk home
            | some x => ⟨(prepared standard disk home).folders, ((folder standard home, c.file), x) :: disk.files⟩)
      else (.error .noFolder, prepared standard disk home) := by
  have hrow : ∀ (base : Base) (name : String), fetchAny lib standard web disk base name home =
      if folder standard home ∈ (prepared standard disk home).folders then
        match disk.files.lookup (folder standard home, name) with
        | some b => (readRows lib (decide (base.url = Base.cgi.url)) b, prepared standard disk home)
        | none =>
          match web (base.url ++ name) with
          | none => (.error .download, prepared standard disk home)
          | some b => (readRows lib (decide (base.url = Base.cgi.url)) b, ⟨(prepared standard disk home).folders, ((folder standard home, name), b) :: disk.files⟩)
      else (.error .noFolder, prepared standard disk home) := by
    intro base name
    unfold fetchAny
    rw [homeOf_eq]
    dsimp only
    rw [prepared_files]
    by_cases hf : folder standard home ∈ (prepared standard disk home).folders
    · rw [if_pos hf, if_pos hf]
      cases disk.files.lookup (folder standard home, name) with
      | some b => rfl
      | none => cases web (base.url ++ name) <;> rfl
    · rw [if_neg hf, if_neg hf]
  have hany : ∀ (c : Call) (base : Base) (name : String), c.file = name → c.origin = .inl base.url → c.url = base.url ++ name →
      (step lib standard web disk home c = (let r := fetchAny lib standard web disk base name home; (r.1.map .rows, r.2))) → step lib standard web disk home c =
      if folder standard home ∈ (prepared standard disk home).folders then
        match disk.files.lookup (folder standard home, c.file) with
        | some b => (fromFile lib c b, prepared standard disk home)
        | none =>
          match web c.url with
          | none => (.error .download, prepared standard disk home)
          | some b => (meaning lib c b, match stored lib c b with
            | none => prepared standard disk home
            | some x => ⟨(prepared standard disk home).folders, ((folder standard home, c.file), x) :: disk.files⟩)
      else (.error .noFolder, prepared standard disk home) := by
    intro c base name h1 h2 h3 h4
    rw [h4, hrow, h1, h3]
    unfold fromFile meaning stored
    rw [h2]
    simp only [transactions_eq]
    by_cases hf : folder standard home ∈ (prepared standard disk home).folders
    · simp only [if_pos hf]
      cases disk.files.lookup (folder standard home, name) with
      | some b => rfl
      | none => cases web (base.url ++ name) <;> rfl
    · simp only [if_neg hf]
      rfl
  cases c with
  | data d => exact hany _ d.source.1 d.source.2 rfl rfl (url_data d) rfl
  | any base name => exact hany _ base name rfl rfl (url_any base name) rfl
  | log l name =>
    unfold step fetchLog fromFile meaning stored
    rw [homeOf_eq]
    rw [url_log]
    dsimp only [Call.file, Call.origin]
    rw [prepared_files]
    by_cases hf : folder standard home ∈ (prepared standard disk home).folders
    · simp only [if_pos hf]
      cases disk.files.lookup (folder standard home, name) with
      | some b =>
        dsimp only
        cases lib.readBack b with
        | none => rfl
        | some s =>
          dsimp only [Option.bind_some]
          cases lib.dates l s <;> rfl
      | none =>
        dsimp only
        cases web l.url with
        | none => rfl
        | some b =>
          dsimp only
          cases lib.parse l b with
          | none => rfl
          | some s =>
            dsimp only [Option.bind_some, Option.map_some]
            cases lib.dates l s <;> rfl
    · simp only [if_neg hf]
      rfl

theorem lookup_keep {α : Type} (files : List ((String × String) × α)) (k k' : String × String) (x b : α) (h : files.lookup k = some b) (h' : files.lookup k' = none) : ((k', x) :: files).lookup k = some b := by
  rw [List.lookup_cons]
  by_cases e : k = k'
  · subst e; rw [h] at h'; cases h'
  · have : (k == k') = false := by simpa using e
    rw [this]; exact h

/-- No call removes a folder or changes a file. -/
theorem step_keeps (lib : Lib β γ δ) (standard : String) (web : String → Option β) (disk : Disk β) (home : Option String) (c : Call) :
    (∀ d ∈ disk.folders, d ∈ (step lib standard web disk home c).2.folders) ∧ ∀ k b, disk.files.lookup k = some b → (step lib standard web disk home c).2.files.lookup k = some b := by
  have hf := prepared_folders standard disk home
  have hp := prepared_files standard disk home
  rw [step_eq]
  split
  · split
    · exact ⟨hf, by rw [hp]; exact fun k b h => h⟩
    · rename_i hnone
      split
      · exact ⟨hf, by rw [hp]; exact fun k b h => h⟩
      · dsimp only
        split
        · exact ⟨hf, by rw [hp]; exact fun k b h => h⟩
        · exact ⟨hf, fun k b h => lookup_keep _ _ _ _ _ h hnone⟩
  · exact ⟨hf, by rw [hp]; exact fun k b h => h⟩

theorem run_keeps (lib : Lib β γ δ) (standard : String) (hist : List (Call × Option String × (String → Option β))) (disk : Disk β) :
    (∀ d ∈ disk.folders, d ∈ (run lib standard disk hist).folders) ∧ ∀ k b, disk.files.lookup k = some b → (run lib standard disk hist).files.lookup k = some b := by
  induction hist generalizing disk with
  | nil => exact ⟨fun d h => h, fun k b h => h⟩
  | cons c cs ih =>
    obtain ⟨h1, h2⟩ := step_keeps lib standard c.2.2 disk c.2.1 c.1
    obtain ⟨h3, h4⟩ := ih (step lib standard c.2.2 disk c.2.1 c.1).2
    exact ⟨fun d h => h3 d (h1 d h), fun k b h => h4 k b (h2 k b h)⟩

theorem fromFile_stored (lib : Lib β γ δ) (hlib : ∀ s, lib.readBack (lib.write s) = some s) (c : Call) (b x : β) (h : stored lib c b = some x) : fromFile lib c x = meaning lib c b := by
  unfold stored at h
  unfold fromFile meaning
  cases ho : c.origin with
  | inl u =>
    rw [ho] at h
    rw [Option.some.inj h]
    dsimp only
    rw [transactions_eq]
  | inr l =>
    rw [ho] at h
    dsimp only at h ⊢
    obtain ⟨s, h1, h2⟩ := Option.map_eq_some_iff.mp h
    rw [← h2, hlib, h1]
    rfl

theorem fromFile_congr (lib : Lib β γ δ) (c c' : Call) (h : c.origin = c'.origin) (b : β) : fromFile lib c b = fromFile lib c' b := by
  unfold fromFile; rw [h]

theorem meaning_congr (lib : Lib β γ δ) (c c' : Call) (h : c.origin = c'.origin) (b : β) : meaning lib c b = meaning lib c' b := by
  unfold meaning; rw [h]

/-! ### The properties -/

/-- C109, second time: once a call has returned data, every later call for the same data in the same folder returns the same data, whatever was called in between and whatever the servers do, also if they are down. -/
theorem fetch_again (lib : Lib β γ δ) (hlib : ∀ s, lib.readBack (lib.write s) = some s) (standard : String) (disk : Disk β) (c c' : Call) (home home' : Option String) (web web' : String → Option β) (a : Answer δ)
    (h : (step lib standard web disk home c).1 = .ok a) (hist : List (Call × Option String × (String → Option β))) (hfile : c'.file = c.file) (horig : c'.origin = c.origin) (hhome : folder standard home' = folder standard home) :
    (step lib standard web' (run lib standard (step lib standard web disk home c).2 hist) home' c').1 = .ok a := by
  obtain ⟨disk1, hd1⟩ : ∃ d : Disk β, d = (step lib standard web disk home c).2 := ⟨_, rfl⟩
  have key : folder standard home ∈ disk1.folders ∧ ∃ x, disk1.files.lookup (folder standard home, c.file) = some x ∧ fromFile lib c x = .ok a := by
    rw [hd1]
    rw [step_eq] at h ⊢
    by_cases hf : folder standard home ∈ (prepared standard disk home).folders
    · rw [if_pos hf] at h ⊢
      cases hl : disk.files.lookup (folder standard home, c.file) with
      | some b =>
        rw [hl] at h
        exact ⟨hf, b, by rw [prepared_files]; exact hl, h⟩
      | none =>
        rw [hl] at h
        dsimp only at h ⊢
        cases hw : web c.url with
        | none => rw [hw] at h; cases h
        | some b =>
          rw [hw] at h
          dsimp only at h ⊢
          cases hs : stored lib c b with
          | none =>
            exfalso
            unfold stored at hs
            unfold meaning at h
            cases ho : c.origin with
            | inl u => rw [ho] at hs; cases hs
            | inr l =>
              rw [ho] at hs h
              dsimp only at hs h
              rw [Option.map_eq_none_iff] at hs
              rw [hs] at h
              cases h
          | some x =>
            refine ⟨hf, x, ?_, ?_⟩
            · simp
            · rw [fromFile_stored lib hlib c b x hs]; exact h
    · rw [if_neg hf] at h; cases h
  rw [← hd1]
  obtain ⟨k1, x, k2, k3⟩ := key
  obtain ⟨r1, r2⟩ := run_keeps lib standard hist disk1
  rw [step_eq, hhome, if_pos (prepared_folders standard _ home' _ (r1 _ k1)), hfile, r2 _ _ k2]
  dsimp only
  rw [fromFile_congr lib c' c horig, k3]

/-- What the history leaves in the folders is what the servers said to a call for the same data. -/
theorem run_files (lib : Lib β γ δ) (standard : String) (hist : List (Call × Option String × (String → Option β))) (disk : Disk β) (k : String × String) (x : β)
    (h : (run lib standard disk hist).files.lookup k = some x) :
    disk.files.lookup k = some x ∨ ∃ e ∈ hist, (folder standard e.2.1, e.1.file) = k ∧ ∃ b, e.2.2 e.1.url = some b ∧ stored lib e.1 b = some x := by
  induction hist generalizing disk with
  | nil => exact .inl h
  | cons c cs ih =>
    rcases ih _ h with h1 | ⟨e, he, h1⟩
    · rw [step_eq] at h1
      split at h1
      · split at h1
        · rw [prepared_files] at h1; exact .inl h1
        · split at h1
          · rw [prepared_files] at h1; exact .inl h1
          · rename_i b hb
            dsimp only at h1
            split at h1
            · rw [prepared_files] at h1; exact .inl h1
            · rename_i y hy
              rw [List.lookup_cons] at h1
              by_cases e : k = (folder standard c.2.1, c.1.file)
              · have e' : (k == (folder standard c.2.1, c.1.file)) = true := by simpa using e
                rw [e'] at h1
                have h1 := Option.some.inj h1
                exact .inr ⟨c, List.mem_cons_self, e.symm, b, hb, by rw [hy, h1]⟩
              · have e' : (k == (folder standard c.2.1, c.1.file)) = false := by simpa using e
                rw [e'] at h1
                exact .inl h1
      · rw [prepared_files] at h1; exact .inl h1
    · exact .inr ⟨e, List.mem_cons_of_mem _ he, h1⟩

theorem url_of_place (x y : Call) (hf : x.file = y.file) (ho : x.origin = y.origin) : x.url = y.url := by
  cases x <;> cases y <;> simp only [Call.file, Call.origin, url_data, url_any, url_log, Sum.inl.injEq, Sum.inr.injEq, reduceCtorEq] at * <;> first | rw [hf, ho] | rw [ho]

/-- C109, right data: starting from folders without files, after any calls among which no two for different data share a file, a call returns what the server of these data says, now or at the time of an earlier call for them; the only other outcome in an
existing folder is that the server is down now and no earlier call for the data got an answer. -/
theorem fetch_right_partial (lib : Lib β γ δ) (hlib : ∀ s, lib.readBack (lib.write s) = some s) (standard : String) (folders : List String) (hist : List (Call × Option String × (String → Option β))) (c : Call) (home : Option String) (web : String → Option β)
    (hmix : NoMixing standard ((c, home) :: hist.map (fun e => (e.1, e.2.1)))) (hfolder : home = none ∨ home = some "" ∨ folder standard home ∈ folders) :
    (∃ b, web c.url = some b ∧ (step lib standard web (run lib standard ⟨folders, []⟩ hist) home c).1 = meaning lib c b) ∨
      (∃ e ∈ hist, ∃ b, folder standard e.2.1 = folder standard home ∧ e.1.origin = c.origin ∧ e.2.2 c.url = some b ∧ (step lib standard web (run lib standard ⟨folders, []⟩ hist) home c).1 = meaning lib c b) ∨
      (web c.url = none ∧ (step lib standard web (run lib standard ⟨folders, []⟩ hist) home c).1 = .error .download) := by
  obtain ⟨r1, -⟩ := run_keeps lib standard hist ⟨folders, []⟩
  obtain ⟨disk, hdisk⟩ : ∃ d : Disk β, d = run lib standard ⟨folders, []⟩ hist := ⟨_, rfl⟩
  have hin : folder standard home ∈ (prepared standard disk home).folders := by
    rcases hfolder with h | h | h
    · subst h
      simp only [prepared, homeOf, folder]
      split <;> simp_all
    · subst h
      simp only [prepared, homeOf, folder, if_true]
      split <;> simp_all
    · exact prepared_folders _ _ _ _ (by rw [hdisk]; exact r1 _ h)
  rw [← hdisk, step_eq, if_pos hin]
  cases hl : disk.files.lookup (folder standard home, c.file) with
  | some x =>
    right; left
    have hrun := hl
    rw [hdisk] at hrun
    rcases run_files lib standard hist _ _ _ hrun with h | ⟨e, he, h1, b, h2, h3⟩
    · simp at h
    · have ho : e.1.origin = c.origin := hmix (e.1, e.2.1) (List.mem_cons_of_mem _ (List.mem_map.mpr ⟨e, he, rfl⟩)) (c, home) List.mem_cons_self h1
      have hfile : e.1.file = c.file := (Prod.mk.injEq .. ▸ h1).2
      refine ⟨e, he, b, (Prod.mk.injEq .. ▸ h1).1, ho, by rw [← url_of_place e.1 c hfile ho]; exact h2, ?_⟩
      dsimp only
      rw [fromFile_congr lib c e.1 ho.symm, fromFile_stored lib hlib e.1 b x h3, meaning_congr lib e.1 c ho]
  | none =>
    dsimp only
    cases hw : web c.url with
    | none => right; right; exact ⟨rfl, rfl⟩
    | some b => left; exact ⟨b, rfl, rfl⟩

/-- C109, the functions of the datasets: their file names are different, so calls of these functions and of the functions of the logs with their own file names never mix data. -/
theorem named_never_mix (standard : String) (h : List (Call × Option String)) (hn : ∀ x ∈ h, x.1.Named) : NoMixing standard h := by
  have key : ∀ x y : Call, x.Named → y.Named → x.file = y.file → x.origin = y.origin := by
    intro x y hx hy e
    cases x with
    | any b n => exact hx.elim
    | data d =>
      cases y with
      | any b n => exact hy.elim
      | data d' =>
        have : d = d' := by
          revert e; cases d <;> cases d' <;> simp [Call.file, Data.source]
        rw [this]
      | log l n =>
        exfalso
        cases l <;> simp only [Call.Named] at hy <;> subst hy <;> revert e <;> cases d <;> simp [Call.file, Data.source]
    | log l n =>
      cases y with
      | any b n => exact hy.elim
      | data d =>
        exfalso
        cases l <;> simp only [Call.Named] at hx <;> subst hx <;> revert e <;> cases d <;> simp [Call.file, Data.source]
      | log l' n' =>
        cases l <;> cases l' <;> simp only [Call.Named] at hx hy <;> subst hx <;> subst hy <;> first | rfl | (revert e; simp [Call.file])
  intro x hx y hy e
  exact key x.1 y.1 (hn x hx) (hn y hy) (Prod.mk.injEq .. ▸ e).2

/-! ### Classes -/

theorem mapM_nonempty (lines : List (List Char)) (rows : List (List ℤ)) (h : lines.mapM (readLine parseInt ' ') = some rows) : ∀ t ∈ rows, t ≠ [] := by
  induction lines generalizing rows with
  | nil => simp at h; subst h; simp
  | cons l ls ih =>
    rw [List.mapM_cons] at h
    obtain ⟨t, h1, h2⟩ := Option.bind_eq_some_iff.mp h
    obtain ⟨ts, h3, h4⟩ := Option.bind_eq_some_iff.mp h2
    have h4 : t :: ts = rows := Option.some.inj h4
    subst h4
    intro x hx
    rcases List.mem_cons.mp hx with rfl | hx
    · intro e
      subst e
      unfold readLine at h1
      have := splitOn_ne_nil ' ' (rstrip l)
      cases hs : splitOn ' ' (rstrip l) with
      | nil => exact this hs
      | cons w ws =>
        rw [hs, List.mapM_cons] at h1
        obtain ⟨_, _, h1⟩ := Option.bind_eq_some_iff.mp h1
        obtain ⟨_, _, h1⟩ := Option.bind_eq_some_iff.mp h1
        cases h1
    · exact ih ts h3 x hx

/-- The class item of a transaction: the first for the mushrooms, the last for the others. -/
def IsClass (d : Data) (t rest : List ℤ) (c : ℤ) : Prop := if d = .mushroom then t = c :: rest else t = rest ++ [c]

/-- C109, classes: with `return_y`, the data and the classes have one element for each transaction of the file, in order; each transaction is its class item and its element of the data. The class of a mushroom is 0 if its class item is 2. -/
theorem split_classes (lib : Lib β γ δ) (zip : Bool) (b : β) (rows : List (List ℤ)) (h : readRows lib zip b = .ok rows) (d : Data) :
    (split d rows).1.length = rows.length ∧ (split d rows).2.length = rows.length ∧
      ∀ (i : ℕ) (t : List ℤ), rows[i]? = some t → ∃ rest c, (split d rows).1[i]? = some rest ∧ (split d rows).2[i]? = some (some (if d = .mushroom ∧ c = 2 then 0 else c)) ∧ IsClass d t rest c := by
  have hne : ∀ t ∈ rows, t ≠ [] := by
    unfold readRows at h
    split at h
    · cases h
    · split at h
      · cases h
      · rename_i r hr
        have h := Except.ok.inj h
        subst h
        exact mapM_nonempty _ _ hr
  by_cases hd : d = .mushroom
  · subst hd
    refine ⟨by simp [split], by simp [split], fun i t ht => ?_⟩
    cases t with
    | nil => exact absurd rfl (hne [] (List.mem_of_getElem? ht))
    | cons c rest => exact ⟨rest, c, by simp [split, ht], by simp [split, ht], by simp [IsClass]⟩
  · have hs : split d rows = (rows.map List.dropLast, rows.map List.getLast?) := by cases d <;> first | rfl | exact absurd rfl hd
    rw [hs]
    refine ⟨by simp, by simp, fun i t ht => ?_⟩
    have h1 := hne t (List.mem_of_getElem? ht)
    refine ⟨t.dropLast, t.getLast h1, by simp [ht], by simp [ht, hd, List.getLast?_eq_some_getLast h1], ?_⟩
    unfold IsClass
    rw [if_neg hd]
    exact (List.dropLast_append_getLast h1).symm

/-! ### Where the property fails -/

/-- Two addresses and one file name: the second call returns the data of the first address, for all contents. -/
theorem shared_name (lib : Lib β γ δ) (standard : String) (base base' : Base) (name : String) (hz : base.url ≠ Base.cgi.url) (hz' : base'.url ≠ Base.cgi.url) (web web' : String → Option β) (b : β) (hb : web (base.url ++ name) = some b) :
    (step lib standard web' (run lib standard ⟨[], []⟩ [(.any base name, none, web)]) none (.any base' name)).1 = meaning lib (.any base name) b := by
  simp [run, step, fetchAny, homeOf, hb, meaning, Call.origin, hz, hz', transactions_eq]

/-- A log stored under the file name of another log: the function of the second log returns the table of the first. -/
theorem shared_log (lib : Lib β γ δ) (hlib : ∀ s, lib.readBack (lib.write s) = some s) (standard name : String) (web web' : String → Option β) (b : β) (s : γ) (r r' : δ) (hb : web Log.health.url = some b) (hs : lib.parse .health b = some s)
    (hr : lib.dates .health s = some r) (hr' : lib.dates .tv s = some r') : (step lib standard web' (run lib standard ⟨[], []⟩ [(.log .health name, none, web)]) none (.log .tv name)).1 = .ok (.log r') := by
  simp [run, step, fetchLog, homeOf, hb, hs, hr, hlib, hr', Except.map]

/-- A folder that does not exist is not created: the call raises; the folder by default is created. -/
theorem folder_missing (lib : Lib β γ δ) (standard : String) (disk : Disk β) (web : String → Option β) (d : String) (hd : d ∉ disk.folders) (hne : d ≠ "") (c : Call) :
    (step lib standard web disk (some d) c).1 = .error .noFolder ∧ (step lib standard web disk none c).1 ≠ .error .noFolder := by
  constructor
  · rw [step_eq, if_neg]
    simpa [prepared, homeOf, folder, hne] using hd
  · rw [step_eq, if_pos (by simp only [prepared, homeOf, folder]; split <;> simp_all)]
    cases hl : disk.files.lookup (folder standard none, c.file) with
    | some b =>
      dsimp only
      unfold fromFile readRows
      split
      · split
        · simp [Except.map]
        · split <;> simp [Except.map]
      · split <;> simp
    | none =>
      dsimp only
      cases web c.url with
      | none => simp
      | some b =>
        dsimp only
        unfold meaning transactions
        split
        · split
          · simp [Except.map]
          · split <;> simp [Except.map]
        · split <;> simp

/-- A bad answer of the server is kept: the call raises now, and every later call for these data raises the same exception though the server answers well. -/
theorem bad_answer_stays (lib : Lib β γ δ) (standard : String) (web : String → Option β) (base : Base) (name : String) (b : β) (hb : web (base.url ++ name) = some b) (e : Err) (he : meaning lib (.any base name) b = .error e)
    (hist : List (Call × Option String × (String → Option β))) (web' : String → Option β) :
    (step lib standard web ⟨[], []⟩ none (.any base name)).1 = .error e ∧ (step lib standard web' (run lib standard (step lib standard web ⟨[], []⟩ none (.any base name)).2 hist) none (.any base name)).1 = .error e := by
  have h1 : step lib standard web ⟨[], []⟩ none (.any base name) = (meaning lib (.any base name) b, ⟨[standard], [((standard, name), b)]⟩) := by
    simp [step, fetchAny, homeOf, hb, meaning, Call.origin, transactions_eq]
  rw [h1]
  obtain ⟨r1, r2⟩ := run_keeps lib standard hist (⟨[standard], [((standard, name), b)]⟩ : Disk β)
  refine ⟨he, ?_⟩
  rw [step_eq, if_pos (prepared_folders _ _ _ _ (r1 _ (by simp [folder]))), r2 (folder standard none, (Call.any base name).file) b (by simp [folder, Call.file])]
  dsimp only
  rw [← he]
  simp only [fromFile, meaning, Call.origin, transactions_eq]

/-! ### Concrete cases -/

/-- Contents are texts; a table is stored as it is, and its dates are not read. -/
def textLib : Lib String String String := ⟨fun s => some s.toList, fun s => some s.toList, fun _ s => some s, id, some, fun _ s => some s⟩

/-- The servers of a day, and a day without network. -/
def onDay (u : String) : Option String := if u = "http://fimi.uantwerpen.be/data/mushroom.dat" then some "2 3 9\n1 4\n" else some "7 8\n"

example : (step textLib "home" (fun _ => none) (run textLib "home" ⟨[], []⟩ [(.data .chess, none, onDay), (.data .mushroom, none, onDay), (.log .tv "canadian_tv.txt", none, onDay)]) none (.data .mushroom)).1.toOption =
    some (.rows [[2, 3, 9], [1, 4]]) := by decide +kernel

/-- The hypotheses of `fetch_again` hold in this case. -/
example (hist : List (Call × Option String × (String → Option String))) :
    (step textLib "home" (fun _ => none) (run textLib "home" (step textLib "home" onDay ⟨[], []⟩ none (.data .mushroom)).2 hist) none (.data .mushroom)).1 = .ok (.rows [[2, 3, 9], [1, 4]]) := by
  refine fetch_again textLib (fun _ => rfl) "home" _ (.data .mushroom) (.data .mushroom) none none onDay (fun _ => none) _ ?_ hist rfl rfl rfl
  have h : (step textLib "home" onDay ⟨[], []⟩ none (.data .mushroom)).1.toOption = some (.rows [[2, 3, 9], [1, 4]]) := by decide +kernel
  cases hr : (step textLib "home" onDay ⟨[], []⟩ none (.data .mushroom)).1 with
  | error e => rw [hr] at h; cases h
  | ok a => rw [hr] at h; rw [Option.some.inj h]

example : split .mushroom [[2, 3, 9], [1, 4]] = ([[3, 9], [4]], [some 0, some 1]) := by decide
example : split .iris [[2, 3, 17], [1, 4, 18]] = ([[2, 3], [1, 4]], [some 17, some 18]) := by decide

/-- The hypotheses of `fetch_right_partial` hold for the functions of the datasets. -/
example : NoMixing "home" [(.data .mushroom, none), (.data .chess, none), (.log .tv "canadian_tv.txt", some "")] :=
  named_never_mix _ _ (by intro x hx; simp at hx; rcases hx with rfl | rfl | rfl <;> simp [Call.Named])

end Verif.Fetch
