import Verif.Draw.Read

/-!
# Drawings of patterns (C106)
-/

set_option autoImplicit false
set_option linter.unusedSectionVars false

namespace Verif.Draw

open Verif.Nodes Verif.Display Verif.Text

variable (clock : ℤ → List Char)

theorem showInt_line (x : ℤ) : '\n' ∉ showInt x := fun h => absurd (mem_showInt x _ h) (by decide)

theorem deltaText_line (x : ℤ) : '\n' ∉ deltaText x := by
  have hn : ∀ n, '\n' ∉ showNat n := fun n h => absurd (mem_showNat n _ h) (by decide)
  have hp : ∀ w n, '\n' ∉ pad w n := fun w n h => absurd (pad_mem w n _ h) (by decide)
  have hd : ∀ d, '\n' ∉ dayText d := by
    intro d
    unfold dayText
    split
    · simp
    · split <;> simp [showInt_line]
  have hf : ∀ f, '\n' ∉ fracText f := by
    intro f
    unfold fracText
    split <;> simp [hp]
  unfold deltaText
  simp [hn, hp, hd, hf]

theorem returns_unique {call : ℕ → Except String (List Stmt)} {L M : List Stmt} (h : Returns call L) (h' : Returns call M) : L = M := by
  obtain ⟨m, hm⟩ := h
  obtain ⟨n, hn⟩ := h'
  have := (hm (m + n) (by omega)).symm.trans (hn (m + n) (by omega))
  exact Except.ok.inj this

/-- C106: the picture of a pattern of the miner. Drawing it ends without error, and the drawing shows its tree in the unit of the data: one box per inner node with period and repetitions (and the start, at the root), one ellipse per leaf with the
name of its event, solid edges from each inner node to its children in order, a dotted edge with the distance from each child to the next one; and the drawing has no other names. -/
theorem drawing_shows (auto : Bool) (f : Fit) (ns : NodeDict ℕ) (t0 : ℤ) (t : NTree ℕ) (h : Drawable f ns t) :
    ∃ L, Returns (fun n => drawWith clock auto f n ns t0) L ∧ Shows (styleOf clock auto f) L (some (t0 * unitOf auto f)) [] (scaleN (unitOf auto f) t) ∧
      ∀ st ∈ L, ∀ n ∈ st.names, ∃ a ∈ t.ids, n = some a := by
  obtain ⟨T, hT, hr⟩ := h.regular
  obtain ⟨m, hm⟩ := drawWith_eq clock auto f (t0 := t0) h
  refine ⟨_, ⟨m, hm⟩, ?_, ?_⟩
  · exact stmts_shows _ _ _ _ _ (by rw [ids_scale]; exact h.describes.ids) (by simp [plain_scale, hT]) (fun x e => by cases e) (fun _ => rfl)
  · obtain ⟨rp, ch, rfl⟩ := h.describes.root
    intro st hst n hn
    simp only [scaleN, stmts, List.nil_append, List.mem_cons] at hst
    rcases hst with rfl | hst
    · simp only [Stmt.names, List.mem_singleton] at hn
      exact ⟨0, by simp [NTree.ids], hn⟩
    · rcases stmtsF_names _ _ _ _ st hst n hn with ⟨a, ha, e⟩ | e | ⟨c, hc, _⟩
      · exact ⟨a, by simp [NTree.ids, ← ids_scaleF (unitOf auto f) ch, ha], e⟩
      · exact ⟨0, by simp [NTree.ids], e⟩
      · cases hc

/-- Full statement (C106): a drawing determines the pattern: start, repetitions, periods, distances and names of events, in the unit of the data. Conditions: dates are printed differently and without line break (`clock`), and, for dates, all times
are whole numbers of microseconds. Missing: times with nanoseconds (`drawing_rounds`), where it is false. -/
theorem drawing_identifies_partial (hc : ∀ a b, clock a = clock b → a = b) (hl : ∀ a, '\n' ∉ clock a) (auto : Bool) (f f' : Fit) (hd : f.dates = f'.dates) (ns ns' : NodeDict ℕ) (t0 t0' : ℤ) (t t' : NTree ℕ) (h : Drawable f ns t)
    (h' : Drawable f' ns' t') (T T' : PTree.Tree ℕ) (hT : t.plain = some T) (hT' : t'.plain = some T') (hx : Over (fun _ => True) (Exact (auto && f.dates) (unitOf auto f)) T ∧ Exact (auto && f.dates) (unitOf auto f) t0)
    (hx' : Over (fun _ => True) (Exact (auto && f'.dates) (unitOf auto f')) T' ∧ Exact (auto && f'.dates) (unitOf auto f') t0') (L : List Stmt)
    (hn : Returns (fun n => drawWith clock auto f n ns t0) L) (hn' : Returns (fun n => drawWith clock auto f' n ns' t0') L) :
    t0 * unitOf auto f = t0' * unitOf auto f' ∧ named (fun ev => f.events.getD ev []) (scale (unitOf auto f) T) = named (fun ev => f'.events.getD ev []) (scale (unitOf auto f') T') := by
  obtain ⟨M, ⟨m, hm⟩, hs, -⟩ := drawing_shows clock auto f ns t0 t h
  obtain ⟨M', ⟨m', hm'⟩, hs', -⟩ := drawing_shows clock auto f' ns' t0' t' h'
  have e : M = L := returns_unique ⟨m, hm⟩ hn
  have e' : M' = L := returns_unique ⟨m', hm'⟩ hn'
  subst e
  subst e'
  obtain ⟨S, hS, hr⟩ := h.regular
  obtain ⟨S', hS', hr'⟩ := h'.regular
  cases hT.symm.trans hS
  cases hT'.symm.trans hS'
  have hs1 : Readable (styleOf clock auto f) (Exact (auto && f.dates) 1) := by
    refine ⟨fun x => ?_, fun x => ?_, fun x y hx hy e => timeText_inj _ 1 (by decide) x y hx hy e⟩
    · simp only [styleOf, timeText]
      split
      · exact deltaText_line _
      · exact showInt_line _
    · simp only [styleOf]
      split
      · exact hl _
      · exact showInt_line _
  have ha : Alike (styleOf clock auto f) (styleOf clock auto f') := ⟨by simp [styleOf, hd], by simp [styleOf, hd], by simp [styleOf, hd]⟩
  have hq : ∀ (g : Fit) (x : ℤ), Exact (auto && g.dates) (unitOf auto g) x → Exact (auto && g.dates) 1 (x * unitOf auto g) := fun g x hx hd => by
    rw [mul_one]
    exact hx hd
  have hz : t.id = t'.id := by
    rw [h.describes.zero_id, h'.describes.zero_id]
  have hid : (scaleN (unitOf auto f) t).id = (scaleN (unitOf auto f') t').id := by
    rw [scaleN_id, scaleN_id, hz]
  have p1 : (scaleN (unitOf auto f) t).plain = some (scale (unitOf auto f) T) := by rw [plain_scale, hT]; rfl
  have p2 : (scaleN (unitOf auto f') t').plain = some (scale (unitOf auto f') T') := by rw [plain_scale, hT']; rfl
  have o1 := over_unit (unitOf auto f) (Q' := Exact (auto && f.dates) 1) (hq f) T hx.1
  have o2 : Over (fun _ => True) (Exact (auto && f.dates) 1) (scale (unitOf auto f') T') := by
    rw [hd]
    exact over_unit (unitOf auto f') (hq f') T' hx'.1
  refine ⟨?_, read_tree hs1 ha _ _ _ _ (some (t0 * unitOf auto f)) (some (t0' * unitOf auto f')) _ _ p1 p2 (scale_regular _ _ hr) (scale_regular _ _ hr') o1 o2 hid rfl hs hs'⟩
  have key : (styleOf clock auto f).start (t0 * unitOf auto f) = (styleOf clock auto f).start (t0' * unitOf auto f') := by
    obtain ⟨rp, ch, rfl⟩ := h.describes.root
    obtain ⟨rp', ch', rfl⟩ := h'.describes.root
    cases rp with
    | none => simp [NTree.plain] at hT
    | some rp =>
      cases rp' with
      | none => simp [NTree.plain] at hT'
      | some rp' =>
        simp only [scaleN, Option.map_some] at hs hs'
        have e := hs.1.symm.trans hs'.1
        simp only [List.cons.injEq, Prod.mk.injEq, and_true] at e
        simp only [NTree.plain, Option.map_eq_some_iff] at hT hT'
        obtain ⟨F, _, rfl⟩ := hT
        obtain ⟨F', _, rfl⟩ := hT'
        exact (box_inj (t0 := some (t0 * unitOf auto f)) (t0' := some (t0' * unitOf auto f')) hs1 ha rfl o1.1 o2.1 e).2.2 _ _ rfl rfl
  simp only [styleOf] at key
  by_cases hdd : (auto && f.dates) = true
  · rw [if_pos hdd, if_pos hdd] at key
    have a1 := hx.2 hdd
    have a2 := hx'.2 (hd ▸ hdd)
    have := hc _ _ key
    rw [micro_whole _ a1, micro_whole _ a2] at this
    omega
  · rw [if_neg hdd, if_neg hdd] at key
    exact Text.showInt_injective _ _ key

/-! ### The miner -/

/-- Full statement (C106): `draw_pattern(i)` draws the pattern of row `i` of the table that the last call of `transform` returned, with the names and the unit of its data, and raises when there is no such row. Proved when the last `fit` was followed
by `transform` and found patterns, whatever happened before. Missing: a later `fit`, or a `transform` without patterns (`draws_old_table`), where it is false. -/
theorem draw_after_transform_partial (o : Obj) (f : Fit) (hne : f.mined ≠ []) (i : ℕ) :
    (∀ ns t0 t, f.mined[i]? = some (ns, t0) → Drawable f ns t → ∃ L, Returns (fun n => ((o.doFit f).transform).draw clock n i) L ∧
      Shows (styleOf clock o.auto f) L (some (t0 * unitOf o.auto f)) [] (scaleN (unitOf o.auto f) t) ∧ ∀ st ∈ L, ∀ n ∈ st.names, ∃ a ∈ t.ids, n = some a) ∧
    (f.mined.length ≤ i → ∀ n, ((o.doFit f).transform).draw clock n i = .error "KeyError") := by
  have he : f.mined.isEmpty = false := by simpa using hne
  constructor
  · intro ns t0 t hi h
    obtain ⟨L, hL, h2⟩ := drawing_shows clock o.auto f ns t0 t h
    refine ⟨L, ?_, h2⟩
    have : (fun n => ((o.doFit f).transform).draw clock n i) = fun n => drawWith clock o.auto f n ns t0 := by
      funext n
      simp [Obj.doFit, Obj.transform, he, Obj.draw, hi]
    rw [this]
    exact hL
  · intro hi n
    simp [Obj.doFit, Obj.transform, he, Obj.draw, List.getElem?_eq_none hi]

/-- C106: before the first `transform` there is an error. -/
theorem draw_before_transform (auto : Bool) (fs : List Fit) (n i : ℕ) : (fs.foldl Obj.doFit (Obj.new auto)).draw clock n i = .error "AttributeError" := by
  have h : ∀ (fs : List Fit) (o : Obj), o.cycles = none → (fs.foldl Obj.doFit o).cycles = none := by
    intro fs
    induction fs with
    | nil => exact fun o h => h
    | cons f fs ih => exact fun o h => ih _ h
  have hc := h fs (Obj.new auto) rfl
  unfold Obj.draw
  rw [hc]
  split <;> simp_all

/-! ### Concrete cases -/

/-- A pattern with a nested cycle: the event 0, and 30 units later the events 1 and 2, two units apart, three times every 10 units; all that 7 times every 1440 units. -/
def dayTree : NTree ℕ := .node 0 (some (7, 1440)) (.cons 0 (.leaf 1 0) (.cons 30 (.node 2 (some (3, 10)) (.cons 0 (.leaf 3 1) (.cons 2 (.leaf 4 2) .nil))) .nil))

/-- Its nodes. -/
def dayNodes : NodeDict ℕ := dayTree.entries none

/-- Dates, in minutes. -/
def dayFit : Fit := ⟨true, 60000000000, ["wake up".toList, "tea".toList, "toast".toList], [(dayNodes, 28000000)]⟩

theorem dayNodes_drawable (f : Fit) (h : 3 ≤ f.events.length) : Drawable f dayNodes dayTree :=
  ⟨⟨by decide, by decide, fun x => Iff.rfl, _, _, rfl⟩, ⟨_, rfl, by simp [PTree.Tree.Regular, PTree.Forest.Regular, PTree.Forest.NonEmpty, PTree.Forest.firstDist]⟩, by simp only [dayTree, EventsBelow, EventsBelowF]; exact ⟨by omega, ⟨by omega, by omega, trivial⟩, trivial⟩⟩

example : (((Obj.new true).doFit dayFit).transform.draw (fun _ => "2023-03-28".toList) 9 0).toOption = some [
    .node 0 "𝜏=2023-03-28\np=1 day, 0:00:00\nr=7".toList true,
    .node 1 "wake up".toList false, .edge (some 0) 1 none,
    .node 2 "p=0:10:00\nr=3".toList true, .edge (some 0) 2 none, .edge (some 1) 2 (some "0:30:00".toList),
    .node 3 "tea".toList false, .edge (some 2) 3 none,
    .node 4 "toast".toList false, .edge (some 2) 4 none, .edge (some 3) 4 (some "0:02:00".toList)] := by decide +kernel

/-- Integer times with a common factor 5: the drawing is in the unit of the data (unlike the column `pattern`, C104). -/
example : (drawWith (fun _ => []) true ⟨false, 5, dayFit.events, []⟩ 9 dayNodes 2).toOption = some [
    .node 0 "𝜏=10\np=7200\nr=7".toList true,
    .node 1 "wake up".toList false, .edge (some 0) 1 none,
    .node 2 "p=50\nr=3".toList true, .edge (some 0) 2 none, .edge (some 1) 2 (some "150".toList),
    .node 3 "tea".toList false, .edge (some 2) 3 none,
    .node 4 "toast".toList false, .edge (some 2) 4 none, .edge (some 3) 4 (some "10".toList)] := by decide +kernel

example : Over (fun _ => True) (Exact (true && dayFit.dates) (unitOf true dayFit)) (.node 7 1440 (.cons 0 (.leaf 0) (.cons 30 (.node 3 10 (.cons 0 (.leaf 1) (.cons 2 (.leaf 2) .nil))) .nil))) ∧
    Exact (true && dayFit.dates) (unitOf true dayFit) 28000000 := by
  simp [Over, OverF, Exact, dayFit, unitOf]

/-- C106 is false after another `fit`: the drawing is that of a pattern of the first data, with names and unit of the second; also when the second `fit` is followed by a `transform` that returns an empty table. -/
theorem draws_old_table : ∃ (f g : Fit) (L : List Stmt), f.mined ≠ [] ∧ g.mined = [] ∧ (∀ e ∈ f.events, e ∉ g.events) ∧ Returns (fun n => ((((Obj.new true).doFit f).transform.doFit g).transform).draw clock n 0) L ∧
    Returns (fun n => (((Obj.new true).doFit f).transform.doFit g).draw clock n 0) L ∧ labels L 1 = [("rain".toList, false)] ∧ "rain".toList ∈ g.events := by
  obtain ⟨L, hL, hs, -⟩ := drawing_shows clock true ⟨false, 1, ["rain".toList, "sun".toList, "snow".toList], []⟩ dayNodes 28000000 dayTree (dayNodes_drawable _ (by decide))
  simp only [dayTree, scaleN, scaleNF, Shows, ShowsF, Option.map_some] at hs
  refine ⟨dayFit, ⟨false, 1, ["rain".toList, "sun".toList, "snow".toList], []⟩, L, by simp [dayFit], rfl, by decide, ?_, ?_, hs.2.2.2.1.1, by decide⟩
  · exact hL
  · exact hL

/-- C106 is false for dates with nanoseconds: periods of one and of two nanoseconds give the same drawing. -/
theorem drawing_rounds : ∃ (f : Fit) (ns ns' : NodeDict ℕ) (t t' : NTree ℕ), Drawable f ns t ∧ Drawable f ns' t' ∧ t.plain ≠ t'.plain ∧ unitOf true f = 1 ∧ ∃ L, Returns (fun n => drawWith clock true f n ns 0) L ∧
    Returns (fun n => drawWith clock true f n ns' 0) L := by
  have good : ∀ p : ℤ, Drawable ⟨true, 1, ["a".toList], []⟩ ((NTree.node 0 (some (3, p)) (.cons 0 (.leaf 1 0) .nil)).entries none) (.node 0 (some (3, p)) (.cons 0 (.leaf 1 0) .nil)) := fun p =>
    ⟨⟨by simp [NTree.entries, NForest.entries, NForest.kids], by simp [NTree.ids, NForest.ids], fun x => Iff.rfl, _, _, rfl⟩, ⟨_, rfl, by simp [PTree.Tree.Regular, PTree.Forest.Regular, PTree.Forest.NonEmpty, PTree.Forest.firstDist]⟩,
      by simp [EventsBelow, EventsBelowF]⟩
  obtain ⟨m, hm⟩ := drawWith_eq clock true ⟨true, 1, ["a".toList], []⟩ (t0 := 0) (good 1)
  obtain ⟨m', hm'⟩ := drawWith_eq clock true ⟨true, 1, ["a".toList], []⟩ (t0 := 0) (good 2)
  exact ⟨_, _, _, _, _, good 1, good 2, by simp [NTree.plain, NForest.plain], rfl, _, ⟨m, hm⟩, ⟨m', hm'⟩⟩

end Verif.Draw
