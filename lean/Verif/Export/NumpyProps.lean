import Verif.Export.NumpySpec

/-!
# Exported patterns contain only plain integers (C145)
-/

set_option autoImplicit false
set_option linter.unusedSectionVars false

namespace Verif.Export

open Verif.Nodes

/-! ### Nothing but types changes -/

theorem forget_toInt (v : NVal) : forget (toInt v) = forget v := by
  cases v <;> simp [toInt, forget]

theorem forgetL_map {f : NVal → NVal} (l : List NVal) (h : ∀ v ∈ l, forget (f v) = forget v) : forgetL (l.map f) = forgetL l := by
  induction l with
  | nil => rfl
  | cons v l ih =>
    simp only [List.map_cons, forgetL]
    rw [h v (by simp), ih (fun w hw => h w (List.mem_cons_of_mem _ hw))]

theorem forget_changeItem (v : NVal) : forget (changeItem v) = forget v := by
  cases v <;> simp only [changeItem, forget]
  · rw [forgetL_map _ (fun w _ => forget_toInt w)]
  · rw [forgetL_map _ (fun w _ => forget_toInt w)]

mutual
theorem forget_changeV : ∀ v : NVal, forget (changeV v) = forget v
  | .dict d => by rw [changeV, forget, forget, forget_changeD d]
  | .list l => by rw [changeV, forget, forget, forgetL_map _ (fun w _ => forget_changeItem w)]
  | .tup l => by rw [changeV]
  | .np n => by rw [changeV, forget, forget]
  | .int n => by simp [changeV]
  | .none => by simp [changeV]
theorem forget_changeD : ∀ d : NDict, forgetD (changeD d) = forgetD d
  | [] => by rw [changeD]
  | (k, v) :: d => by rw [changeD, forgetD, forgetD, forget_changeV v, forget_changeD d]
end

theorem forgetD_set (d : NDict) (k : Key) (v : NVal) : forgetD (d.set k v) = (forgetD d).set k (forget v) := by
  induction d with
  | nil => rfl
  | cons x d ih =>
    obtain ⟨k', v'⟩ := x
    simp only [NDict.set, forgetD, Dict.set]
    split
    · rfl
    · simp only [forgetD, ih]

theorem forgetL_int {β : Type} (f : β → ℤ) (l : List β) : forgetL (l.map (fun e => .int (f e))) = l.map (fun e => .int (f e)) := by
  induction l with
  | nil => rfl
  | cons a l ih => simp only [List.map_cons, forgetL, forget, ih]

/-! ### What is converted -/

/-- A number. -/
def IsNum : Val → Prop
  | .int _ => True
  | .none => True
  | _ => False

/-- A list of tuples of numbers. -/
def Rows : Val → Prop
  | .list l => ∀ x ∈ l, ∃ m, x = .tup m ∧ ∀ y ∈ m, IsNum y
  | v => IsNum v

theorem plainL_of {l : List NVal} (h : ∀ v ∈ l, Plain v) : PlainL l := by
  induction l with
  | nil => exact .nil
  | cons v l ih => exact .cons _ _ (h v (by simp)) (ih (fun w hw => h w (List.mem_cons_of_mem _ hw)))

theorem plainD_of {d : NDict} (h : ∀ x ∈ d, Plain x.2) : PlainD d := by
  induction d with
  | nil => exact .nil
  | cons v l ih => exact .cons _ _ _ (h v (by simp)) (ih (fun w hw => h w (List.mem_cons_of_mem _ hw)))

theorem forgetL_eq (l : List NVal) : forgetL l = l.map forget := by
  induction l with
  | nil => rfl
  | cons v l ih => simp only [forgetL, List.map_cons, ih]

theorem forgetD_eq (d : NDict) : forgetD d = d.map (fun x => (x.1, forget x.2)) := by
  induction d with
  | nil => rfl
  | cons v l ih => simp only [forgetD, List.map_cons, ih]

theorem changeD_eq (d : NDict) : changeD d = d.map (fun x => (x.1, changeV x.2)) := by
  induction d with
  | nil => rfl
  | cons v l ih => simp only [changeD, List.map_cons, ih]

theorem plain_toInt (v : NVal) (h : IsNum (forget v)) : Plain (toInt v) := by
  cases v <;> simp_all [forget, IsNum, toInt]
  · exact .none
  · exact .int _
  · exact .int _

theorem plain_changeV_rows (v : NVal) (h : Rows (forget v)) : Plain (changeV v) := by
  cases v with
  | none => simp only [changeV]; exact .none
  | int n => simp only [changeV]; exact .int _
  | np n => simp only [changeV]; exact .int _
  | dict d => simp [forget, Rows, IsNum] at h
  | tup d => simp [forget, Rows, IsNum] at h
  | list l =>
    simp only [changeV]
    refine .list _ (plainL_of ?_)
    intro x hx
    obtain ⟨w, hw, rfl⟩ := List.mem_map.1 hx
    simp only [forget, Rows, forgetL_eq] at h
    obtain ⟨m, hm, hn⟩ := h _ (List.mem_map_of_mem hw)
    cases w <;> simp only [forget, reduceCtorEq, Val.tup.injEq] at hm
    rename_i l'
    simp only [changeItem]
    refine .tup _ (plainL_of ?_)
    intro y hy
    obtain ⟨z, hz, rfl⟩ := List.mem_map.1 hy
    refine plain_toInt z (hn _ ?_)
    rw [← hm, forgetL_eq]
    exact List.mem_map_of_mem hz

theorem encodeNode_rows (n : Node ℕ) : ∃ d, encodeNode n = .dict d ∧ ∀ x ∈ d, Rows x.2 := by
  have hopt : ∀ o, Rows (optVal o) := by intro o; cases o <;> trivial
  have hch : ∀ ch : List (ℕ × ℤ), Rows (.list (ch.map (fun c => .tup [.int c.1, .int c.2]))) := by
    intro ch x hx
    obtain ⟨c, -, rfl⟩ := List.mem_map.1 hx
    refine ⟨_, rfl, ?_⟩
    intro y hy
    simp only [List.mem_cons, List.not_mem_nil, or_false] at hy
    rcases hy with rfl | rfl <;> trivial
  cases n with
  | leaf parent ev =>
    refine ⟨_, rfl, ?_⟩
    intro x hx
    simp only [List.mem_cons, List.not_mem_nil, or_false] at hx
    rcases hx with rfl | rfl
    · trivial
    · exact hopt _
  | inner parent rp ch =>
    cases rp with
    | none =>
      refine ⟨_, rfl, ?_⟩
      intro x hx
      simp only [List.mem_cons, List.not_mem_nil, or_false] at hx
      rcases hx with rfl | rfl
      · exact hch ch
      · exact hopt _
    | some q =>
      obtain ⟨r, p⟩ := q
      refine ⟨_, rfl, ?_⟩
      intro x hx
      simp only [List.mem_cons, List.not_mem_nil, or_false] at hx
      rcases hx with rfl | rfl | rfl | rfl
      · trivial
      · trivial
      · exact hch ch
      · exact hopt _

/-- The value of a node of a pattern becomes plain. -/
theorem plain_changeV_node (v : NVal) (n : Node ℕ) (h : forget v = encodeNode n) : Plain (changeV v) := by
  obtain ⟨d, hd, hr⟩ := encodeNode_rows n
  rw [hd] at h
  cases v <;> simp only [forget, reduceCtorEq, Val.dict.injEq] at h
  rename_i d'
  simp only [changeV]
  refine .dict _ (plainD_of ?_)
  intro x hx
  rw [changeD_eq] at hx
  obtain ⟨w, hw, rfl⟩ := List.mem_map.1 hx
  refine plain_changeV_rows _ ?_
  have := hr (w.1, forget w.2) (by rw [← h, forgetD_eq]; exact List.mem_map_of_mem (f := fun x => (x.1, forget x.2)) hw)
  exact this

theorem mem_nset {d : NDict} {k : Key} {v : NVal} {x : Key × NVal} (h : x ∈ d.set k v) : x = (k, v) ∨ x ∈ d := by
  induction d with
  | nil => simp [NDict.set] at h; exact .inl h
  | cons y d ih =>
    obtain ⟨k', v'⟩ := y
    simp only [NDict.set] at h
    split at h
    · rcases List.mem_cons.1 h with h | h
      · exact .inl h
      · exact .inr (List.mem_cons_of_mem _ h)
    · rcases List.mem_cons.1 h with h | h
      · exact .inr (by rw [h]; simp)
      · rcases ih h with h | h
        · exact .inl h
        · exact .inr (List.mem_cons_of_mem _ h)

/-- C145. Let a pattern hold any mixture of Python and numpy integers: repetitions, periods, distances, events and parents in the dictionaries of its nodes, the first time and the corrections. What `export_patterns` passes to `json.dumps` contains
no numpy integer, so that it is written, and it is the dictionary of the pattern (C37) with the same numbers. -/
theorem export_plain (P : PatRec) (nodes : NDict) (t0 : Num) (E : List Num) (hn : forgetD nodes = encodeNodes P.nodes) (ht : t0.val = P.t0) (hE : E.map Num.val = P.E) :
    Plain (.dict (exportTreeN nodes P.nextId t0 E)) ∧ forgetD (exportTreeN nodes P.nextId t0 E) = exportTree P := by
  constructor
  · unfold exportTreeN
    refine .dict _ (plainD_of ?_)
    intro x hx
    rw [changeD_eq] at hx
    obtain ⟨w, hw, rfl⟩ := List.mem_map.1 hx
    rcases mem_nset hw with rfl | hw
    · show Plain (changeV _)
      rw [changeV]
      refine .list _ (plainL_of ?_)
      intro y hy
      simp only [List.map_map, List.mem_map, Function.comp] at hy
      obtain ⟨e, -, rfl⟩ := hy
      exact .int _
    rcases mem_nset hw with rfl | hw
    · simp only [changeV]; exact .int _
    rcases mem_nset hw with rfl | hw
    · simp only [changeV]; exact .int _
    have h1 : (w.1, forget w.2) ∈ encodeNodes P.nodes := by
      rw [← hn, forgetD_eq]
      exact List.mem_map_of_mem (f := fun x => (x.1, forget x.2)) hw
    obtain ⟨n, -, h2⟩ := List.mem_map.1 h1
    exact plain_changeV_node w.2 n.2 (congrArg Prod.snd h2).symm
  · unfold exportTreeN exportTree
    rw [forget_changeD, forgetD_set, forgetD_set, forgetD_set, hn]
    simp only [forget, ht]
    rw [forgetL_int, ← hE, List.map_map]
    rfl

/-- A pattern as the miner makes it: numpy integers as period, distances, first time and corrections. -/
example : ∃ (P : PatRec) (nodes : NDict) (t0 : Num) (E : List Num), forgetD nodes = encodeNodes P.nodes ∧ t0.val = P.t0 ∧ E.map Num.val = P.E ∧ ¬ Plain (.dict nodes) := by
  refine ⟨⟨[(0, .inner none (some (3, 10)) [(1, 0), (2, 4)]), (1, .leaf (some 0) 5), (2, .leaf (some 0) 6)], 3, 7, [0, 1, 0, 0, -1]⟩,
    [(.int 0, .dict [(.str "p".toList, .np 10), (.str "r".toList, .int 3), (.str "children".toList, .list [.tup [.int 1, .int 0], .tup [.int 2, .np 4]]), (.str "parent".toList, .none)]),
      (.int 1, .dict [(.str "event".toList, .int 5), (.str "parent".toList, .int 0)]), (.int 2, .dict [(.str "event".toList, .np 6), (.str "parent".toList, .int 0)])],
    ⟨7, true⟩, [⟨0, true⟩, ⟨1, true⟩, ⟨0, false⟩, ⟨0, true⟩, ⟨-1, true⟩], rfl, rfl, rfl, ?_⟩
  intro h
  cases h with
  | dict d h => cases h with
    | cons k v d h _ => cases h with
      | dict d h => cases h with
        | cons k v d h _ => cases h

/-- The conversion alone is not enough: numpy integers that stand in a list that is a value of the dictionary stay. This is why the corrections are converted before. -/
example : changeD [(.str "E".toList, .list [.np 1])] = [(.str "E".toList, .list [.np 1])] := by
  simp [changeD, changeV, changeItem]

end Verif.Export
