import Verif.Export.RepeatModel
import Verif.Export.NumpyProps
import Verif.Export.Lemmas

/-!
# Exporting again gives the same, and the patterns stay what they are (C147)
-/

set_option autoImplicit false
set_option linter.unusedSectionVars false

namespace Verif.Export

open Verif.Nodes

/-! ### The same dictionary again -/

theorem nset_same (d : NDict) (k : Key) (v : NVal) (h : d.lookup k = some v) : d.set k v = d := by
  induction d with
  | nil => cases h
  | cons x d ih =>
    obtain ⟨k', v'⟩ := x
    rw [NDict.set]
    by_cases e : k' = k
    · subst e
      rw [if_pos rfl]
      simp at h
      rw [h]
    · have e' : (k == k') = false := by simpa using fun h => e h.symm
      rw [if_neg e, ih (by rw [List.lookup_cons, e'] at h; exact h)]

theorem lookup_nset (d : NDict) (k k' : Key) (v : NVal) : (d.set k v).lookup k' = if k' = k then some v else d.lookup k' := by
  induction d with
  | nil =>
    by_cases e : k' = k
    · subst e; simp [NDict.set]
    · have e' : (k' == k) = false := by simpa using e
      rw [if_neg e, NDict.set, List.lookup_cons, e']
  | cons x d ih =>
    obtain ⟨a, w⟩ := x
    rw [NDict.set]
    by_cases ha : a = k
    · subst ha
      rw [if_pos rfl]
      by_cases e : k' = a
      · subst e; simp
      · have e' : (k' == a) = false := by simpa using e
        rw [if_neg e, List.lookup_cons, e', List.lookup_cons, e']
    · rw [if_neg ha, List.lookup_cons, List.lookup_cons, ih]
      by_cases e : k' = a
      · subst e; simp [ha]
      · have e' : (k' == a) = false := by simpa using e
        rw [e']

theorem lookup_changeD (d : NDict) (k : Key) : (changeD d).lookup k = (d.lookup k).map changeV := by
  induction d with
  | nil => rfl
  | cons x d ih =>
    obtain ⟨a, w⟩ := x
    rw [changeD, List.lookup_cons, List.lookup_cons, ih]
    cases k == a <;> rfl

theorem toInt_toInt (v : NVal) : toInt (toInt v) = toInt v := by cases v <;> rfl

theorem changeItem_changeItem (v : NVal) : changeItem (changeItem v) = changeItem v := by
  cases v <;> simp [changeItem, List.map_map, Function.comp_def, toInt_toInt]

mutual
theorem changeV_changeV : ∀ v : NVal, changeV (changeV v) = changeV v
  | .none => rfl
  | .int n => rfl
  | .np n => rfl
  | .list l => by simp [changeV, List.map_map, Function.comp_def, changeItem_changeItem]
  | .tup l => rfl
  | .dict d => by rw [changeV, changeV, changeD_changeD d]
theorem changeD_changeD : ∀ d : NDict, changeD (changeD d) = changeD d
  | [] => rfl
  | (k, v) :: d => by rw [changeD, changeD, changeV_changeV v, changeD_changeD d]
end

theorem changeV_ints (E : List Num) : changeV (.list (E.map (fun e => .int e.val))) = .list (E.map (fun e => .int e.val)) := by
  rw [changeV, List.map_map]
  rfl

/-- Exporting what was exported. -/
theorem exported_after (o : Obj) : o.after.exported = o.exported := by
  have h1 : ∀ k, o.exported.lookup k = _ := fun k => by
    unfold Obj.exported exportTreeN
    rw [lookup_changeD, lookup_nset, lookup_nset, lookup_nset]
  have hn : o.exported.set (.str "next_id".toList) (.int o.nextId) = o.exported := by
    refine nset_same _ _ _ ?_
    rw [h1]
    simp [changeV]
  have ht : o.exported.set (.str "t0".toList) (.int o.t0.val) = o.exported := by
    refine nset_same _ _ _ ?_
    rw [h1]
    simp [changeV]
  have hE : o.exported.set (.str "E".toList) (.list (o.E.map (fun e => .int e.val))) = o.exported := by
    refine nset_same _ _ _ ?_
    rw [h1, if_pos rfl, Option.map_some, changeV_ints]
  show changeD (((o.exported.set _ _).set _ _).set _ _) = _
  have : ((o.exported.set (.str "next_id".toList) (.int o.nextId)).set (.str "t0".toList) (.int o.t0.val)).set (.str "E".toList) (.list (o.E.map (fun e => .int e.val))) = o.exported := by rw [hn, ht, hE]
  exact (congrArg changeD this).trans (changeD_changeD _)

/-- C147, first part. Every call of `transform` or `export_patterns` outputs the same patterns as the first one. -/
theorem output_repeat (os : List Obj) (n : ℕ) : (output (calls n os)).1 = (output os).1 := by
  induction n generalizing os with
  | zero => rfl
  | succ n ih =>
    rw [calls, ih]
    simp only [output, List.map_map]
    exact List.map_congr_left (fun o _ => exported_after o)

/-! ### The nodes stay what they are -/

theorem node_read (x : Node ℕ) : readNode (encodeNode x) = some x := by
  have hc : ∀ ch : List (ℕ × ℤ), ch.mapM (readChild ∘ fun c => Val.tup [.int c.1, .int c.2]) = some ch := by
    intro ch
    rw [Miner.mapM_iff]
    apply List.map_congr_left
    intro c _
    simp [readChild]
  cases x with
  | leaf parent ev =>
    simp [encodeNode, readNode, List.lookup, key_beq, read_opt, readNat]
  | inner parent rp ch =>
    rcases rp with _ | ⟨r, p⟩
    · simp [encodeNode, readNode, List.lookup, key_beq, read_opt, hc]
    · simp [encodeNode, readNode, List.lookup, key_beq, read_opt, hc, readNat]

theorem lookup_exportTree (P : PatRec) (nid : ℕ) : (exportTree P).lookup (.int nid) = (P.nodes.lookup nid).map encodeNode := by
  rw [exportTree_eq]
  obtain ⟨ns, nx, t0, E⟩ := P
  show (encodeNodes ns ++ _).lookup _ = (ns.lookup nid).map encodeNode
  induction ns with
  | nil =>
    have e : ∀ t, (Key.int (nid : ℤ) == Key.str t) = false := fun t => by simp
    simp [encodeNodes, List.lookup, e]
  | cons x ns ih =>
    obtain ⟨a, w⟩ := x
    have e : encodeNodes ((a, w) :: ns) = (.int a, encodeNode w) :: encodeNodes ns := rfl
    rw [e, List.cons_append, List.lookup_cons, List.lookup_cons]
    by_cases h : nid = a
    · subst h; simp
    · have h1 : (nid == a) = false := by simpa using h
      have h2 : (Key.int (nid : ℤ) == Key.int (a : ℤ)) = false := by simpa using h
      rw [h1, h2]
      exact ih

theorem lookup_encodeNodes (ns : NodeDict ℕ) (nid : ℕ) : (encodeNodes ns).lookup (.int nid) = (ns.lookup nid).map encodeNode := by
  induction ns with
  | nil => rfl
  | cons x ns ih =>
    obtain ⟨a, w⟩ := x
    have e : encodeNodes ((a, w) :: ns) = (.int a, encodeNode w) :: encodeNodes ns := rfl
    rw [e, List.lookup_cons, List.lookup_cons]
    by_cases h : nid = a
    · subst h; simp
    · have h1 : (nid == a) = false := by simpa using h
      have h2 : (Key.int (nid : ℤ) == Key.int (a : ℤ)) = false := by simpa using h
      rw [h1, h2]
      exact ih

mutual
theorem treeOfD_eq (d : Dict) (ns : NodeDict ℕ) (h : ∀ nid : ℕ, d.lookup (.int nid) = (ns.lookup nid).map encodeNode) : ∀ (f nid : ℕ), treeOfD f d nid = treeOf f ns nid
  | 0, _ => rfl
  | f + 1, nid => by
    rw [treeOfD, treeOf, h]
    cases ns.lookup nid with
    | none => rfl
    | some x =>
      simp only [Option.map_some, Option.bind_some, node_read]
      rcases x with ⟨_, _⟩ | ⟨_, _ | ⟨r, p⟩, ch⟩
      · rfl
      · rfl
      · simp only [forestOfD_eq d ns h f ch]
theorem forestOfD_eq (d : Dict) (ns : NodeDict ℕ) (h : ∀ nid : ℕ, d.lookup (.int nid) = (ns.lookup nid).map encodeNode) : ∀ (f : ℕ) (ch : List (ℕ × ℤ)), forestOfD f d ch = forestOf f ns ch
  | 0, [] => rfl
  | 0, _ :: _ => rfl
  | _ + 1, [] => rfl
  | f + 1, (c, dist) :: rest => by
    rw [forestOfD, forestOf, treeOfD_eq d ns h f c, forestOfD_eq d ns h f rest]
    cases treeOf f ns c <;> cases forestOf f ns rest <;> rfl
end

/-- The object holds the pattern. -/
structure Obj.Holds (o : Obj) (P : PatRec) : Prop where
  nodes : forgetD o.nodes = encodeNodes P.nodes
  nextId : o.nextId = P.nextId
  t0 : o.t0.val = P.t0
  E : o.E.map Num.val = P.E

theorem calls_get (os : List Obj) (n : ℕ) : calls (n + 1) os = os.map Obj.after := by
  induction n generalizing os with
  | zero => rfl
  | succ n ih =>
    rw [calls, ih]
    simp only [output, List.map_map]
    refine List.map_congr_left (fun o _ => ?_)
    show ({ o.after with nodes := o.after.exported } : Obj) = o.after
    rw [exported_after]
    rfl

/-- C147, second part. After any number of calls, each pattern is read as before: the same tree from every node, hence the same occurrences, texts and code lengths, with the same first time and corrections. -/
theorem calls_keep (os : List Obj) (Ps : List PatRec) (h : List.Forall₂ Obj.Holds os Ps) (n : ℕ) :
    List.Forall₂ (fun o P => (∀ f nid, treeOfD f (forgetD o.nodes) nid = treeOf f P.nodes nid) ∧ o.nextId = P.nextId ∧ o.t0.val = P.t0 ∧ o.E.map Num.val = P.E) (calls n os) Ps := by
  cases n with
  | zero =>
    refine h.imp (fun o P hP => ⟨?_, hP.nextId, hP.t0, hP.E⟩)
    rw [hP.nodes]
    exact treeOfD_eq _ _ (lookup_encodeNodes P.nodes)
  | succ n =>
    rw [calls_get, List.forall₂_map_left_iff]
    refine h.imp (fun o P hP => ⟨?_, hP.nextId, hP.t0, hP.E⟩)
    have he : forgetD o.after.nodes = exportTree P := by
      have := (export_plain P o.nodes o.t0 o.E hP.nodes hP.t0 hP.E).2
      rw [← this, ← hP.nextId]
      rfl
    rw [he]
    exact treeOfD_eq _ _ (lookup_exportTree P)

/-- C147, third part. What is exported by the last of any number of calls is imported as the pattern. -/
theorem calls_import (os : List Obj) (Ps : List PatRec) (h : List.Forall₂ Obj.Holds os Ps) (hn : ∀ P ∈ Ps, (P.nodes.map Prod.fst).Nodup) (n : ℕ) :
    List.Forall₂ (fun d P => importVal (json (.dict (forgetD d))) = some P) (output (calls n os)).1 Ps := by
  rw [output_repeat]
  simp only [output]
  rw [List.forall₂_map_left_iff]
  induction h with
  | nil => exact .nil
  | @cons o P os Ps hP _ ih =>
    refine .cons ?_ (ih (fun Q hQ => hn Q (List.mem_cons_of_mem _ hQ)))
    have he : forgetD o.exported = exportTree P := by
      have := (export_plain P o.nodes o.t0 o.E hP.nodes hP.t0 hP.E).2
      rw [← this, ← hP.nextId]
      rfl
    obtain ⟨d, hd, hi⟩ := pattern_roundtrip P (hn P (List.mem_cons_self ..))
    rw [he, hd]
    exact hi

/-- The dictionary of the pattern does change: the keys `next_id`, `t0` and `E` stay in it. Here a pattern with numpy integers; the tree is the same. -/
example : ∃ (o : Obj) (P : PatRec), o.Holds P ∧ (P.nodes.map Prod.fst).Nodup ∧ o.after.nodes.length = o.nodes.length + 3 ∧
    treeOfD 9 (forgetD o.after.nodes) 0 = some (.node 3 10 (.cons 0 (.leaf 5) (.cons 4 (.leaf 6) .nil))) := by
  refine ⟨⟨[(.int 0, .dict [(.str "p".toList, .np 10), (.str "r".toList, .int 3), (.str "children".toList, .list [.tup [.int 1, .int 0], .tup [.int 2, .np 4]]), (.str "parent".toList, .none)]),
      (.int 1, .dict [(.str "event".toList, .int 5), (.str "parent".toList, .int 0)]), (.int 2, .dict [(.str "event".toList, .np 6), (.str "parent".toList, .int 0)])], 3, ⟨7, true⟩, [⟨0, true⟩, ⟨1, true⟩, ⟨0, false⟩, ⟨0, true⟩, ⟨-1, true⟩]⟩,
    ⟨[(0, .inner none (some (3, 10)) [(1, 0), (2, 4)]), (1, .leaf (some 0) 5), (2, .leaf (some 0) 6)], 3, 7, [0, 1, 0, 0, -1]⟩, ⟨rfl, rfl, rfl, rfl⟩, by decide, by decide, ?_⟩
  rfl

end Verif.Export
