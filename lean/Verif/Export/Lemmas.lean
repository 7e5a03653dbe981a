import Verif.Export.Model
import Verif.Miner.Lemmas

set_option autoImplicit false
set_option linter.unusedSectionVars false

namespace Verif.Export

open Verif.Nodes Verif.Text Verif.Miner Verif.DataSeq Verif.TimeScale

/-- The keys of a dictionary. -/
abbrev keys (d : Dict) : List Key := d.map Prod.fst

theorem set_fresh (d : Dict) (k : Key) (v : Val) (h : k ∉ keys d) : d.set k v = d ++ [(k, v)] := by
  induction d with
  | nil => rfl
  | cons x d ih =>
    obtain ⟨k', v'⟩ := x
    simp only [keys, List.map_cons, List.mem_cons, not_or] at h
    rw [Dict.set, if_neg (fun e => h.1 e.symm), ih h.2]
    rfl

theorem jsonD_fresh (d acc : Dict) (h : (keys acc ++ d.map (fun x => Key.str (keyText x.1))).Nodup) :
    jsonD acc d = acc ++ d.map (fun x => (.str (keyText x.1), json x.2)) := by
  induction d generalizing acc with
  | nil => simp [jsonD]
  | cons x d ih =>
    obtain ⟨k, v⟩ := x
    rw [List.map_cons] at h
    have hf : Key.str (keyText k) ∉ keys acc := by
      rw [List.nodup_append] at h
      intro hc
      exact h.2.2 _ hc _ (by simp) rfl
    rw [jsonD, set_fresh _ _ _ hf, ih]
    · simp
    · simpa [keys] using h

theorem iterD_fresh (d acc : Dict) (h : (keys acc ++ d.map (fun x => intKey x.1)).Nodup) :
    iterD acc d = acc ++ d.map (fun x => (intKey x.1, iterV x.2)) := by
  induction d generalizing acc with
  | nil => simp [iterD]
  | cons x d ih =>
    obtain ⟨k, v⟩ := x
    rw [List.map_cons] at h
    have hf : intKey k ∉ keys acc := by
      rw [List.nodup_append] at h
      intro hc
      exact h.2.2 _ hc _ (by simp) rfl
    rw [iterD, set_fresh _ _ _ hf, ih]
    · simp
    · simpa [keys] using h

theorem pop_append (L R : Dict) (k : Key) (v : Val) (h : k ∉ keys L) : Dict.pop (L ++ (k, v) :: R) k = some (v, L ++ R) := by
  induction L with
  | nil => simp [Dict.pop]
  | cons x L ih =>
    obtain ⟨k', v'⟩ := x
    simp only [keys, List.map_cons, List.mem_cons, not_or] at h
    rw [List.cons_append, Dict.pop, if_neg (fun e => h.1 e.symm), ih h.2]
    rfl

theorem jsonL_map (l : List (ℕ × ℤ)) : jsonL (l.map (fun c => Val.tup [.int c.1, .int c.2])) = l.map (fun c => .list [.int c.1, .int c.2]) := by
  induction l with
  | nil => rfl
  | cons a l ih => rw [List.map_cons, jsonL, ih]; rfl

theorem iterL_map (l : List (ℕ × ℤ)) : iterL (l.map (fun c => Val.list [.int c.1, .int c.2])) = l.map (fun c => .list [.int c.1, .int c.2]) := by
  induction l with
  | nil => rfl
  | cons a l ih =>
    rw [List.map_cons, iterL, ih]
    intro d h; cases h

theorem jsonL_ints (l : List ℤ) : jsonL (l.map Val.int) = l.map Val.int := by
  induction l with
  | nil => rfl
  | cons a l ih => rw [List.map_cons, jsonL, ih]; rfl

theorem readChildren (l : List (ℕ × ℤ)) : l.mapM (readChild ∘ fun c => Val.list [.int c.1, .int c.2]) = some l := by
  rw [mapM_iff]
  apply List.map_congr_left
  intro c _
  simp [readChild]

theorem readInts_ok (l : List ℤ) : readInts (.list (l.map Val.int)) = some l := by
  unfold readInts
  rw [mapM_iff, List.map_map]
  apply List.map_congr_left
  intro c _
  rfl

theorem json_opt (o : Option ℕ) : iterV (json (optVal o)) = optVal o := by cases o <;> rfl

theorem read_opt (o : Option ℕ) : readOpt (optVal o) = some o := by
  cases o with
  | none => rfl
  | some n => simp [optVal, readOpt]

theorem key_beq (a b : Str) : (Key.str a == Key.str b) = decide (a = b) := by
  by_cases h : a = b
  · simp [h]
  · simp [h]

/-- A node survives. -/
theorem node_roundtrip (x : Node ℕ) : readNode (iterV (json (encodeNode x))) = some x := by
  have kp : parseInt ['e', 'v', 'e', 'n', 't'] = none ∧ parseInt ['p', 'a', 'r', 'e', 'n', 't'] = none ∧ parseInt ['c', 'h', 'i', 'l', 'd', 'r', 'e', 'n'] = none ∧ parseInt ['p'] = none ∧ parseInt ['r'] = none := by decide
  obtain ⟨k1, k2, k3, k4, k5⟩ := kp
  cases x with
  | leaf parent ev =>
    have e : iterV (json (encodeNode (.leaf parent ev))) = .dict [(.str "event".toList, .int ev), (.str "parent".toList, optVal parent)] := by
      rw [encodeNode, json, jsonD_fresh _ _ (by simp [keyText]), iterV, iterD_fresh _ _ (by simp [keyText, intKey, k1, k2])]
      simp [keyText, intKey, k1, k2, json, iterV, json_opt]
    rw [e, readNode]
    simp [List.lookup, key_beq, read_opt, readNat]
  | inner parent rp ch =>
    cases rp with
    | none =>
      have e : iterV (json (encodeNode (.inner parent none ch))) = .dict [(.str "children".toList, .list (ch.map (fun c => .list [.int c.1, .int c.2]))), (.str "parent".toList, optVal parent)] := by
        rw [encodeNode, json, jsonD_fresh _ _ (by simp [keyText]), iterV, iterD_fresh _ _ (by simp [keyText, intKey, k2, k3])]
        simp [keyText, intKey, k2, k3, json, iterV, json_opt, jsonL_map, iterL_map]
      rw [e, readNode]
      simp [List.lookup, key_beq, read_opt, readChildren]
    | some rp =>
      obtain ⟨r, p⟩ := rp
      have e : iterV (json (encodeNode (.inner parent (some (r, p)) ch))) = .dict [(.str "p".toList, .int p), (.str "r".toList, .int r), (.str "children".toList, .list (ch.map (fun c => .list [.int c.1, .int c.2]))), (.str "parent".toList, optVal parent)] := by
        rw [encodeNode, json, jsonD_fresh _ _ (by simp [keyText]), iterV, iterD_fresh _ _ (by simp [keyText, intKey, k2, k3, k4, k5])]
        simp [keyText, intKey, k2, k3, k4, k5, json, iterV, json_opt, jsonL_map, iterL_map]
      rw [e, readNode]
      simp [List.lookup, key_beq, read_opt, readChildren, readNat]

theorem showInt_ne (n : ℤ) (s : Str) (h : parseInt s = none) : showInt n ≠ s := by
  intro e
  rw [← e, parseInt_showInt] at h
  cases h

/-- The exported dictionary: the nodes, then the three additional entries. -/
theorem exportTree_eq (P : PatRec) : exportTree P = encodeNodes P.nodes ++ [(.str "next_id".toList, .int P.nextId), (.str "t0".toList, .int P.t0), (.str "E".toList, .list (P.E.map .int))] := by
  have hk : ∀ s, Key.str s ∉ keys (encodeNodes P.nodes) := by
    intro s h
    simp [keys, encodeNodes] at h
  unfold exportTree
  rw [set_fresh _ _ _ (hk _)]
  rw [set_fresh _ (.str "t0".toList) _ (by simp [encodeNodes])]
  rw [set_fresh _ (.str "E".toList) _ (by simp [encodeNodes])]
  simp

/-- A pattern survives export and import. -/
theorem pattern_roundtrip (P : PatRec) (hn : (P.nodes.map Prod.fst).Nodup) : ∃ d, json (.dict (exportTree P)) = .dict d ∧ importPattern d = some P := by
  have kp : parseInt "next_id".toList = none ∧ parseInt "t0".toList = none ∧ parseInt "E".toList = none := by decide
  obtain ⟨k1, k2, k3⟩ := kp
  obtain ⟨L, hL⟩ : ∃ L : Dict, L = P.nodes.map (fun x => (.str (showInt x.1), json (encodeNode x.2))) := ⟨_, rfl⟩
  have hkL : ∀ s, parseInt s = none → Key.str s ∉ keys L := by
    intro s hs h
    rw [hL] at h
    simp only [keys, List.map_map, List.mem_map, Function.comp_apply, Key.str.injEq] at h
    obtain ⟨x, _, hx⟩ := h
    exact showInt_ne _ _ hs hx
  have hjson : json (.dict (exportTree P)) = .dict (L ++ [(.str "next_id".toList, .int P.nextId), (.str "t0".toList, .int P.t0), (.str "E".toList, .list (P.E.map .int))]) := by
    rw [json, exportTree_eq, jsonD_fresh]
    · congr 1
      simp only [List.nil_append, List.map_append, encodeNodes, List.map_map, hL]
      congr 1
      simp [keyText, json, jsonL_ints]
    · simp only [keys, List.map_nil, List.nil_append, List.map_append, encodeNodes, List.map_map]
      rw [List.nodup_append]
      refine ⟨?_, by simp [keyText], ?_⟩
      · have : (P.nodes.map ((fun x : Key × Val => Key.str (keyText x.1)) ∘ fun x : ℕ × Node ℕ => (Key.int x.1, encodeNode x.2))) = (P.nodes.map Prod.fst).map (fun n : ℕ => Key.str (showInt n)) := by
          rw [List.map_map]; rfl
        rw [this]
        refine hn.map ?_
        intro a b h
        have := showInt_injective _ _ (Key.str.inj h)
        exact_mod_cast this
      · intro a ha b hb hab
        subst hab
        obtain ⟨x, _, rfl⟩ := List.mem_map.mp ha
        simp only [Function.comp_apply, keyText, List.map_cons, List.map_nil, List.mem_cons, List.not_mem_nil, or_false, Key.str.injEq] at hb
        rcases hb with h | h | h
        · exact showInt_ne _ _ k1 h
        · exact showInt_ne _ _ k2 h
        · exact showInt_ne _ _ k3 h
  refine ⟨_, hjson, ?_⟩
  unfold importPattern
  rw [pop_append _ _ _ _ (hkL _ k1), Option.bind_some]
  simp only
  rw [pop_append _ _ _ _ (hkL _ k2), Option.bind_some]
  simp only
  rw [pop_append _ _ _ _ (hkL _ k3), Option.bind_some]
  simp only [List.append_nil]
  have hit : iterD [] L = P.nodes.map (fun x => (.int x.1, iterV (json (encodeNode x.2)))) := by
    rw [iterD_fresh]
    · rw [List.nil_append, hL, List.map_map]
      apply List.map_congr_left
      intro x _
      simp [intKey, parseInt_showInt]
    · simp only [keys, List.map_nil, List.nil_append, hL, List.map_map]
      have : (P.nodes.map ((fun x : Key × Val => intKey x.1) ∘ fun x : ℕ × Node ℕ => (Key.str (showInt x.1), json (encodeNode x.2)))) = (P.nodes.map Prod.fst).map (fun n : ℕ => Key.int n) := by
        rw [List.map_map]
        apply List.map_congr_left
        intro x _
        simp [intKey, parseInt_showInt]
      rw [this]
      refine hn.map ?_
      intro a b h
      exact_mod_cast Key.int.inj h
  have hread : readNodes (iterD [] L) = some P.nodes := by
    unfold readNodes
    rw [hit, mapM_iff, List.map_map]
    apply List.map_congr_left
    intro x _
    simp [node_roundtrip]
  rw [hread, readInts_ok]
  simp [readNat]

variable {ε σ : Type} [LinearOrder ε] [LinearOrder σ]

/-- Renaming the events by an increasing function renames them in the data sequence. -/
theorem ofDict_rename (name : ε → σ) (hname : StrictMono name) (tmp : List (ε × List ℤ)) (hn : (tmp.map Prod.fst).Nodup) (hne : ∀ q ∈ tmp, q.2 ≠ []) (d : Built ε) (hd : ofDict tmp = .ok d) :
    ∃ d', ofDict (tmp.map (fun g => (name g.1, g.2))) = .ok d' ∧ d'.seql = d.seql ∧ ∀ k, numToEv d' k = (numToEv d k).map name := by
  have hn' : ((tmp.map (fun g => (name g.1, g.2))).map Prod.fst).Nodup := by
    have : (tmp.map (fun g => (name g.1, g.2))).map Prod.fst = (tmp.map Prod.fst).map name := by rw [List.map_map, List.map_map]; rfl
    rw [this]
    exact hn.map hname.injective
  obtain ⟨d0, h0, hL, _, hS, hQ, _⟩ := ofDict_ok tmp hn hne
  rw [hd] at h0
  obtain rfl := Except.ok.inj h0
  obtain ⟨d', h1, hL', _, hS', hQ', _⟩ := ofDict_ok (tmp.map (fun g => (name g.1, g.2))) hn' (by
    intro q hq
    obtain ⟨g, hg, rfl⟩ := List.mem_map.mp hq
    exact hne g hg)
  have hev : d'.listEv = d.listEv.map name := by
    rw [hL, hL']
    have e1 : (tmp.map (fun g => (name g.1, g.2))).map Prod.fst = (tmp.map Prod.fst).map name := by rw [List.map_map, List.map_map]; rfl
    rw [e1]
    refine List.Perm.eq_of_pairwise' (r := fun a b : σ => a ≤ b) ?_ ?_ ?_
    · exact List.pairwise_insertionSort _ _
    · have := List.pairwise_insertionSort (fun a b : ε => a ≤ b) (tmp.map Prod.fst)
      rw [List.pairwise_map]
      exact this.imp (fun h => hname.monotone h)
    · exact (List.perm_insertionSort _ _).trans ((List.perm_insertionSort _ _).symm.map _)
  have hseqd : d'.seqd = d.seqd := by
    rw [hS, hS', List.map_map]
    apply List.map_congr_left
    intro q hq
    simp only [Function.comp_apply, Prod.mk.injEq, and_true]
    rw [hev]
    induction d.listEv with
    | nil => rfl
    | cons a l ih =>
      rw [List.map_cons, List.idxOf_cons, List.idxOf_cons, ih]
      by_cases h : a = q.1
      · simp [h]
      · have : name a ≠ name q.1 := fun e => h (hname.injective e)
        have b1 : (a == q.1) = false := by simpa using h
        have b2 : (name a == name q.1) = false := by simpa using this
        rw [b1, b2]
  refine ⟨d', h1, ?_, ?_⟩
  · rw [hQ, hQ', hseqd]
  · intro k
    unfold numToEv
    rw [hev, lookup_swap _ _ _ (Nat.zero_le _), lookup_swap _ _ _ (Nat.zero_le _), Nat.sub_zero, List.getElem?_map]

end Verif.Export
