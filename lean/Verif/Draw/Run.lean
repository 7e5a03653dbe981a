import Verif.Draw.Lemmas

/-!
# The statements that are drawn
-/

set_option autoImplicit false
set_option linter.unusedSectionVars false

namespace Verif.Draw

open Verif.Nodes Verif.Display Verif.Text

/-- A node after the conversion, when its event has a name. -/
def restored (auto dates : Bool) (k : ℤ) (events : List (List Char)) : Node ℕ → DNode
  | .leaf _ ev => .leaf (events.getD ev [])
  | .inner _ (some (r, p)) ch => .inner (some (r, restore auto dates k p)) (restoreKids auto dates k ch)
  | .inner _ none ch => .inner none (ch.map (fun x => (x.1, .int x.2)))

theorem restoreNodes_ok (auto dates : Bool) (k : ℤ) (events : List (List Char)) : ∀ ns : NodeDict ℕ, (∀ i q ev, (i, Node.leaf q ev) ∈ ns → ev < events.length) →
    restoreNodes auto dates k events ns = .ok (ns.map (fun x => (x.1, restored auto dates k events x.2)))
  | [], _ => rfl
  | (id, n) :: rest, h => by
    have h1 : restoreNode auto dates k events n = .ok (restored auto dates k events n) := by
      match n, h with
      | .leaf q ev, h =>
        have hev := h id q ev (by simp)
        simp [restoreNode, restored, List.getElem?_eq_getElem hev]
      | .inner _ (some (r, p)) ch, _ => rfl
      | .inner _ none ch, _ => rfl
    simp only [restoreNodes, h1, restoreNodes_ok auto dates k events rest (fun i q ev hm => h i q ev (by simp [hm])), List.map_cons]

theorem lookup_map {β γ : Type} (g : β → γ) (k : ℕ) : ∀ l : List (ℕ × β), (l.map (fun x => (x.1, g x.2))).lookup k = (l.lookup k).map g
  | [] => rfl
  | (a, b) :: l => by
    simp only [List.map_cons, List.lookup_cons]
    cases h : k == a
    · simpa using lookup_map g k l
    · rfl

variable (clock : ℤ → List Char) (auto : Bool) (f : Fit)

theorem restore_str (x : ℤ) : (restore auto f.dates f.k x).str clock = (styleOf clock auto f).time (x * unitOf auto f) := by
  cases auto <;> cases hd : f.dates <;> simp [restore, Val.str, styleOf, unitOf, timeText, hd]

theorem restoreStart_str (x : ℤ) : (restoreStart auto f.dates f.k x).str clock = (styleOf clock auto f).start (x * unitOf auto f) := by
  cases auto <;> cases hd : f.dates <;> simp [restoreStart, Val.str, styleOf, unitOf, hd]

theorem restore_gap (b id : ℕ) (x : ℤ) : gapStmt clock id (childGap b (restore auto f.dates f.k x)) = into id ((styleOf clock auto f).gap b (x * unitOf auto f)) := by
  have h := restore_str clock auto f x
  unfold childGap Style.gap
  have hz : (restore auto f.dates f.k x).nonzero = true ↔ ¬(x * unitOf auto f = 0 ∧ (styleOf clock auto f).zeros = false) := by
    cases auto <;> cases hd : f.dates <;> simp [restore, Val.nonzero, styleOf, unitOf, hd]
  by_cases hc : x * unitOf auto f = 0 ∧ (styleOf clock auto f).zeros = false
  · have : ¬ (restore auto f.dates f.k x).nonzero = true := fun e => hz.mp e hc
    rw [if_neg this, if_pos hc]
    rfl
  · rw [if_pos (hz.mpr hc), if_neg hc]
    simp [gapStmt, into, h]

theorem box_label (t0 : Option ℤ) (r : ℕ) (p : ℤ) : boxLabel clock (t0.map (restoreStart auto f.dates f.k)) r (restore auto f.dates f.k p) =
    (styleOf clock auto f).box (t0.map (· * unitOf auto f)) r (p * unitOf auto f) := by
  unfold boxLabel Style.box
  rw [restore_str]
  cases t0 with
  | none => simp
  | some x =>
    have h1 : "𝜏=".toList = ['𝜏', '='] := by decide
    have h2 : "p=".toList = ['p', '='] := by decide
    have h3 : "\nr=".toList = ['\n', 'r', '='] := by decide
    simp [restoreStart_str]

theorem scaleN_id (k : ℤ) (t : NTree ℕ) : (scaleN k t).id = t.id := by cases t <;> rfl

variable {ns : NodeDict ℕ} {t0 : ℤ}

/-- The dictionary that is drawn. -/
def drawn (auto : Bool) (f : Fit) (ns : NodeDict ℕ) (t0 : ℤ) : DPattern := ⟨ns.map (fun x => (x.1, restored auto f.dates f.k f.events x.2)), restoreStart auto f.dates f.k t0⟩

theorem drawn_lookup (hk : Keyed ns) {id : ℕ} {n : Node ℕ} (h : (id, n) ∈ ns) : (drawn auto f ns t0).nodes.lookup id = some (restored auto f.dates f.k f.events n) := by
  simp only [drawn, lookup_map, (lookup_some hk).mpr h, Option.map_some]

mutual
theorem drawRec_eq (hk : Keyed ns) : ∀ (t : NTree ℕ) (par q : Option ℕ) (gap : Option (ℕ × Val)) (g : List (Option ℕ × List Char)) (T : PTree.Tree ℕ), (∀ x ∈ t.entries par, x ∈ ns) → t.plain = some T → T.Regular →
    (∀ id, gapStmt clock id gap = into id g) → (∀ id rp ch, t = .node id rp ch → 0 ∉ ch.ids) →
    ∃ m, ∀ n, m ≤ n → drawRec clock (drawn auto f ns t0) n t.id q gap = .ok (stmts (styleOf clock auto f) (if t.id = 0 then some (t0 * unitOf auto f) else none) q g (scaleN (unitOf auto f) t))
  | .leaf id ev, par, q, gap, g, T, he, hp, hr, hg, h0' => by
    refine ⟨1, fun n hn => ?_⟩
    obtain ⟨m, rfl⟩ : ∃ m, n = m + 1 := ⟨n - 1, by omega⟩
    have := drawn_lookup auto f (t0 := t0) hk (he (id, .leaf par ev) (by simp [NTree.entries]))
    simp only [drawRec, NTree.id, this, restored, scaleN, stmts, hg]
    rfl
  | .node id none ch, _, _, _, _, T, _, hp, _, _, _ => by simp [NTree.plain] at hp
  | .node id (some rp) ch, par, q, gap, g, T, he, hp, hr, hg, h0' => by
    obtain ⟨r, p⟩ := rp
    simp only [NTree.plain, Option.map_eq_some_iff] at hp
    obtain ⟨F, hF, rfl⟩ := hp
    have hch : 0 ∉ ch.ids := h0' id _ ch rfl
    simp only [PTree.Tree.Regular] at hr
    obtain ⟨m, hm⟩ := drawAll_first hk ch (some id) id (lastId (restoreKids auto f.dates f.k ch.kids)) F (fun x hx => he x (by simp [NTree.entries, hx])) hF hr.2.2.2 hr.2.2.1 hch
    refine ⟨m + 1, fun n hn => ?_⟩
    obtain ⟨n, rfl⟩ : ∃ m, n = m + 1 := ⟨n - 1, by omega⟩
    have := drawn_lookup auto f (t0 := t0) hk (he (id, .inner par (some (r, p)) ch.kids) (by simp [NTree.entries]))
    simp only [drawRec, NTree.id, this, restored, hm n (by omega), Except.map, scaleN, stmts, Option.map_some, Option.getD_some]
    have hb : boxLabel clock (startAt id (drawn auto f ns t0).t0) r (restore auto f.dates f.k p) =
        (styleOf clock auto f).box (if id = 0 then some (t0 * unitOf auto f) else none) r (p * unitOf auto f) := by
      by_cases hi : id = 0
      · simpa [hi, startAt, drawn] using box_label clock auto f (some t0) r p
      · simpa [hi, startAt] using box_label clock auto f none r p
    rw [hb]
    cases q with
    | none => rfl
    | some q =>
      rw [hg]
      rfl
theorem drawAll_first (hk : Keyed ns) : ∀ (F : NForest ℕ) (par : Option ℕ) (id prev : ℕ) (G : PTree.Forest ℕ), (∀ x ∈ F.entries par, x ∈ ns) → F.plain = some G → G.Regular → G.firstDist = 0 → 0 ∉ F.ids →
    ∃ m, ∀ n, m ≤ n → drawAll clock (drawn auto f ns t0) n id prev (restoreKids auto f.dates f.k F.kids) = .ok (stmtsF (styleOf clock auto f) id none (scaleNF (unitOf auto f) F))
  | .nil, par, id, prev, G, he, hp, hr, hd, h0 => ⟨0, fun n _ => by cases n <;> simp [drawAll, NForest.kids, restoreKids, scaleNF, stmtsF]⟩
  | .cons d t rest, par, id, prev, G, he, hp, hr, hd, h0 => by
    simp only [NForest.plain, Option.bind_eq_some_iff, Option.map_eq_some_iff] at hp
    obtain ⟨T, hT, G, hG, rfl⟩ := hp
    simp only [PTree.Forest.Regular] at hr
    simp only [PTree.Forest.firstDist] at hd
    subst hd
    have h0t : 0 ∉ t.ids := fun e => h0 (by simp [NForest.ids, e])
    have h0r : 0 ∉ rest.ids := fun e => h0 (by simp [NForest.ids, e])
    obtain ⟨m1, h1⟩ := drawRec_eq hk t par (some id) none [] T (fun x hx => he x (by simp [NForest.entries, hx])) hT hr.1 (fun _ => rfl) (fun i rp ch e => by
      subst e
      exact fun e => h0t (by simp [NTree.ids, e]))
    obtain ⟨m2, h2⟩ := drawAll_rest hk rest par id t.id G (fun x hx => he x (by simp [NForest.entries, hx])) hG hr.2 h0r
    refine ⟨m1 + m2 + 1, fun n hn => ?_⟩
    obtain ⟨n, rfl⟩ : ∃ m, n = m + 1 := ⟨n - 1, by omega⟩
    have ht0 : t.id ≠ 0 := fun e => h0t (e ▸ id_mem t)
    simp only [NForest.kids, restoreKids, drawAll, childGap, Val.nonzero, ne_eq, not_true_eq_false, decide_false, Bool.false_eq_true, if_false, h1 n (by omega), h2 n (by omega), ht0, scaleNF, stmtsF, Style.gapOf, scaleN_id]
theorem drawAll_rest (hk : Keyed ns) : ∀ (F : NForest ℕ) (par : Option ℕ) (id prev : ℕ) (G : PTree.Forest ℕ), (∀ x ∈ F.entries par, x ∈ ns) → F.plain = some G → G.Regular → 0 ∉ F.ids →
    ∃ m, ∀ n, m ≤ n → drawAll clock (drawn auto f ns t0) n id prev (F.kids.map (fun x => (x.1, restore auto f.dates f.k x.2))) = .ok (stmtsF (styleOf clock auto f) id (some prev) (scaleNF (unitOf auto f) F))
  | .nil, par, id, prev, G, he, hp, hr, h0 => ⟨0, fun n _ => by cases n <;> simp [drawAll, NForest.kids, scaleNF, stmtsF]⟩
  | .cons d t rest, par, id, prev, G, he, hp, hr, h0 => by
    simp only [NForest.plain, Option.bind_eq_some_iff, Option.map_eq_some_iff] at hp
    obtain ⟨T, hT, G, hG, rfl⟩ := hp
    simp only [PTree.Forest.Regular] at hr
    have h0t : 0 ∉ t.ids := fun e => h0 (by simp [NForest.ids, e])
    have h0r : 0 ∉ rest.ids := fun e => h0 (by simp [NForest.ids, e])
    obtain ⟨m1, h1⟩ := drawRec_eq hk t par (some id) (childGap prev (restore auto f.dates f.k d)) ((styleOf clock auto f).gap prev (d * unitOf auto f)) T (fun x hx => he x (by simp [NForest.entries, hx])) hT hr.1
      (fun i => restore_gap clock auto f prev i d) (fun i rp ch e => by
      subst e
      exact fun e => h0t (by simp [NTree.ids, e]))
    obtain ⟨m2, h2⟩ := drawAll_rest hk rest par id t.id G (fun x hx => he x (by simp [NForest.entries, hx])) hG hr.2 h0r
    refine ⟨m1 + m2 + 1, fun n hn => ?_⟩
    obtain ⟨n, rfl⟩ : ∃ m, n = m + 1 := ⟨n - 1, by omega⟩
    have ht0 : t.id ≠ 0 := fun e => h0t (e ▸ id_mem t)
    simp only [NForest.kids, List.map_cons, drawAll, h1 n (by omega), h2 n (by omega), ht0, if_false, scaleNF, stmtsF, Style.gapOf, scaleN_id]
end

mutual
theorem entries_events (n : ℕ) : ∀ (t : NTree ℕ) (q : Option ℕ), EventsBelow n t → ∀ i q' ev, (i, Node.leaf q' ev) ∈ t.entries q → ev < n
  | .leaf id e, q, h, i, q', ev, hm => by
    simp only [NTree.entries, List.mem_singleton, Prod.mk.injEq, Node.leaf.injEq] at hm
    rw [hm.2.2]
    exact h
  | .node id rp ch, q, h, i, q', ev, hm => by
    simp only [NTree.entries, List.mem_cons, Prod.mk.injEq, reduceCtorEq, and_false, false_or] at hm
    exact entries_eventsF n ch _ h i q' ev hm
theorem entries_eventsF (n : ℕ) : ∀ (F : NForest ℕ) (q : Option ℕ), EventsBelowF n F → ∀ i q' ev, (i, Node.leaf q' ev) ∈ F.entries q → ev < n
  | .nil, _, _, _, _, _, hm => by cases hm
  | .cons _ t rest, q, h, i, q', ev, hm => by
    simp only [NForest.entries, List.mem_append] at hm
    rcases hm with hm | hm
    · exact entries_events n t q h.1 i q' ev hm
    · exact entries_eventsF n rest q h.2 i q' ev hm
end

/-- What is drawn for a pattern of the miner. -/
theorem drawWith_eq {t : NTree ℕ} (h : Drawable f ns t) : ∃ m, ∀ n, m ≤ n →
    drawWith clock auto f n ns t0 = .ok (stmts (styleOf clock auto f) (some (t0 * unitOf auto f)) none [] (scaleN (unitOf auto f) t)) := by
  obtain ⟨T, hT, hr⟩ := h.regular
  obtain ⟨rp, ch, rfl⟩ := h.describes.root
  have h0 : 0 ∉ ch.ids := by
    have := h.describes.ids
    simp only [NTree.ids, List.nodup_cons] at this
    exact this.1
  obtain ⟨m, hm⟩ := drawRec_eq clock auto f (t0 := t0) h.describes.keys (.node 0 rp ch) none none none [] T (fun x hx => (h.describes.same x).mpr hx) hT hr (fun _ => rfl) (fun i rp' ch' e => by
    cases e
    exact h0)
  refine ⟨m, fun n hn => ?_⟩
  have hre := restoreNodes_ok auto f.dates f.k f.events ns (fun i q ev hmem => entries_events _ _ none h.events i q ev ((h.describes.same _).mp hmem))
  simp only [drawWith, hre, Except.bind]
  exact hm n hn

end Verif.Draw
