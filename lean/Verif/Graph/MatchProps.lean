import Verif.Graph.MatchModel
import Verif.Graph.MergeProps
import Mathlib.Algebra.Order.BigOperators.Group.Finset
import Mathlib.Data.Finset.Dedup

/-! # Embeddings are occurrences (C100) -/

set_option autoImplicit false
set_option linter.unusedSectionVars false

namespace Verif.Graph

variable {σ : Type} [DecidableEq σ]

/-- A data graph with at most one edge from one vertex to another, all with a label. -/
structure SimpleData (d : LGraph σ) : Prop where
  simple : (d.edges.map (fun e => (e.1, e.2.1))).Nodup
  labelled : ∀ e ∈ d.edges, e.2.2 ≠ .none

/-- A tuple or a list. -/
def Label.Several : Label σ → Prop
  | .tuple _ => True
  | .list _ => True
  | _ => False

theorem namesAt_eq (g : LGraph σ) (v : ℕ) : g.namesAt v = (g.labelAt v).names := by
  unfold LGraph.namesAt LGraph.labelAt
  cases g.nodes.lookup v <;> rfl

theorem mem_edgeData (g : LGraph σ) (u v : ℕ) (l : Label σ) : l ∈ g.edgeData u v ↔ (u, v, l) ∈ g.edges := by
  unfold LGraph.edgeData
  rw [List.mem_map]
  constructor
  · rintro ⟨⟨a, b, k⟩, he, rfl⟩
    rw [List.mem_filter] at he
    obtain ⟨rfl, rfl⟩ := of_decide_eq_true he.2
    exact he.1
  · intro he
    exact ⟨(u, v, l), List.mem_filter.2 ⟨he, decide_eq_true ⟨rfl, rfl⟩⟩, rfl⟩

theorem edgeData_le_one (g : LGraph σ) (hg : (g.edges.map (fun e => (e.1, e.2.1))).Nodup) (u v : ℕ) : (g.edgeData u v).length ≤ 1 := by
  unfold LGraph.edgeData
  rw [List.length_map]
  generalize g.edges = L at hg
  induction L with
  | nil => simp
  | cons e L ih =>
    rw [List.map_cons, List.nodup_cons] at hg
    by_cases he : e.1 = u ∧ e.2.1 = v
    · rw [List.filter_cons_of_pos (by simpa using he)]
      have : L.filter (fun e => decide (e.1 = u ∧ e.2.1 = v)) = [] := by
        rw [List.filter_eq_nil_iff]
        intro x hx hc
        have hc := of_decide_eq_true hc
        exact hg.1 (List.mem_map.2 ⟨x, hx, by rw [hc.1, hc.2, he.1, he.2]⟩)
      rw [this]
      simp
    · rw [List.filter_cons_of_neg (by simpa using he)]
      exact ih hg.2

theorem nodeMatch_iff (d p : Label σ) : nodeMatch d p = true ↔ (∀ l ∈ p.names, l ∈ d.names) ∧ ¬ ((d = .none ∨ ∃ s, d = .str s) ∧ p.Several) := by
  cases d <;> cases p <;> simp [nodeMatch, Label.names, Label.Several]
  exact eq_comm

/-- The embeddings found in a graph without parallel edges are the occurrences, except those that send a vertex whose label is a tuple or a list to one with at most one label given as a string. -/
theorem found_iff (multi : Bool) (d p : LGraph σ) (hd : SimpleData d) (hp : IsPattern false p) (h : ℕ → ℕ) :
    Found multi d p h ↔ Occurs d p h ∧ ∀ a ∈ p.verts, ¬ ((d.labelAt (h a) = .none ∨ ∃ s, d.labelAt (h a) = .str s) ∧ (p.labelAt a).Several) := by
  have hone : ∀ u v, (p.edgeData u v).length ≤ 1 := edgeData_le_one p (hp.simple rfl)
  have hdone : ∀ u v, (d.edgeData u v).length ≤ 1 := edgeData_le_one d hd.simple
  have hsing : ∀ {L : List (Label σ)} {l : Label σ}, L.length ≤ 1 → l ∈ L → L = [l] := by
    intro L l hl hm
    match L, hl, hm with
    | [x], _, hm => rw [List.mem_singleton.1 hm]
    | _ :: _ :: _, hl, _ => simp at hl
  have hem : ∀ (a b : Label σ), a ≠ .none → b ≠ .none → (edgesMatch multi [a] [b] = .ok true ↔ a = b) := by
    intro a b ha hb
    unfold edgesMatch edgeMatchMulti edgeMatch
    cases multi <;> simp [ha, hb]
  constructor
  · intro hf
    refine ⟨⟨hf.verts, hf.inj, fun a ha l hl => ?_, fun e he => ?_⟩, fun a ha => ((nodeMatch_iff _ _).1 (hf.nodes a ha)).2⟩
    · rw [namesAt_eq] at hl ⊢
      exact ((nodeMatch_iff _ _).1 (hf.nodes a ha)).1 l hl
    · obtain ⟨u, v, l⟩ := e
      obtain ⟨hu, hv, -⟩ := hp.ends _ he
      have hpl : p.edgeData u v = [l] := hsing (hone u v) ((mem_edgeData p u v l).2 he)
      have h1 := hf.number u hu v hv
      rw [hpl, List.length_singleton] at h1
      obtain ⟨k, hk⟩ := List.exists_mem_of_length_pos (show 0 < (d.edgeData (h u) (h v)).length by omega)
      have hdl := hsing (hdone _ _) hk
      have h2 := hf.edges u hu v hv (by rw [hpl]; simp)
      have hk' := (mem_edgeData d _ _ k).1 hk
      rw [hpl, hdl, hem k l (hd.labelled _ hk') (hp.labelled _ he)] at h2
      rw [← h2]
      exact hk'
  · rintro ⟨ho, hs⟩
    have hcase : ∀ u v, p.edgeData u v = [] ∨ ∃ l, p.edgeData u v = [l] ∧ d.edgeData (h u) (h v) = [l] ∧ l ≠ .none := by
      intro u v
      rcases hL : p.edgeData u v with _ | ⟨l, L⟩
      · exact Or.inl rfl
      · have hm : l ∈ p.edgeData u v := by rw [hL]; exact List.mem_cons_self
        have he := (mem_edgeData p u v l).1 hm
        refine Or.inr ⟨l, by rw [← hL]; exact hsing (hone u v) hm, hsing (hdone _ _) ((mem_edgeData d _ _ l).2 (ho.edges _ he)), hp.labelled _ he⟩
    refine ⟨ho.verts, ho.inj, fun u hu v hv => ?_, fun a ha => (nodeMatch_iff _ _).2 ⟨fun l hl => ?_, hs a ha⟩, fun u hu v hv hne => ?_⟩
    · rcases hcase u v with h0 | ⟨l, h1, h2, -⟩
      · rw [h0]; exact Nat.zero_le _
      · rw [h1, h2]
    · have := ho.labels a ha l
      rw [namesAt_eq, namesAt_eq] at this
      exact this hl
    · rcases hcase u v with h0 | ⟨l, h1, h2, h3⟩
      · exact absurd h0 hne
      · rw [h1, h2, hem l l h3 h3]

/-! ## Labels of the patterns made by the search -/

/-- A tuple or a list of labels has two different members. -/
def LabelOk (l : Label σ) : Prop := l.Several → ∃ a ∈ l.names, ∃ b ∈ l.names, a ≠ b

theorem newLabel_labelOk (l k : Label σ) (hl : LabelOk l) (hk : LabelOk k) (hl0 : l ≠ .none) (hk0 : k ≠ .none) : LabelOk (newLabel l k) := by
  intro hs
  cases k with
  | none => exact absurd rfl hk0
  | str s =>
    cases l with
    | none => exact absurd rfl hl0
    | str a =>
      simp only [newLabel] at hs ⊢
      split_ifs at hs ⊢ with h
      · exact ⟨a, by simp [Label.names], s, by simp [Label.names], h⟩
      · exact absurd hs (by simp [Label.Several])
    | tuple m =>
      obtain ⟨a, ha, b, hb, hab⟩ := hl trivial
      exact ⟨a, by simpa [newLabel, Label.names, mem_appendNew] using Or.inr ha, b, by simpa [newLabel, Label.names, mem_appendNew] using Or.inr hb, hab⟩
    | list m =>
      obtain ⟨a, ha, b, hb, hab⟩ := hl trivial
      exact ⟨a, by simpa [newLabel, Label.names, mem_appendNew] using Or.inr ha, b, by simpa [newLabel, Label.names, mem_appendNew] using Or.inr hb, hab⟩
  | tuple m =>
    obtain ⟨a, ha, b, hb, hab⟩ := hk trivial
    have hmem : ∀ x ∈ m, x ∈ (newLabel l (.tuple m)).names := by
      intro x hx
      cases l with
      | none => exact absurd rfl hl0
      | str s => simp only [newLabel, Label.names]; split_ifs <;> simp [hx]
      | tuple k => simp [newLabel, Label.names, mem_appendNew, hx]
      | list k => simp [newLabel, Label.names, mem_appendNew, hx]
    exact ⟨a, hmem a ha, b, hmem b hb, hab⟩
  | list m =>
    obtain ⟨a, ha, b, hb, hab⟩ := hk trivial
    have hmem : ∀ x ∈ m, x ∈ (newLabel l (.list m)).names := by
      intro x hx
      cases l with
      | none => exact absurd rfl hl0
      | str s => simp only [newLabel, Label.names]; split_ifs <;> simp [hx]
      | tuple k => simp [newLabel, Label.names, mem_appendNew, hx]
      | list k => simp [newLabel, Label.names, mem_appendNew, hx]
    exact ⟨a, hmem a ha, b, hmem b hb, hab⟩

theorem addNode_labelOk (nodes : List (ℕ × Label σ)) (v : ℕ) (l : Label σ) (hn : ∀ n ∈ nodes, LabelOk n.2) (hl : LabelOk l) : ∀ n ∈ addNode nodes v l, LabelOk n.2 := by
  intro n hm
  rcases mem_addNode hm with hm | rfl
  · exact hn n hm
  · exact hl

theorem none_ok : LabelOk (Label.none : Label σ) := fun h => h.elim

theorem addEdge_labelOk (multi : Bool) (g : LGraph σ) (u v : ℕ) (l : Label σ) (hn : ∀ n ∈ g.nodes, LabelOk n.2) : ∀ n ∈ (addEdge multi g u v l).nodes, LabelOk n.2 :=
  addNode_labelOk _ _ _ (addNode_labelOk _ _ _ hn none_ok) none_ok

theorem addLabelled_labelOk (multi : Bool) (g g' : LGraph σ) (u v : ℕ) (l : Label σ) (hn : ∀ n ∈ g.nodes, LabelOk n.2) (h : addLabelled multi g u v l = .ok g') : ∀ n ∈ g'.nodes, LabelOk n.2 := by
  unfold addLabelled at h
  split_ifs at h
  obtain rfl := Except.ok.inj h
  exact addEdge_labelOk multi g u v l hn

theorem firstEdges_labelOk (multi : Bool) (L : List (ℕ × ℕ × Label σ)) : ∀ (g g' : LGraph σ), (∀ n ∈ g.nodes, LabelOk n.2) → firstEdges multi L g = .ok g' → ∀ n ∈ g'.nodes, LabelOk n.2 := by
  induction L with
  | nil => intro g g' hn h; obtain rfl := Except.ok.inj h; exact hn
  | cons e L ih =>
    intro g g' hn h
    obtain ⟨u, v, l⟩ := e
    unfold firstEdges at h
    cases ha : addLabelled multi g u v l with
    | error m => rw [ha] at h; cases h
    | ok g1 =>
      rw [ha] at h
      exact ih g1 g' (addLabelled_labelOk multi g g1 u v l hn ha) h

theorem secondEdges_labelOk (multi : Bool) (ports mp : List (ℕ × ℕ)) (L : List (ℕ × ℕ × Label σ)) : ∀ (g g' : LGraph σ), (∀ n ∈ g.nodes, LabelOk n.2) →
    secondEdges multi ports mp L g = .ok g' → ∀ n ∈ g'.nodes, LabelOk n.2 := by
  induction L with
  | nil => intro g g' hn h; obtain rfl := Except.ok.inj h; exact hn
  | cons e L ih =>
    intro g g' hn h
    obtain ⟨u, v, l⟩ := e
    unfold secondEdges at h
    cases he : edgeEnds ports mp u v with
    | error m => rw [he] at h; cases h
    | ok x =>
      rw [he] at h
      change (addLabelled multi g x.1 x.2 l).bind _ = _ at h
      cases ha : addLabelled multi g x.1 x.2 l with
      | error m => rw [ha] at h; cases h
      | ok g1 =>
        rw [ha] at h
        exact ih g1 g' (addLabelled_labelOk multi g g1 x.1 x.2 l hn ha) h

theorem lookup_labelOk {nodes : List (ℕ × Label σ)} (hn : ∀ n ∈ nodes, LabelOk n.2) {a : ℕ} {k : Label σ} (h : nodes.lookup a = some k) : LabelOk k := by
  induction nodes with
  | nil => cases h
  | cons n nodes ih =>
    obtain ⟨b, l⟩ := n
    rw [List.lookup_cons] at h
    split at h
    · obtain rfl := Option.some.inj h
      exact hn _ List.mem_cons_self
    · exact ih (fun n hm => hn n (List.mem_cons_of_mem _ hm)) h

theorem secondNodes_labelOk (ports : List (ℕ × ℕ)) (t : List (ℕ × Label σ)) : ∀ (nodes : List (ℕ × Label σ)) (mp : List (ℕ × ℕ)) (r : List (ℕ × Label σ) × List (ℕ × ℕ)),
    (∀ n ∈ t, LabelOk n.2) → (∀ n ∈ nodes, LabelOk n.2) → secondNodes ports t nodes mp = .ok r → ∀ n ∈ r.1, LabelOk n.2 := by
  induction t with
  | nil => intro nodes mp r _ hn h; obtain rfl := Except.ok.inj h; exact hn
  | cons x t ih =>
    intro nodes mp r ht hn h
    obtain ⟨b, l⟩ := x
    have hl : LabelOk l := ht _ List.mem_cons_self
    have ht' : ∀ n ∈ t, LabelOk n.2 := fun n hm => ht n (List.mem_cons_of_mem _ hm)
    unfold secondNodes at h
    cases hp : portOf ports b with
    | none =>
      rw [hp] at h
      exact ih _ _ _ ht' (addNode_labelOk _ _ _ hn hl) h
    | some a =>
      rw [hp] at h
      change (addPortLabel nodes a l).bind _ = _ at h
      cases ha : addPortLabel nodes a l with
      | error m => rw [ha] at h; cases h
      | ok nodes' =>
        rw [ha] at h
        refine ih _ _ _ ht' ?_ h
        unfold addPortLabel at ha
        split_ifs at ha with hl0
        · obtain rfl := Except.ok.inj ha
          exact hn
        · cases hk : nodes.lookup a with
          | none => rw [hk] at ha; cases ha
          | some k =>
            rw [hk] at ha
            simp only at ha
            obtain rfl := Except.ok.inj ha
            refine addNode_labelOk _ _ _ hn ?_
            split_ifs with hk0
            · exact hl
            · exact newLabel_labelOk l k hl (lookup_labelOk hn hk) hl0 hk0

theorem made_labels (multi : Bool) (g : LGraph σ) (h : Made multi g) : ∀ n ∈ g.nodes, LabelOk n.2 := by
  induction h with
  | edge l =>
    intro n hn
    rcases List.mem_cons.1 hn with rfl | hn
    · exact none_ok
    · rw [List.mem_singleton.1 hn]; exact none_ok
  | vertex l =>
    intro n hn
    rw [List.mem_singleton.1 hn]
    exact fun h => h.elim
  | merge p q g ports _ _ _ _ hm ih1 ih2 =>
    unfold mergeCand at hm
    cases hf : firstPattern multi p with
    | error m => rw [hf] at hm; cases hm
    | ok g1 =>
      rw [hf] at hm
      change secondPattern multi q g1 ports = _ at hm
      have hg1 : ∀ n ∈ g1.nodes, LabelOk n.2 := by
        unfold firstPattern at hf
        refine firstEdges_labelOk multi _ _ _ ?_ hf
        have key : ∀ (L acc : List (ℕ × Label σ)), (∀ n ∈ L, LabelOk n.2) → (∀ n ∈ acc, LabelOk n.2) → ∀ n ∈ L.foldl (fun acc n => addNode acc n.1 n.2) acc, LabelOk n.2 := by
          intro L
          induction L with
          | nil => intro acc _ ha; exact ha
          | cons x L ih =>
            intro acc hL ha
            exact ih _ (fun n hn => hL n (List.mem_cons_of_mem _ hn)) (addNode_labelOk _ _ _ ha (hL x List.mem_cons_self))
        exact key _ _ ih1 (by simp)
      unfold secondPattern at hm
      cases hs : secondNodes ports q.nodes g1.nodes [] with
      | error m => rw [hs] at hm; cases hm
      | ok x =>
        rw [hs] at hm
        change secondEdges multi ports (portMapping ports x.2) q.edges ⟨x.1, g1.edges⟩ = _ at hm
        exact secondEdges_labelOk multi ports _ _ _ _ (secondNodes_labelOk ports _ _ _ _ ih2 hg1 hs) hm

/-- C100, what holds. In a data graph without parallel edges, all labelled, the embeddings found for a pattern made by the search are exactly its occurrences: the maps to different vertices that keep the labels of vertices and edges. Missing:
parallel edges (see `multigraph_misses`, `multigraph_false_hit`) and edges without label (`unlabelled_hit`). -/
theorem embeddings_exact_partial (multi : Bool) (d p : LGraph σ) (hd : SimpleData d) (hm : Made false p) (h : ℕ → ℕ) :
    Found multi d p h ↔ Occurs d p h := by
  have hp := made_patterns false p hm
  rw [found_iff multi d p hd hp h]
  refine ⟨fun hf => hf.1, fun ho => ⟨ho, fun a ha hc => ?_⟩⟩
  obtain ⟨hc1, hc2⟩ := hc
  have hok : LabelOk (p.labelAt a) := by
    unfold LGraph.labelAt
    cases hl : p.nodes.lookup a with
    | none => exact none_ok
    | some k => exact lookup_labelOk (made_labels false p hm) hl
  obtain ⟨x, hx, y, hy, hxy⟩ := hok hc2
  have hx' := ho.labels a ha x (by rw [namesAt_eq]; exact hx)
  have hy' := ho.labels a ha y (by rw [namesAt_eq]; exact hy)
  rw [namesAt_eq] at hx' hy'
  rcases hc1 with h0 | ⟨s, hs⟩
  · rw [h0] at hx'
    simp [Label.names] at hx'
  · rw [hs] at hx' hy'
    simp only [Label.names, List.mem_singleton] at hx' hy'
    exact hxy (hx'.trans hy'.symm)

/-- The automorphisms of a graph: bijections of the vertices that keep exactly the labels of the vertices and the labelled edges, though the comparison of two vertices only asks for an inclusion. -/
theorem automorphism_exact (g : LGraph σ) (hg : SimpleData g) (h : ℕ → ℕ) (ha : IsAutomorphism g h) :
    (∀ a ∈ g.verts, ∀ l, l ∈ g.namesAt (h a) ↔ l ∈ g.namesAt a) ∧ ∀ a ∈ g.verts, ∀ b ∈ g.verts, ∀ l, (h a, h b, l) ∈ g.edges ↔ (a, b, l) ∈ g.edges := by
  constructor
  · have hsub : ∀ a ∈ g.verts, (g.namesAt a).toFinset ⊆ (g.namesAt (h a)).toFinset := by
      intro a ham l hl
      rw [List.mem_toFinset] at hl ⊢
      rw [namesAt_eq] at hl ⊢
      exact ((nodeMatch_iff _ _).1 (ha.found.nodes a ham)).1 l hl
    have hsum : ∑ a ∈ g.verts.toFinset, (g.namesAt a).toFinset.card = ∑ a ∈ g.verts.toFinset, (g.namesAt (h a)).toFinset.card := by
      symm
      refine Finset.sum_nbij h ?_ ?_ ?_ (fun _ _ => rfl)
      · intro a ham
        rw [List.mem_toFinset] at ham ⊢
        exact ha.found.verts a ham
      · intro a ham b hbm hab
        exact ha.found.inj a (List.mem_toFinset.1 ham) b (List.mem_toFinset.1 hbm) hab
      · intro v hvm
        obtain ⟨a, ham, rfl⟩ := ha.onto v (List.mem_toFinset.1 hvm)
        exact ⟨a, List.mem_toFinset.2 ham, rfl⟩
    have heq := (Finset.sum_eq_sum_iff_of_le (fun a ham => Finset.card_le_card (hsub a (List.mem_toFinset.1 ham)))).1 hsum
    intro a ham l
    have := Finset.eq_of_subset_of_card_le (hsub a ham) (heq a (List.mem_toFinset.2 ham)).ge
    rw [← List.mem_toFinset, ← List.mem_toFinset, this]
  · intro a ham b hbm l
    have hn := ha.number a ham b hbm
    have hone := edgeData_le_one g hg.simple a b
    rw [← mem_edgeData, ← mem_edgeData]
    rcases hL : g.edgeData a b with _ | ⟨x, L⟩
    · rw [hL, List.length_nil] at hn
      rw [List.length_eq_zero_iff.1 hn.symm]
    · have he := ha.found.edges a ham b hbm (by rw [hL]; simp)
      rw [hL] at hone hn he
      have hL0 : L = [] := by
        cases L with
        | nil => rfl
        | cons _ _ => simp at hone
      subst hL0
      obtain ⟨y, hy⟩ := List.length_eq_one_iff.1 hn.symm
      have hx0 : x ≠ .none := hg.labelled _ ((mem_edgeData g a b x).1 (by rw [hL]; simp))
      have hy0 : y ≠ .none := hg.labelled _ ((mem_edgeData g _ _ y).1 (by rw [hy]; simp))
      rw [hy] at he ⊢
      have : y = x := by simpa [edgesMatch, edgeMatch, hx0, hy0] using he
      rw [this]

/-- The cycle of two vertices with the same label: exchanging them is an automorphism. -/
example : IsAutomorphism (⟨[(1, .str "A"), (2, .list ["A"])], [(1, 2, .str "x"), (2, 1, .str "x")]⟩ : LGraph String) id := ⟨⟨by decide, by decide, by decide, by decide, by decide⟩, by decide, by decide⟩
example : IsAutomorphism (⟨[(1, .str "A"), (2, .str "A")], [(1, 2, .str "x"), (2, 1, .str "x")]⟩ : LGraph String) (fun a => 3 - a) := ⟨⟨by decide, by decide, by decide, by decide, by decide⟩, by decide, by decide⟩

/-! ## What goes wrong -/

/-- Two parallel edges `a`, `b` from 1 to 2. -/
def twoEdges : LGraph String := ⟨[(1, .none), (2, .none)], [(1, 2, .str "a"), (1, 2, .str "b")]⟩

/-- A data graph with parallel edges: the pattern made of the second label occurs, and no embedding is found. -/
theorem multigraph_misses : Occurs twoEdges (edgeSingleton "b") id ∧ ∀ h, ¬ Found true twoEdges (edgeSingleton "b") h := by
  refine ⟨⟨by decide, by decide, by decide, by decide⟩, fun h hf => ?_⟩
  have h1 := hf.number 1 (by decide) 2 (by decide)
  have h2 := hf.edges 1 (by decide) 2 (by decide) (by decide)
  have hv1 := hf.verts 1 (by decide)
  have hv2 := hf.verts 2 (by decide)
  simp only [twoEdges, LGraph.verts, List.map_cons, List.map_nil, List.mem_cons, List.not_mem_nil, or_false] at hv1 hv2
  rcases hv1 with e1 | e1 <;> rcases hv2 with e2 | e2 <;> rw [e1, e2] at h1 h2 <;> revert h1 h2 <;> decide

/-- The pattern of two parallel edges `a` and `b`, as the search makes it by gluing the two ends. -/
theorem twoEdges_made : Made true twoEdges :=
  .merge (edgeSingleton "a") (edgeSingleton "b") twoEdges [(1, 1), (2, 2)] (.edge "a") (.edge "b") ⟨by decide, by decide, by decide⟩ (by simp) rfl

/-- A data graph with parallel edges `a`, `c`: the pattern of parallel edges `a`, `b` is found, and `b` does not occur in the data. -/
theorem multigraph_false_hit : ∃ d : LGraph String, Found true d twoEdges id ∧ ¬ ∃ h, Occurs d twoEdges h := by
  refine ⟨⟨[(1, .none), (2, .none)], [(1, 2, .str "a"), (1, 2, .str "c")]⟩, ⟨by decide, by decide, by decide, by decide, by decide⟩, ?_⟩
  rintro ⟨h, ho⟩
  have := ho.edges (1, 2, .str "b") (by decide)
  simp at this

/-- A data edge without label: every pattern made of one edge is found there. -/
theorem unlabelled_hit (l : String) : Found false ⟨[(1, .none), (2, .none)], [(1, 2, .none)]⟩ (edgeSingleton l) id ∧ ¬ ∃ h, Occurs ⟨[(1, .none), (2, .none)], [(1, 2, .none)]⟩ (edgeSingleton l) h := by
  refine ⟨⟨?_, ?_, ?_, ?_, ?_⟩, ?_⟩
  · simp [edgeSingleton, LGraph.verts]
  · simp [edgeSingleton, LGraph.verts]
  · simp [edgeSingleton, LGraph.verts, LGraph.edgeData]
  · intro a ha
    rcases List.mem_cons.1 ha with rfl | ha
    · rfl
    · rw [List.mem_singleton.1 ha]; rfl
  · simp [edgeSingleton, LGraph.verts, LGraph.edgeData, edgesMatch, edgeMatch]
  · rintro ⟨h, ho⟩
    have := ho.edges (1, 2, .str l) (by simp [edgeSingleton])
    simp at this

/-- The same edge in a multigraph: the search ends with an exception. -/
theorem unlabelled_raises (l : String) : edgesMatch true [Label.none] [.str l] = .error "ValueError" := by
  simp [edgesMatch, edgeMatchMulti]

/-- A pattern given by the user whose vertex has the one-label tuple `("A",)` occurs on a vertex labelled `"A"` and is not found there. -/
theorem one_tuple_missed : Occurs (⟨[(1, .str "A")], []⟩ : LGraph String) ⟨[(1, .tuple ["A"])], []⟩ id ∧ ∀ h, ¬ Found false (⟨[(1, .str "A")], []⟩ : LGraph String) ⟨[(1, .tuple ["A"])], []⟩ h := by
  refine ⟨⟨by decide, by decide, by decide, by decide⟩, fun h hf => ?_⟩
  have hv := hf.verts 1 (by decide)
  have hn := hf.nodes 1 (by decide)
  simp only [LGraph.verts, List.map_cons, List.map_nil, List.mem_singleton] at hv
  rw [hv] at hn
  revert hn
  decide

/-- The comparison of two graphs depends on their order: `("A", "B")` is isomorphic to `"A"`, not the other way round. -/
theorem isomorphic_asymmetric : isIsomorphic (⟨[(1, .tuple ["A", "B"])], []⟩ : LGraph String) ⟨[(1, .str "A")], []⟩ ∧ ¬ isIsomorphic (⟨[(1, .str "A")], []⟩ : LGraph String) ⟨[(1, .tuple ["A", "B"])], []⟩ := by
  refine ⟨⟨id, ⟨by decide, by decide, by decide, by decide, by decide⟩, by decide, by decide⟩, ?_⟩
  rintro ⟨h, hf, -, -⟩
  have hv := hf.verts 1 (by decide)
  have hn := hf.nodes 1 (by decide)
  simp only [LGraph.verts, List.map_cons, List.map_nil, List.mem_singleton] at hv
  rw [hv] at hn
  revert hn
  decide

/-! ## A case -/

/-- A data graph: 1 (`A`), 2 (`B` and `C`), 3 without label; `x` from 1 to 2, `y` from 2 to 3. -/
def dataEx : LGraph String := ⟨[(1, .str "A"), (2, .tuple ["B", "C"]), (3, .none)], [(1, 2, .str "x"), (2, 3, .str "y")]⟩

/-- The pattern `x` whose end has the label `C`. -/
def patEx : LGraph String := ⟨[(1, .none), (2, .str "C")], [(1, 2, .str "x")]⟩

example : SimpleData dataEx := ⟨by decide, by decide⟩

theorem patEx_made : Made false patEx :=
  .merge (edgeSingleton "x") (vertexSingleton "C") patEx [(2, 1)] (.edge "x") (.vertex "C") ⟨by decide, by decide, by decide⟩ (fun _ => by intro e _ e' he'; simp [vertexSingleton] at he') rfl

example : Found false dataEx patEx id := (embeddings_exact_partial false dataEx patEx ⟨by decide, by decide⟩ patEx_made id).2 ⟨by decide, by decide, by decide, by decide⟩

example : ¬ Found false dataEx patEx (fun a => a + 1) := by
  rw [embeddings_exact_partial false dataEx patEx ⟨by decide, by decide⟩ patEx_made]
  rintro ⟨-, -, h, -⟩
  revert h
  decide

end Verif.Graph
