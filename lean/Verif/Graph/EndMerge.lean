import Verif.Graph.MergeLabels
import Mathlib.Tactic.Common

/-!
# The search of GraphMDL ends: merging keeps the size of the parts in check
-/

set_option autoImplicit false
set_option linter.unusedSectionVars false

namespace Verif.Graph

variable {σ : Type} [DecidableEq σ]

/-- Vertices with different numbers, not larger than a bound or the number of vertices, and with different labels each. -/
structure NodesTame (N : ℕ) (nodes : List (ℕ × Label σ)) : Prop where
  verts : (nodes.map Prod.fst).Nodup
  bound : ∀ v ∈ nodes.map Prod.fst, v ≤ N ∨ v ≤ nodes.length
  labels : ∀ n ∈ nodes, n.2.names.Nodup

/-- A graph with such vertices, whose edges have different ends, are labelled and join vertices of the graph. -/
structure Tame (N : ℕ) (g : LGraph σ) : Prop where
  nodes : NodesTame N g.nodes
  ends : ∀ e ∈ g.edges, e.1 ∈ g.nodes.map Prod.fst ∧ e.2.1 ∈ g.nodes.map Prod.fst
  labelled : ∀ e ∈ g.edges, e.2.2 ≠ .none
  simple : (g.edges.map (fun e => (e.1, e.2.1))).Nodup

theorem tame_edgeSingleton (N : ℕ) (l : σ) : Tame N (edgeSingleton l) := by
  refine ⟨⟨by simp [edgeSingleton], ?_, ?_⟩, ?_, ?_, ?_⟩ <;> simp [edgeSingleton, Label.names]

theorem tame_vertexSingleton (N : ℕ) (l : σ) : Tame N (vertexSingleton l) := by
  refine ⟨⟨by simp [vertexSingleton], ?_, ?_⟩, ?_, ?_, ?_⟩ <;> simp [vertexSingleton, Label.names]

theorem appendNew_nodup (ls acc : List σ) (h : acc.Nodup) : (appendNew acc ls).Nodup := by
  unfold appendNew
  induction ls generalizing acc with
  | nil => exact h
  | cons l t ih =>
    rw [List.foldl_cons]
    apply ih
    split
    · exact h
    · rename_i hl
      rw [List.nodup_append]
      refine ⟨h, List.nodup_singleton l, ?_⟩
      intro a ha b hb
      rw [List.mem_singleton.1 hb]
      rintro rfl
      exact hl ha

theorem snoc_nodup (l : List σ) (a : σ) (h : l.Nodup) : (if a ∈ l then l else l ++ [a]).Nodup := appendNew_nodup [a] l h

theorem newLabel_nodup (a b : Label σ) (ha : a.names.Nodup) (hb : b.names.Nodup) : (newLabel a b).names.Nodup := by
  cases b with
  | none => exact ha
  | str s =>
    cases a with
    | none => simp [newLabel, Label.names]
    | str t =>
      by_cases h : t = s
      · simp [newLabel, Label.names, h]
      · simp [newLabel, Label.names, h]
    | tuple l => exact appendNew_nodup l [s] (by simp)
    | list l => exact appendNew_nodup l [s] (by simp)
  | tuple k =>
    cases a with
    | none => exact hb
    | str t => exact snoc_nodup k t hb
    | tuple l => exact appendNew_nodup l k hb
    | list l => exact appendNew_nodup l k hb
  | list k =>
    cases a with
    | none => exact hb
    | str t => exact snoc_nodup k t hb
    | tuple l => exact appendNew_nodup l k hb
    | list l => exact appendNew_nodup l k hb

/-- Vertices are only added. -/
def Grows (nodes nodes' : List (ℕ × Label σ)) : Prop := ∀ v ∈ nodes.map Prod.fst, v ∈ nodes'.map Prod.fst

theorem addNode_tame {N : ℕ} {nodes : List (ℕ × Label σ)} (h : NodesTame N nodes) (v : ℕ) (l : Label σ) (hv : v ≤ N ∨ v ≤ nodes.length + 1) (hl : l.names.Nodup) :
    NodesTame N (addNode nodes v l) ∧ v ∈ (addNode nodes v l).map Prod.fst ∧ Grows nodes (addNode nodes v l) := by
  by_cases hm : v ∈ nodes.map Prod.fst
  · have he := addNode_fst_mem nodes v l hm
    have hlen : (addNode nodes v l).length = nodes.length := addNode_len nodes v l hm
    refine ⟨⟨by rw [he]; exact h.verts, by rw [he, hlen]; exact h.bound, ?_⟩, by rw [he]; exact hm, fun w hw => by rw [he]; exact hw⟩
    intro n hn
    rcases mem_addNode hn with hn | rfl
    · exact h.labels n hn
    · exact hl
  · rw [addNode_new nodes v l hm]
    refine ⟨⟨?_, ?_, ?_⟩, by simp, fun w hw => by rw [List.map_append]; exact List.mem_append_left _ hw⟩
    · rw [List.map_append, List.nodup_append]
      refine ⟨h.verts, by simp, ?_⟩
      intro a ha b hb
      simp only [List.map_cons, List.map_nil, List.mem_singleton] at hb
      rintro rfl
      exact hm (hb ▸ ha)
    · intro w hw
      rw [List.length_append, List.length_singleton]
      rw [List.map_append, List.mem_append] at hw
      rcases hw with hw | hw
      · rcases h.bound w hw with h1 | h1
        · exact Or.inl h1
        · exact Or.inr (by omega)
      · simp only [List.map_cons, List.map_nil, List.mem_singleton] at hw
        rw [hw]
        exact hv
    · intro n hn
      rcases List.mem_append.1 hn with hn | hn
      · exact h.labels n hn
      · rw [List.mem_singleton.1 hn]; exact hl

theorem Tame.nodes_grow {N : ℕ} {nodes nodes' : List (ℕ × Label σ)} {edges : List (ℕ × ℕ × Label σ)} (h : Tame N ⟨nodes, edges⟩) (h' : NodesTame N nodes') (hg : Grows nodes nodes') : Tame N ⟨nodes', edges⟩ :=
  ⟨h', fun e he => ⟨hg _ (h.ends e he).1, hg _ (h.ends e he).2⟩, h.labelled, h.simple⟩

theorem addEdge_tame {N : ℕ} {g : LGraph σ} (h : Tame N g) (u v : ℕ) (l : Label σ) (hl : l ≠ .none) (hu : u ≤ N ∨ u ∈ g.nodes.map Prod.fst) (hv : v ≤ N ∨ v ∈ g.nodes.map Prod.fst) :
    Tame N (addEdge false g u v l) ∧ Grows g.nodes (addEdge false g u v l).nodes := by
  have hbound : ∀ {nodes : List (ℕ × Label σ)} {w : ℕ}, NodesTame N nodes → (w ≤ N ∨ w ∈ nodes.map Prod.fst) → w ≤ N ∨ w ≤ nodes.length + 1 := by
    intro nodes w hn hw
    rcases hw with hw | hw
    · exact Or.inl hw
    · rcases hn.bound w hw with h1 | h1
      · exact Or.inl h1
      · exact Or.inr (by omega)
  obtain ⟨h1, h2, h3⟩ := addNode_tame h.nodes u .none (hbound h.nodes hu) (by simp [Label.names])
  obtain ⟨h4, h5, h6⟩ := addNode_tame h1 v .none (hbound h1 (hv.imp id (h3 v))) (by simp [Label.names])
  have hgrow : Grows g.nodes (addNode (addNode g.nodes u .none) v .none) := fun w hw => h6 w (h3 w hw)
  refine ⟨⟨h4, ?_, ?_, ?_⟩, hgrow⟩
  · intro e he
    unfold addEdge at he ⊢
    simp only [Bool.not_false, Bool.true_and] at he ⊢
    split at he
    · obtain ⟨x, hx, rfl⟩ := List.mem_map.1 he
      split
      · exact ⟨h6 u h2, h5⟩
      · exact ⟨hgrow _ (h.ends x hx).1, hgrow _ (h.ends x hx).2⟩
    · rcases List.mem_append.1 he with he | he
      · exact ⟨hgrow _ (h.ends e he).1, hgrow _ (h.ends e he).2⟩
      · rw [List.mem_singleton.1 he]
        exact ⟨h6 u h2, h5⟩
  · intro e he
    unfold addEdge at he
    simp only [Bool.not_false, Bool.true_and] at he
    split at he
    · obtain ⟨x, hx, rfl⟩ := List.mem_map.1 he
      split
      · exact hl
      · exact h.labelled x hx
    · rcases List.mem_append.1 he with he | he
      · exact h.labelled e he
      · rw [List.mem_singleton.1 he]; exact hl
  · unfold addEdge
    simp only [Bool.not_false, Bool.true_and]
    split
    · rw [List.map_map]
      have : ((fun e : ℕ × ℕ × Label σ => (e.1, e.2.1)) ∘ fun e => if e.1 = u ∧ e.2.1 = v then (u, v, l) else e) = fun e => (e.1, e.2.1) := by
        funext e
        simp only [Function.comp]
        split
        · rename_i he; rw [he.1, he.2]
        · rfl
      rw [this]
      exact h.simple
    · rename_i hany
      rw [List.map_append, List.nodup_append]
      refine ⟨h.simple, by simp, ?_⟩
      intro a ha b hb
      simp only [List.map_cons, List.map_nil, List.mem_singleton] at hb
      rintro rfl
      obtain ⟨e, he, h7⟩ := List.mem_map.1 ha
      rw [hb, Prod.mk.injEq] at h7
      exact hany (List.any_eq_true.2 ⟨e, he, by simpa using h7⟩)

theorem firstEdges_tame {N : ℕ} (L : List (ℕ × ℕ × Label σ)) (g g' : LGraph σ) (h : Tame N g) (hL : ∀ e ∈ L, e.1 ∈ g.nodes.map Prod.fst ∧ e.2.1 ∈ g.nodes.map Prod.fst)
    (hr : firstEdges false L g = .ok g') : Tame N g' ∧ Grows g.nodes g'.nodes := by
  induction L generalizing g with
  | nil =>
    rw [← Except.ok.inj hr]
    exact ⟨h, fun _ hv => hv⟩
  | cons e t ih =>
    obtain ⟨u, v, l⟩ := e
    unfold firstEdges addLabelled at hr
    by_cases hl : l = .none
    · rw [if_pos hl] at hr; cases hr
    · rw [if_neg hl] at hr
      have hu := hL (u, v, l) List.mem_cons_self
      obtain ⟨h1, h2⟩ := addEdge_tame h u v l hl (Or.inr hu.1) (Or.inr hu.2)
      obtain ⟨h3, h4⟩ := ih _ h1 (fun e he => ⟨h2 _ (hL e (List.mem_cons_of_mem _ he)).1, h2 _ (hL e (List.mem_cons_of_mem _ he)).2⟩) hr
      exact ⟨h3, fun w hw => h4 w (h2 w hw)⟩

theorem firstPattern_tame {N : ℕ} {p g : LGraph σ} (h : Tame N p) (hr : firstPattern false p = .ok g) : Tame N g := by
  unfold firstPattern at hr
  rw [foldl_addNode p.nodes [] (by simpa using h.nodes.verts), List.nil_append] at hr
  exact (firstEdges_tame p.edges ⟨p.nodes, []⟩ g ⟨h.nodes, by simp, by simp, by simp⟩ h.ends hr).1

/-- The values of a mapping are small or vertices. -/
def MapTame (N : ℕ) (nodes : List (ℕ × Label σ)) (mp : List (ℕ × ℕ)) : Prop := ∀ x ∈ mp, x.2 ≤ N ∨ x.2 ∈ nodes.map Prod.fst

theorem secondNodes_tame {N : ℕ} (ports : List (ℕ × ℕ)) (hports : ∀ x ∈ ports, x.1 ≤ N) (L : List (ℕ × Label σ)) (hL : ∀ n ∈ L, n.2.names.Nodup) (nodes : List (ℕ × Label σ)) (mp : List (ℕ × ℕ)) (r : List (ℕ × Label σ) × List (ℕ × ℕ))
    (h : NodesTame N nodes) (hmp : MapTame N nodes mp) (hr : secondNodes ports L nodes mp = .ok r) : NodesTame N r.1 ∧ Grows nodes r.1 ∧ MapTame N r.1 r.2 := by
  induction L generalizing nodes mp with
  | nil =>
    rw [← Except.ok.inj hr]
    exact ⟨h, fun _ hv => hv, hmp⟩
  | cons n t ih =>
    obtain ⟨b, l⟩ := n
    have hl : l.names.Nodup := hL (b, l) List.mem_cons_self
    have ht : ∀ n ∈ t, n.2.names.Nodup := fun n hn => hL n (List.mem_cons_of_mem _ hn)
    unfold secondNodes at hr
    cases hp : portOf ports b with
    | none =>
      rw [hp] at hr
      obtain ⟨h1, h2, h3⟩ := addNode_tame h (nodes.length + 1) l (Or.inr (le_refl _)) hl
      obtain ⟨h4, h5, h6⟩ := ih ht _ _ h1 (fun x hx => by
        rcases List.mem_cons.1 hx with rfl | hx
        · exact Or.inr h2
        · exact (hmp x hx).imp id (h3 _)) hr
      exact ⟨h4, fun w hw => h5 w (h3 w hw), h6⟩
    | some a =>
      rw [hp] at hr
      have ha : a ≤ N := hports (a, b) (portOf_some hp)
      simp only at hr
      unfold addPortLabel at hr
      by_cases hl0 : l = .none
      · rw [if_pos hl0] at hr
        exact ih ht _ _ h hmp hr
      · rw [if_neg hl0] at hr
        cases hk : nodes.lookup a with
        | none => rw [hk] at hr; cases hr
        | some k =>
          rw [hk] at hr
          have hkn : k.names.Nodup := h.labels _ (lookup_mem hk)
          obtain ⟨h1, h2, h3⟩ := addNode_tame h a (if k = .none then l else newLabel l k) (Or.inl ha) (by
            split
            · exact hl
            · exact newLabel_nodup l k hl hkn)
          obtain ⟨h4, h5, h6⟩ := ih ht _ _ h1 (fun x hx => (hmp x hx).imp id (h3 _)) hr
          exact ⟨h4, fun w hw => h5 w (h3 w hw), h6⟩

theorem portMapping_tame {N : ℕ} (ports : List (ℕ × ℕ)) (hports : ∀ x ∈ ports, x.1 ≤ N) (nodes : List (ℕ × Label σ)) (mp : List (ℕ × ℕ)) (hmp : MapTame N nodes mp) : MapTame N nodes (portMapping ports mp) := by
  unfold portMapping
  induction ports generalizing mp with
  | nil => exact hmp
  | cons p t ih =>
    rw [List.foldl_cons]
    refine ih (fun x hx => hports x (List.mem_cons_of_mem _ hx)) _ ?_
    intro x hx
    rcases List.mem_cons.1 hx with rfl | hx
    · exact Or.inl (hports p List.mem_cons_self)
    · exact hmp x hx

theorem lookup_pair_mem (mp : List (ℕ × ℕ)) (b a : ℕ) (h : mp.lookup b = some a) : (b, a) ∈ mp := by
  induction mp with
  | nil => cases h
  | cons x t ih =>
    obtain ⟨c, e⟩ := x
    rw [List.lookup_cons] at h
    by_cases hc : b = c
    · subst hc
      simp only [beq_self_eq_true] at h
      cases h
      exact List.mem_cons_self
    · have : (b == c) = false := by simpa using hc
      rw [this] at h
      exact List.mem_cons_of_mem _ (ih h)

theorem mapped_tame {N : ℕ} {nodes : List (ℕ × Label σ)} {mp : List (ℕ × ℕ)} (hmp : MapTame N nodes mp) {b a : ℕ} (h : mapped mp b = .ok a) : a ≤ N ∨ a ∈ nodes.map Prod.fst := by
  unfold mapped at h
  cases hl : mp.lookup b with
  | none => rw [hl] at h; cases h
  | some c =>
    rw [hl] at h
    cases h
    exact hmp _ (lookup_pair_mem mp b a hl)

theorem edgeEnds_tame {N : ℕ} {nodes : List (ℕ × Label σ)} {ports mp : List (ℕ × ℕ)} (hports : ∀ x ∈ ports, x.1 ≤ N) (hmp : MapTame N nodes mp) {u v : ℕ} {x : ℕ × ℕ} (h : edgeEnds ports mp u v = .ok x) :
    (x.1 ≤ N ∨ x.1 ∈ nodes.map Prod.fst) ∧ (x.2 ≤ N ∨ x.2 ∈ nodes.map Prod.fst) := by
  have hport : ∀ {b a : ℕ}, portOf ports b = some a → a ≤ N := fun hp => hports _ (portOf_some hp)
  unfold edgeEnds at h
  cases hu : portOf ports u with
  | some a =>
    rw [hu] at h
    cases hv : mapped mp v with
    | error e => rw [hv] at h; cases h
    | ok b =>
      rw [hv] at h
      cases h
      exact ⟨Or.inl (hport hu), mapped_tame hmp hv⟩
  | none =>
    rw [hu] at h
    cases hv : portOf ports v with
    | some b =>
      rw [hv] at h
      cases hm : mapped mp u with
      | error e => rw [hm] at h; cases h
      | ok a =>
        rw [hm] at h
        cases h
        exact ⟨mapped_tame hmp hm, Or.inl (hport hv)⟩
    | none =>
      rw [hv] at h
      simp only at h
      by_cases he : u = v
      · rw [if_pos he] at h; cases h
      · rw [if_neg he] at h
        cases hm : mapped mp u with
        | error e => rw [hm] at h; cases h
        | ok a =>
          rw [hm] at h
          cases hn : mapped mp v with
          | error e => rw [hn] at h; cases h
          | ok b =>
            rw [hn] at h
            cases h
            exact ⟨mapped_tame hmp hm, mapped_tame hmp hn⟩

theorem secondEdges_tame {N : ℕ} {ports mp : List (ℕ × ℕ)} (hports : ∀ x ∈ ports, x.1 ≤ N) (L : List (ℕ × ℕ × Label σ)) (g g' : LGraph σ) (h : Tame N g) (hmp : MapTame N g.nodes mp)
    (hr : secondEdges false ports mp L g = .ok g') : Tame N g' := by
  induction L generalizing g with
  | nil => rw [← Except.ok.inj hr]; exact h
  | cons e t ih =>
    obtain ⟨u, v, l⟩ := e
    unfold secondEdges at hr
    cases he : edgeEnds ports mp u v with
    | error e => rw [he] at hr; cases hr
    | ok x =>
      rw [he] at hr
      obtain ⟨h1, h2⟩ := edgeEnds_tame hports hmp he
      simp only [Except.bind] at hr
      unfold addLabelled at hr
      by_cases hl : l = .none
      · rw [if_pos hl] at hr; cases hr
      · rw [if_neg hl] at hr
        obtain ⟨h3, h4⟩ := addEdge_tame h x.1 x.2 l hl h1 h2
        exact ih _ h3 (fun y hy => (hmp y hy).imp id (h4 _)) hr

/-- Merging keeps the property, whatever the ports are. -/
theorem merge_tame {N : ℕ} {p q g : LGraph σ} (ports : List (ℕ × ℕ)) (hp : Tame N p) (hq : Tame N q) (hports : ∀ x ∈ ports, x.1 ≤ N) (hr : mergeCand false p q ports = .ok g) : Tame N g := by
  unfold mergeCand at hr
  cases hf : firstPattern false p with
  | error e => rw [hf] at hr; cases hr
  | ok g1 =>
    rw [hf] at hr
    have h1 := firstPattern_tame hp hf
    simp only [Except.bind] at hr
    unfold secondPattern at hr
    cases hn : secondNodes ports q.nodes g1.nodes [] with
    | error e => rw [hn] at hr; cases hr
    | ok x =>
      rw [hn] at hr
      obtain ⟨h2, h3, h4⟩ := secondNodes_tame ports hports q.nodes hq.nodes.labels g1.nodes [] x h1.nodes (by simp [MapTame]) hn
      exact secondEdges_tame hports q.edges _ g (Tame.nodes_grow h1 h2 h3) (portMapping_tame ports hports _ _ h4) hr

end Verif.Graph
