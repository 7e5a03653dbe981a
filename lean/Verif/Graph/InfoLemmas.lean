import Verif.Graph.InfoModel
import Verif.Graph.RewriteLemmas
import Mathlib.Data.List.Nodup
import Mathlib.Data.List.Induction

/-!
# Summaries of a rewritten graph: lemmas
-/

set_option autoImplicit false
set_option linter.unusedSectionVars false

namespace Verif.Graph

variable {σ : Type} [DecidableEq σ]

theorem infoAt_add (k s : σ) (e : Info) (d : List (σ × List Info)) : infoAt (addInfo k e d) s = infoAt d s ++ if s = k then [e] else [] := by
  induction d with
  | nil =>
    by_cases h : s = k
    · simp [infoAt, addInfo, h]
    · have h' : (s == k) = false := by simpa using h
      simp [infoAt, addInfo, List.lookup_cons, h, h']
  | cons x t ih =>
    obtain ⟨a, l⟩ := x
    unfold infoAt at ih
    by_cases h : a = k
    · subst h
      by_cases h' : s = a
      · simp [infoAt, addInfo, h']
      · have h'' : (s == a) = false := by simpa using h'
        simp [infoAt, addInfo, List.lookup_cons, h', h'']
    · by_cases h' : s = a
      · have : ¬ s = k := fun e => h (h' ▸ e)
        subst h'
        simp [infoAt, addInfo, h]
      · have h'' : (s == a) = false := by simpa using h'
        simp [infoAt, addInfo, List.lookup_cons, h'', h, ih]

theorem keys_add (k s : σ) (e : Info) (d : List (σ × List Info)) : s ∈ (addInfo k e d).map Prod.fst ↔ s ∈ d.map Prod.fst ∨ s = k := by
  induction d with
  | nil => simp [addInfo]
  | cons x t ih =>
    obtain ⟨a, l⟩ := x
    unfold addInfo
    split
    · rename_i h; subst h; simp only [List.map_cons, List.mem_cons]; tauto
    · simp only [List.map_cons, List.mem_cons, ih]; tauto

/-- The list at a key after further nodes with this label. -/
def marks : List (List ℕ × Bool) → List Info → List Info
  | [], acc => acc
  | p :: t, acc => marks t (if p.2 = true ∧ Info.singleton ∉ acc ++ [.ports p.1] then acc ++ [.ports p.1] ++ [.singleton] else acc ++ [.ports p.1])

theorem marks_rows (l : List (List ℕ)) (acc : List Info) : marks (l.map (fun p => (p, false))) acc = acc ++ l.map .ports := by
  induction l generalizing acc with
  | nil => simp [marks]
  | cons p t ih => simp [marks, ih]

theorem marks_more (l : List (List ℕ)) (acc : List Info) (h : Info.singleton ∈ acc) : marks (l.map (fun p => (p, true))) acc = acc ++ l.map .ports := by
  induction l generalizing acc with
  | nil => simp [marks]
  | cons p t ih =>
    have : ¬ (True ∧ Info.singleton ∉ acc ++ [Info.ports p]) := by simp [h]
    simp only [List.map_cons, marks]
    rw [if_neg this, ih _ (by simp [h])]
    simp

theorem marks_singles (p : List ℕ) (l : List (List ℕ)) : marks ((p :: l).map (fun p => (p, true))) [] = .ports p :: .singleton :: l.map .ports := by
  simp only [List.map_cons, marks]
  rw [if_pos (by simp), marks_more _ _ (by simp)]
  simp

/-- The nodes with a label, with their numbers. -/
def RGraph.named (rg : RGraph σ) (s : σ) : List (RNode σ × ℕ) := (rg.nodes.zipIdx 1).filter (fun n => decide (n.1.label = s))

/-- What the loop makes of the nodes with a label when they all are patterns. -/
theorem infoLoop_at (rg : RGraph σ) (s : σ) (ns : List (RNode σ)) : ∀ (x : ℕ) (res : Option (List ℕ)) (d d' : List (σ × List Info)), (∀ n ∈ ns, n.label = s → n.isPattern = true) →
    infoLoop rg x ns res d = .ok d' → infoAt d' s = marks (((ns.zipIdx x).filter (fun n => decide (n.1.label = s))).map (fun n => (rg.outLabels n.2, n.1.isSingleton))) (infoAt d s) := by
  induction ns with
  | nil => intro x res d d' _ h; simp only [infoLoop, Except.ok.injEq] at h; subst h; rfl
  | cons n t ih =>
    intro x res d d' hp h
    simp only [infoLoop] at h
    have ht := fun m hm => hp m (List.mem_cons_of_mem _ hm)
    unfold infoStep at h
    by_cases hs : n.label = s
    · have hn := hp n (List.mem_cons_self ..) hs
      simp only [hn, if_true] at h
      have := ih _ _ _ _ ht h
      have hz : ((n :: t).zipIdx x).filter (fun n => decide (n.1.label = s)) = (n, x) :: (t.zipIdx (x + 1)).filter (fun n => decide (n.1.label = s)) := by
        rw [List.zipIdx_cons, List.filter_cons, if_pos (by simpa using hs)]
      rw [this, hz, List.map_cons]
      simp only [marks]
      congr 1
      subst hs
      split
      · rename_i hc
        rw [infoAt_add, if_pos rfl, infoAt_add, if_pos rfl]
        rw [infoAt_add, if_pos rfl] at hc
        rw [if_pos hc]
      · rename_i hc
        rw [infoAt_add, if_pos rfl]
        rw [infoAt_add, if_pos rfl] at hc
        rw [if_neg hc]
    · have key : ∀ (r : List ℕ), infoAt (if n.isSingleton = true ∧ Info.singleton ∉ infoAt (addInfo n.label (.ports r) d) n.label then addInfo n.label .singleton (addInfo n.label (.ports r) d) else addInfo n.label (.ports r) d) s = infoAt d s := by
        intro r
        have hs' : ¬ s = n.label := fun h => hs h.symm
        split
        · rw [infoAt_add, if_neg hs', infoAt_add, if_neg hs']; simp
        · rw [infoAt_add, if_neg hs']; simp
      rw [List.zipIdx_cons, List.filter_cons, if_neg (by simpa using hs)]
      cases hr : (if n.isPattern = true then some (rg.outLabels x) else res) with
      | none => rw [hr] at h; simp at h
      | some r =>
        rw [hr] at h
        simp only at h
        rw [ih _ _ _ _ ht h, key]

/-- The keys after the loop: the labels of all the nodes. -/
theorem infoLoop_keys (rg : RGraph σ) (s : σ) (ns : List (RNode σ)) : ∀ (x : ℕ) (res : Option (List ℕ)) (d d' : List (σ × List Info)),
    infoLoop rg x ns res d = .ok d' → (s ∈ d'.map Prod.fst ↔ s ∈ d.map Prod.fst ∨ s ∈ ns.map RNode.label) := by
  induction ns with
  | nil => intro x res d d' h; simp only [infoLoop, Except.ok.injEq] at h; subst h; simp
  | cons n t ih =>
    intro x res d d' h
    simp only [infoLoop] at h
    unfold infoStep at h
    cases hr : (if n.isPattern = true then some (rg.outLabels x) else res) with
    | none => rw [hr] at h; simp at h
    | some r =>
      rw [hr] at h
      simp only at h
      rw [ih _ _ _ _ h, List.map_cons, List.mem_cons]
      split
      · rw [keys_add, keys_add]; tauto
      · rw [keys_add]; tauto

/-- The loop does not raise once a pattern node was met. -/
theorem infoLoop_ok (rg : RGraph σ) (ns : List (RNode σ)) : ∀ (x : ℕ) (r : List ℕ) (d : List (σ × List Info)), ∃ d', infoLoop rg x ns (some r) d = .ok d' := by
  induction ns with
  | nil => intro x r d; exact ⟨d, rfl⟩
  | cons n t ih =>
    intro x r d
    simp only [infoLoop]
    unfold infoStep
    by_cases hn : n.isPattern = true
    · simp only [hn, if_true]; exact ih _ _ _
    · simp only [hn]; exact ih _ _ _

/-! ## The rewritten graph piece by piece -/

variable {nm : Names σ}

/-- A port node. -/
def portNode (nm : Names σ) (v : ℕ) : RNode σ := ⟨nm.vertex v, false, false⟩

theorem rewriteEdge_eq (x : ℕ) (rg : RGraph σ) (va : ℕ × ℕ) :
    ∃ (y : ℕ) (k : List (RNode σ)) (n : RNode σ), rewriteEdge nm x rg va = RGraph.addEdge ⟨rg.nodes ++ k, rg.edges⟩ x y va.2 ∧
      1 ≤ y ∧ (rg.nodes ++ k)[y - 1]? = some n ∧ n.label = nm.vertex va.1 ∧
      ((k = [] ∧ nm.vertex va.1 ∈ rg.nodes.map RNode.label) ∨ (k = [portNode nm va.1] ∧ nm.vertex va.1 ∉ rg.nodes.map RNode.label)) := by
  unfold rewriteEdge
  simp only
  split
  · rename_i h
    refine ⟨_, [], rg.nodes[rg.nodes.findIdx (fun n => decide (n.label = nm.vertex va.1))], by rw [List.append_nil], by omega, ?_, ?_, .inl ⟨rfl, ?_⟩⟩
    · rw [List.append_nil, Nat.add_sub_cancel]; exact List.getElem?_eq_getElem h
    · simpa using List.findIdx_getElem (w := h)
    · exact List.mem_map.2 ⟨_, List.getElem_mem h, by simpa using List.findIdx_getElem (w := h)⟩
  · rename_i h
    refine ⟨_, [portNode nm va.1], portNode nm va.1, rfl, by omega, ?_, rfl, .inr ⟨rfl, ?_⟩⟩
    · rw [Nat.add_sub_cancel]; simp
    · intro hm
      obtain ⟨n, hn, he⟩ := List.mem_map.1 hm
      exact h (List.findIdx_lt_length_of_exists ⟨n, hn, by simpa using he⟩)

theorem get_append_old' {α : Type} {l : List α} {i : ℕ} {x : α} (k : List α) (h : l[i]? = some x) : (l ++ k)[i]? = some x := by
  rw [List.getElem?_append_left (List.getElem?_eq_some_iff.1 h).1]
  exact h

/-- What adding the ports of a node does. -/
theorem ports_fold (hnm : nm.Ok) (x : ℕ) (N : List (RNode σ)) (E : List (ℕ × ℕ × ℕ)) (hE : ∀ e ∈ E, e.1 ≠ x) (qs : List (ℕ × ℕ)) : (qs.map Prod.fst).Nodup →
    ∃ (K : List (RNode σ)) (F : List (ℕ × ℕ × ℕ)), qs.foldl (rewriteEdge nm x) ⟨N, E⟩ = ⟨N ++ K, E ++ F⟩ ∧ F.map (fun e => e.2.2) = qs.map Prod.snd ∧ (∀ e ∈ F, e.1 = x) ∧
      (∀ e ∈ F, ∃ u ∈ qs.map Prod.fst, 1 ≤ e.2.1 ∧ ∃ n, (N ++ K)[e.2.1 - 1]? = some n ∧ n.label = nm.vertex u) ∧
      (∀ n ∈ K, ∃ u ∈ qs.map Prod.fst, n = portNode nm u ∧ nm.vertex u ∉ N.map RNode.label) ∧ (K.map RNode.label).Nodup ∧
      ∀ u ∈ qs.map Prod.fst, nm.vertex u ∈ (N ++ K).map RNode.label := by
  induction qs using List.reverseRecOn with
  | nil => intro _; exact ⟨[], [], by simp, rfl, by simp, by simp, by simp, by simp, by simp⟩
  | append_singleton qs q ih =>
    intro hn
    rw [List.map_append, List.nodup_append] at hn
    obtain ⟨K, F, h1, h2, h3, h4, h5, h6, h7⟩ := ih hn.1
    obtain ⟨y, k, n, e1, e2, e3, e4, e5⟩ := rewriteEdge_eq (nm := nm) x ⟨N ++ K, E ++ F⟩ q
    simp only at e1 e3 e5
    have hnew : ((E ++ F).any (fun e => decide (e.1 = x ∧ e.2.1 = y))) = false := by
      rw [List.any_eq_false]
      intro e he
      simp only [decide_eq_true_eq, not_and]
      intro hx hy
      rcases List.mem_append.1 he with he | he
      · exact hE e he hx
      · obtain ⟨u, hu, _, m, hm, hml⟩ := h4 e he
        rw [hy] at hm
        rw [get_append_old' k hm] at e3
        have : u = q.1 := hnm.vertex u q.1 (hml.symm.trans ((congrArg RNode.label (Option.some.inj e3)).trans e4))
        exact hn.2.2 u hu q.1 (by simp) this
    refine ⟨K ++ k, F ++ [(x, y, q.2)], ?_, ?_, ?_, ?_, ?_, ?_, ?_⟩
    · rw [List.foldl_append, h1]
      simp only [List.foldl_cons, List.foldl_nil]
      rw [e1]
      unfold RGraph.addEdge
      simp only [hnew]
      simp
    · simp [h2]
    · intro e he
      rcases List.mem_append.1 he with he | he
      · exact h3 e he
      · rw [List.mem_singleton] at he; rw [he]
    · intro e he
      rw [List.map_append, ← List.append_assoc]
      rcases List.mem_append.1 he with he | he
      · obtain ⟨u, hu, hy, m, hm, hml⟩ := h4 e he
        exact ⟨u, List.mem_append_left _ hu, hy, m, get_append_old' k hm, hml⟩
      · rw [List.mem_singleton] at he
        subst he
        exact ⟨q.1, by simp, e2, n, e3, e4⟩
    · intro m hm
      rw [List.map_append]
      rcases List.mem_append.1 hm with hm | hm
      · obtain ⟨u, hu, hmu⟩ := h5 m hm
        exact ⟨u, List.mem_append_left _ hu, hmu⟩
      · rcases e5 with ⟨rfl, -⟩ | ⟨rfl, hno⟩
        · simp at hm
        · rw [List.mem_singleton] at hm
          refine ⟨q.1, by simp, hm, fun h => hno ?_⟩
          rw [List.map_append]
          exact List.mem_append_left _ h
    · rcases e5 with ⟨rfl, -⟩ | ⟨rfl, hno⟩
      · simpa using h6
      · rw [List.map_append, List.nodup_append]
        refine ⟨h6, by simp, ?_⟩
        intro a ha b hb hab
        simp only [List.map_cons, List.map_nil, List.mem_singleton] at hb
        apply hno
        rw [List.map_append]
        apply List.mem_append_right
        rw [hab, hb] at ha
        exact ha
    · intro u hu
      rw [List.map_append] at hu
      rw [← List.append_assoc, List.map_append]
      rcases List.mem_append.1 hu with hu | hu
      · exact List.mem_append_left _ (h7 u hu)
      · simp only [List.map_cons, List.map_nil, List.mem_singleton] at hu
        subst hu
        rcases e5 with ⟨rfl, hin⟩ | ⟨rfl, -⟩
        · exact List.mem_append_left _ hin
        · exact List.mem_append_right _ (by simp [portNode])

end Verif.Graph
