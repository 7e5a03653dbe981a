import Verif.Graph.DescSpec
import Verif.Graph.PreqProps
import Verif.Graph.LabelProps
import Verif.Graph.RewriteLemmas

/-!
# The description of the rewritten graph: lemmas
-/

set_option autoImplicit false
set_option linter.unusedSectionVars false

namespace Verif.Graph

variable {σ : Type} [DecidableEq σ] {nm : Names σ}

/-! ## Degrees of the ports -/

/-- The rewritten graph has the ports `V` and the edges `D`, pairs of a node and a data vertex. -/
structure Tally (nm : Names σ) (rg : RGraph σ) (V : List ℕ) (D : List (ℕ × ℕ)) : Prop where
  ports : rg.nodes.zipIdx.filter (fun n => !n.1.isPattern) = V.map (fun v => (⟨nm.vertex v, false, false⟩, rg.nodes.findIdx (isPort nm v)))
  found : ∀ v ∈ V, rg.nodes.findIdx (isPort nm v) < rg.nodes.length
  nodup : V.Nodup
  used : ∀ v, v ∈ V ↔ v ∈ D.map Prod.snd
  edges : rg.edges.map (fun e => (e.1, e.2.1)) = D.map (fun d => (d.1, rg.nodes.findIdx (isPort nm d.2) + 1))
  plain : ∀ n ∈ rg.nodes, n.isPattern = true → ∀ v, n.label ≠ nm.vertex v
  bound : ∀ d ∈ D, d.1 ≤ rg.nodes.length

theorem findIdx_keep {α : Type} (l : List α) (P : α → Bool) (n : α) (h : l.findIdx P < l.length) : (l ++ [n]).findIdx P = l.findIdx P := by
  rw [List.findIdx_append, if_pos h]

theorem zipIdx_snoc {α : Type} (l : List α) (n : α) : (l ++ [n]).zipIdx = l.zipIdx ++ [(n, l.length)] := by
  rw [List.zipIdx_append]; simp

theorem Tally.addPattern {rg : RGraph σ} {V : List ℕ} {D : List (ℕ × ℕ)} (h : Tally nm rg V D) (n : RNode σ) (hn : n.isPattern = true) (hl : ∀ v, n.label ≠ nm.vertex v) :
    Tally nm { rg with nodes := rg.nodes ++ [n] } V D := by
  have hk : ∀ v ∈ V, (rg.nodes ++ [n]).findIdx (isPort nm v) = rg.nodes.findIdx (isPort nm v) := fun v hv => findIdx_keep _ _ _ (h.found v hv)
  refine ⟨?_, ?_, h.nodup, h.used, ?_, ?_, ?_⟩
  · simp only
    rw [zipIdx_snoc, List.filter_append, h.ports]
    simp only [hn, Bool.not_true, List.filter_cons, Bool.false_eq_true, if_false, List.filter_nil, List.append_nil]
    exact List.map_congr_left (fun v hv => by rw [hk v hv])
  · intro v hv
    simp only
    rw [hk v hv, List.length_append]
    exact Nat.lt_add_right _ (h.found v hv)
  · simp only
    rw [h.edges]
    exact List.map_congr_left (fun d hd => by rw [hk d.2 ((h.used d.2).mpr (List.mem_map.mpr ⟨d, hd, rfl⟩))])
  · intro m hm
    rcases List.mem_append.mp hm with hm | hm
    · exact h.plain m hm
    · rw [List.mem_singleton] at hm; subst hm; exact fun _ => hl
  · intro d hd
    simp only [List.length_append]
    exact Nat.le_add_right_of_le (h.bound d hd)

theorem addEdge_new (rg : RGraph σ) (x y a : ℕ) (h : (x, y) ∉ rg.edges.map (fun e => (e.1, e.2.1))) : rg.addEdge x y a = { rg with edges := rg.edges ++ [(x, y, a)] } := by
  unfold RGraph.addEdge
  rw [if_neg]
  intro hc
  obtain ⟨e, he, hd⟩ := List.any_eq_true.mp hc
  have := of_decide_eq_true hd
  exact h (List.mem_map.mpr ⟨e, he, by rw [this.1, this.2]⟩)

theorem findIdx_label (nm : Names σ) (l : List (RNode σ)) (v : ℕ) (h : l.findIdx (isPort nm v) < l.length) : (l[l.findIdx (isPort nm v)]'h).label = nm.vertex v := by
  have := List.findIdx_getElem (w := h)
  simpa [isPort] using this

theorem findIdx_inj (hnm : nm.Ok) (l : List (RNode σ)) (u v : ℕ) (hu : l.findIdx (isPort nm u) < l.length) (h : l.findIdx (isPort nm u) = l.findIdx (isPort nm v)) : u = v := by
  have h1 := findIdx_label nm l u hu
  have h2 := findIdx_label nm l v (h ▸ hu)
  refine hnm.vertex _ _ (h1.symm.trans (Eq.trans ?_ h2))
  congr 2

theorem Tally.addEdge (hnm : nm.Ok) {rg : RGraph σ} {V : List ℕ} {D : List (ℕ × ℕ)} (h : Tally nm rg V D) (x v a : ℕ) (hx : x ≤ rg.nodes.length) (hnew : (x, v) ∉ D) :
    ∃ V', Tally nm (rewriteEdge nm x rg (v, a)) V' (D ++ [(x, v)]) ∧ rg.nodes.length ≤ (rewriteEdge nm x rg (v, a)).nodes.length := by
  unfold rewriteEdge
  simp only
  by_cases hlt : rg.nodes.findIdx (isPort nm v) < rg.nodes.length
  · rw [if_pos hlt]
    refine ⟨V, ?_, Nat.le_refl _⟩
    -- the node found is a port, as no pattern has this name
    have hv : v ∈ V := by
      have hl := findIdx_label nm rg.nodes v hlt
      have hnp : (rg.nodes[rg.nodes.findIdx (isPort nm v)]'hlt).isPattern = false := by
        cases hb : (rg.nodes[rg.nodes.findIdx (isPort nm v)]'hlt).isPattern with
        | false => rfl
        | true => exact absurd hl (h.plain _ (List.getElem_mem hlt) hb v)
      have hm : (rg.nodes[rg.nodes.findIdx (isPort nm v)]'hlt, rg.nodes.findIdx (isPort nm v)) ∈ rg.nodes.zipIdx.filter (fun n => !n.1.isPattern) := by
        rw [List.mem_filter]
        refine ⟨?_, by simp [hnp]⟩
        rw [List.mem_zipIdx_iff_getElem?]
        exact List.getElem?_eq_getElem hlt
      rw [h.ports] at hm
      obtain ⟨u, hu, he⟩ := List.mem_map.mp hm
      rw [findIdx_inj hnm rg.nodes u v (h.found u hu) (congrArg Prod.snd he)] at hu
      exact hu
    have hno : (x, rg.nodes.findIdx (isPort nm v) + 1) ∉ rg.edges.map (fun e => (e.1, e.2.1)) := by
      rw [h.edges]
      intro hc
      obtain ⟨d, hd, he⟩ := List.mem_map.mp hc
      have hd2 : d.2 = v := findIdx_inj hnm rg.nodes _ _ (h.found _ ((h.used _).mpr (List.mem_map.mpr ⟨d, hd, rfl⟩))) (by have := congrArg Prod.snd he; simpa using this)
      exact hnew (by rw [← hd2, ← show d.1 = x from congrArg Prod.fst he]; exact hd)
    rw [addEdge_new _ _ _ _ hno]
    refine ⟨h.ports, h.found, h.nodup, ?_, ?_, h.plain, ?_⟩
    · intro w
      rw [h.used, List.map_append, List.mem_append]
      refine ⟨Or.inl, fun hw => hw.elim id (fun hw => ?_)⟩
      simp only [List.map_cons, List.map_nil, List.mem_singleton] at hw
      rw [hw]; exact (h.used v).mp hv
    · simp only
      rw [List.map_append, h.edges, List.map_append]; rfl
    · intro d hd
      rcases List.mem_append.mp hd with hd | hd
      · exact h.bound d hd
      · rw [List.mem_singleton] at hd; subst hd; exact hx
  · rw [if_neg hlt]
    have hv : v ∉ V := fun hv => hlt (h.found v hv)
    have hidx : (rg.nodes ++ [(⟨nm.vertex v, false, false⟩ : RNode σ)]).findIdx (isPort nm v) = rg.nodes.length := by
      rw [List.findIdx_append, if_neg hlt]; simp [isPort]
    have hk : ∀ w ∈ V, (rg.nodes ++ [(⟨nm.vertex v, false, false⟩ : RNode σ)]).findIdx (isPort nm w) = rg.nodes.findIdx (isPort nm w) := fun w hw => findIdx_keep _ _ _ (h.found w hw)
    have hno : (x, rg.nodes.length + 1) ∉ (({ rg with nodes := rg.nodes ++ [⟨nm.vertex v, false, false⟩] } : RGraph σ)).edges.map (fun e => (e.1, e.2.1)) := by
      simp only
      rw [h.edges]
      intro hc
      obtain ⟨d, hd, he⟩ := List.mem_map.mp hc
      have := h.found d.2 ((h.used _).mpr (List.mem_map.mpr ⟨d, hd, rfl⟩))
      have he2 : rg.nodes.findIdx (isPort nm d.2) + 1 = rg.nodes.length + 1 := congrArg Prod.snd he
      omega
    rw [addEdge_new _ _ _ _ hno]
    refine ⟨V ++ [v], ⟨?_, ?_, ?_, ?_, ?_, ?_, ?_⟩, ?_⟩
    · simp only
      rw [zipIdx_snoc, List.filter_append, h.ports, List.map_append]
      simp only [Bool.not_false, List.filter_cons, if_true, List.filter_nil, List.map_cons, List.map_nil, hidx]
      congr 1
      exact List.map_congr_left (fun w hw => by rw [hk w hw])
    · intro w hw
      simp only
      rw [List.length_append]
      rcases List.mem_append.mp hw with hw | hw
      · rw [hk w hw]; exact Nat.lt_add_right _ (h.found w hw)
      · rw [List.mem_singleton] at hw; subst hw; rw [hidx]; simp
    · exact List.nodup_append.mpr ⟨h.nodup, List.nodup_singleton v, fun a ha b hb hab => hv (by rw [List.mem_singleton] at hb; rw [← hb, ← hab]; exact ha)⟩
    · intro w
      rw [List.mem_append, h.used, List.map_append, List.mem_append]; simp
    · simp only
      rw [List.map_append, h.edges, List.map_append]
      simp only [List.map_cons, List.map_nil, hidx]
      congr 1
      exact List.map_congr_left (fun d hd => by rw [hk d.2 ((h.used d.2).mpr (List.mem_map.mpr ⟨d, hd, rfl⟩))])
    · intro n hn hp
      rcases List.mem_append.mp hn with hn | hn
      · exact h.plain n hn hp
      · rw [List.mem_singleton] at hn; subst hn; cases hp
    · intro d hd
      simp only [List.length_append]
      rcases List.mem_append.mp hd with hd | hd
      · exact Nat.le_add_right_of_le (h.bound d hd)
      · rw [List.mem_singleton] at hd; subst hd; exact Nat.le_add_right_of_le hx
    · simp

theorem Tally.addEdges (hnm : nm.Ok) (x : ℕ) (qs : List (ℕ × ℕ)) (hq : (qs.map Prod.fst).Nodup) : ∀ (rg : RGraph σ) (V : List ℕ) (D : List (ℕ × ℕ)), Tally nm rg V D → x ≤ rg.nodes.length →
    (∀ q ∈ qs, (x, q.1) ∉ D) → ∃ V', Tally nm (qs.foldl (rewriteEdge nm x) rg) V' (D ++ qs.map (fun q => (x, q.1))) := by
  induction qs with
  | nil => intro rg V D h _ _; exact ⟨V, by simpa using h⟩
  | cons q t ih =>
    intro rg V D h hx hn
    rw [List.map_cons, List.nodup_cons] at hq
    obtain ⟨V1, h1, hle⟩ := h.addEdge hnm x q.1 q.2 hx (hn q (List.mem_cons_self ..))
    obtain ⟨V2, h2⟩ := ih hq.2 (rewriteEdge nm x rg q) V1 (D ++ [(x, q.1)]) h1 (Nat.le_trans hx hle) (by
      intro q' hq' hc
      rcases List.mem_append.mp hc with hc | hc
      · exact hn q' (List.mem_cons_of_mem _ hq') hc
      · simp only [List.mem_singleton, Prod.mk.injEq, true_and] at hc
        exact hq.1 (List.mem_map.mpr ⟨q', hq', hc⟩))
    exact ⟨V2, by rw [List.append_assoc] at h2; exact h2⟩

theorem rewriteEdge_patterns (nm : Names σ) (x : ℕ) (rg : RGraph σ) (q : ℕ × ℕ) : (rewriteEdge nm x rg q).nodes.filter (fun n => n.isPattern) = rg.nodes.filter (fun n => n.isPattern) := by
  unfold rewriteEdge
  simp only
  split
  · rfl
  · change (rg.nodes ++ [_]).filter _ = _
    rw [List.filter_append]; simp

theorem rewrite_patterns (nm : Names σ) (ps : List (Piece σ)) : ((rewriteGraph nm ps).nodes.filter (fun n => n.isPattern)).length = ps.length := by
  unfold rewriteGraph
  induction ps using List.reverseRecOn with
  | nil => rfl
  | append_singleton ps pc ih =>
    rw [List.foldl_append, List.length_append, ← ih]
    simp only [List.foldl_cons, List.foldl_nil, addPiece]
    have key : ∀ (qs : List (ℕ × ℕ)) (x : ℕ) (rg : RGraph σ), (qs.foldl (rewriteEdge nm x) rg).nodes.filter (fun n => n.isPattern) = rg.nodes.filter (fun n => n.isPattern) := by
      intro qs
      induction qs with
      | nil => intro x rg; rfl
      | cons q t ih => intro x rg; rw [List.foldl_cons, ih, rewriteEdge_patterns]
    rw [key]
    simp only [List.filter_append, List.length_append]
    congr 1
    cases pc <;> rfl

/-- The ports of the rewritten graph and their degrees. -/
theorem rewrite_tally (hnm : nm.Ok) (ps : List (Piece σ)) (hp : ∀ pc ∈ ps, (pc.ports.map Prod.fst).Nodup) (hl : ∀ pc ∈ ps, ∀ v, (pc.node nm).label ≠ nm.vertex v) :
    ∃ V D, Tally nm (rewriteGraph nm ps) V D ∧ D.map Prod.snd = destinations ps := by
  unfold rewriteGraph
  induction ps using List.reverseRecOn with
  | nil => exact ⟨[], [], ⟨rfl, by simp, List.nodup_nil, by simp, rfl, by simp, by simp⟩, rfl⟩
  | append_singleton ps pc ih =>
    obtain ⟨V, D, h, hD⟩ := ih (fun q hq => hp q (List.mem_append_left _ hq)) (fun q hq => hl q (List.mem_append_left _ hq))
    rw [List.foldl_append]
    simp only [List.foldl_cons, List.foldl_nil]
    obtain ⟨rg, hrg⟩ : ∃ rg, rg = ps.foldl (fun rg pc => addPiece nm rg (pc.node nm) pc.ports) ⟨[], []⟩ := ⟨_, rfl⟩
    rw [← hrg] at h ⊢
    unfold addPiece
    have hpat : (pc.node nm).isPattern = true := by cases pc <;> rfl
    obtain ⟨V', h'⟩ := Tally.addEdges hnm (rg.nodes.length + 1) pc.ports (hp pc (by simp)) _ _ _ (h.addPattern (pc.node nm) hpat (hl pc (by simp))) (by simp) (by
      intro q _ hc
      have := h.bound _ hc
      simp only at this
      omega)
    refine ⟨V', _, h', ?_⟩
    rw [List.map_append, hD, List.map_map]
    unfold destinations
    rw [List.flatMap_append]
    simp [Function.comp_def]

theorem Tally.degrees (hnm : nm.Ok) {rg : RGraph σ} {V : List ℕ} {D : List (ℕ × ℕ)} (h : Tally nm rg V D) :
    rg.portDegrees = V.map (fun v => (D.map Prod.snd).count v) ∧ (rg.nodes.filter (fun n => !n.isPattern)).length = V.length := by
  constructor
  · unfold RGraph.portDegrees
    rw [h.ports, List.map_map]
    refine List.map_congr_left (fun v hv => ?_)
    simp only [Function.comp]
    unfold RGraph.inDegree
    have h1 : (rg.edges.filter (fun e => decide (e.2.1 = rg.nodes.findIdx (isPort nm v) + 1))).length =
        ((rg.edges.map (fun e => (e.1, e.2.1))).filter (fun e => decide (e.2 = rg.nodes.findIdx (isPort nm v) + 1))).length := by
      rw [List.filter_map, List.length_map]; rfl
    rw [h1, h.edges, List.filter_map, List.length_map, List.count_eq_countP, List.countP_map, ← List.countP_eq_length_filter]
    refine List.countP_congr (fun d hd => ?_)
    simp only [Function.comp, decide_eq_true_eq, Nat.add_right_cancel_iff, beq_iff_eq]
    constructor
    · intro he
      exact findIdx_inj hnm rg.nodes _ _ (h.found _ ((h.used _).mpr (List.mem_map.mpr ⟨d, hd, rfl⟩))) he
    · rintro rfl; rfl
  · have h1 := congrArg List.length h.ports
    rw [List.length_map] at h1
    rw [← h1]
    have key : ∀ (l : List (RNode σ)) (k : ℕ), ((l.zipIdx k).filter (fun n => !n.1.isPattern)).length = (l.filter (fun n => !n.isPattern)).length := by
      intro l
      induction l with
      | nil => intro k; rfl
      | cons n t ih => intro k; rw [List.zipIdx_cons, List.filter_cons, List.filter_cons]; split <;> simp [ih]
    exact (key _ _).symm

end Verif.Graph
