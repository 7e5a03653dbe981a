import Verif.Graph.RelabelDesc

/-!
# Candidates and merged patterns with other names for the labels
-/

set_option autoImplicit false
set_option linter.unusedSectionVars false

namespace Verif.Graph

variable {σ τ : Type} [DecidableEq σ] [DecidableEq τ]

/-- What the generation reads, with the new names. -/
def GenEnv.relabel (g : σ ≃ τ) (env : GenEnv σ) : GenEnv τ where
  ordPairs := env.ordPairs
  ordPorts := env.ordPorts
  idx l := env.idx (g.symm l)
  lt a b := env.lt (g.symm a) (g.symm b)
  isE l := env.isE (g.symm l)
  isV l := env.isV (g.symm l)
  nRows := env.nRows
  noEdge := env.noEdge

theorem genEnv_relabel_ok (g : σ ≃ τ) {env : GenEnv σ} (h : env.Ok) : (env.relabel g).Ok :=
  ⟨h.pairs, h.ports, fun a b hab => h.asymm _ _ hab, fun a b hab => h.total _ _ (fun e => hab (g.symm.injective e))⟩

theorem node?_relabel (g : σ ≃ τ) (rg : RGraph σ) (x : ℕ) : (rg.relabel g).node? x = (rg.node? x).map (RNode.relabel g) := by
  unfold RGraph.node? RGraph.relabel
  split
  · rfl
  · simp

theorem portNodes_relabel (g : σ ≃ τ) (rg : RGraph σ) : (rg.relabel g).portNodes = rg.portNodes := by
  have hl : (rg.relabel g).nodes.length = rg.nodes.length := by simp [RGraph.relabel]
  unfold RGraph.portNodes
  rw [hl]
  congr 1
  funext x
  rw [node?_relabel]
  cases rg.node? x <;> rfl

theorem sharedPorts_relabel (g : σ ≃ τ) (rg : RGraph σ) (x y : ℕ) : (rg.relabel g).sharedPorts x y = rg.sharedPorts x y := by
  unfold RGraph.sharedPorts
  rw [portNodes_relabel]
  rfl

theorem portTuples_relabel (g : σ ≃ τ) (rg : RGraph σ) (ports : List ℕ) (x y : ℕ) (b : Bool) : portTuples (rg.relabel g) ports x y b = portTuples rg ports x y b := rfl

theorem singletonPattern_relabel (g : σ ≃ τ) (env : GenEnv σ) (l : σ) : singletonPattern (env.relabel g) (g l) = (singletonPattern env l).map (PKind.relabel g) := by
  unfold singletonPattern GenEnv.relabel
  simp only [Equiv.symm_apply_apply]
  split
  · rfl
  · split <;> rfl

theorem rowPattern_relabel (g : σ ≃ τ) (env : GenEnv σ) (i : ℕ) : rowPattern (env.relabel g) i = (rowPattern env i).map (PKind.relabel g) := by
  unfold rowPattern GenEnv.relabel
  simp only
  split <;> rfl

theorem makeCand_relabel (g : σ ≃ τ) (env : GenEnv σ) (rg : RGraph σ) (x y : ℕ) : makeCand (env.relabel g) (rg.relabel g) x y = (makeCand env rg x y).map (GCand.relabel g) := by
  unfold makeCand
  rw [node?_relabel, node?_relabel, sharedPorts_relabel]
  cases rg.node? x with
  | none => rfl
  | some n =>
    cases rg.node? y with
    | none => rfl
    | some m =>
      have hi : ∀ l, (env.relabel g).idx (g l) = env.idx l := fun l => by simp [GenEnv.relabel]
      have hlt : ∀ a b, (env.relabel g).lt (g a) (g b) = env.lt a b := fun a b => by simp [GenEnv.relabel]
      have ho : (env.relabel g).ordPorts = env.ordPorts := rfl
      simp only [Option.map_some, RNode.relabel, ho, portTuples_relabel, rowPattern_relabel, singletonPattern_relabel, hlt, hi]
      obtain ⟨ln, pn, sn⟩ := n
      obtain ⟨lm, pm, sm⟩ := m
      cases sn <;> cases sm
      · simp only [Bool.not_false, Bool.and_self, if_true]
        cases hd : decide (env.idx ln < env.idx lm)
        · simp only [Bool.not_false, if_true, hi]
          cases rowPattern env (env.idx lm) <;> cases rowPattern env (env.idx ln) <;> rfl
        · simp only [Bool.not_true, Bool.false_eq_true, if_false, hi]
          cases rowPattern env (env.idx ln) <;> cases rowPattern env (env.idx lm) <;> rfl
      · simp only [Bool.not_false, Bool.not_true, Bool.and_false, Bool.false_and, Bool.and_true, Bool.true_and, Bool.false_eq_true, if_true, if_false]
        cases rowPattern env (env.idx ln) <;> cases singletonPattern env lm <;> rfl
      · simp only [Bool.not_false, Bool.not_true, Bool.and_false, Bool.false_and, Bool.and_true, Bool.true_and, Bool.false_eq_true, if_true, if_false]
        cases rowPattern env (env.idx lm) <;> rfl
      · simp only [Bool.not_false, Bool.not_true, Bool.and_false, Bool.false_and, Bool.and_true, Bool.true_and, Bool.false_eq_true, if_true, if_false]
        split <;> rfl

theorem same_relabel (g : σ ≃ τ) (a b : GCand σ) : (a.relabel g).same (b.relabel g) = a.same b := by
  simp [GCand.same, GCand.relabel, g.injective.eq_iff]

theorem addCand_relabel (g : σ ≃ τ) (c : GCand σ) : ∀ l : List (GCand σ), addCand (l.map (GCand.relabel g)) (c.relabel g) = (addCand l c).map (GCand.relabel g)
  | [] => rfl
  | d :: t => by
    have ih := addCand_relabel g c t
    rw [List.map_cons, addCand, addCand, same_relabel]
    split
    · rfl
    · rw [ih]; rfl

theorem collect_relabel (g : σ ≃ τ) (env : GenEnv σ) (rg : RGraph σ) : ∀ (l : List (ℕ × ℕ)) (cs : List (GCand σ)), collect (env.relabel g) (rg.relabel g) l (cs.map (GCand.relabel g)) = (collect env rg l cs).map (List.map (GCand.relabel g))
  | [], _ => rfl
  | q :: t, cs => by
    rw [collect, collect, makeCand_relabel, Except.bind_map', Except.map_bind']
    refine Except.bind_congr' _ (fun c => ?_)
    rw [addCand_relabel]
    exact collect_relabel g env rg t _

theorem infos_relabel (g : σ ≃ τ) (rg : RGraph σ) (p : ℕ) : (rg.relabel g).infos p = (rg.infos p).map (fun i => (g i.1, i.2)) := by
  unfold RGraph.infos
  rw [List.map_filterMap]
  refine List.filterMap_congr (fun e _ => ?_)
  rw [node?_relabel]
  cases rg.node? e.1 <;> rfl

theorem patternUsage_relabel (g : σ ≃ τ) (rg : RGraph σ) (fmt : List (σ × ℕ)) (ports : Finset ℕ) : patternUsage (rg.relabel g) (fmt.map (fun i => (g i.1, i.2))) ports = patternUsage rg fmt ports := by
  have hm : ∀ i : σ × ℕ, (g i.1, i.2) ∈ fmt.map (fun i => (g i.1, i.2)) ↔ i ∈ fmt := by
    intro i
    simp only [List.mem_map, Prod.mk.injEq, g.injective.eq_iff]
    constructor
    · rintro ⟨j, hj, h1, h2⟩
      rwa [show i = j from Prod.ext h1.symm h2.symm]
    · exact fun h => ⟨i, h, rfl, rfl⟩
  unfold patternUsage
  simp only [infos_relabel, List.countP_map, Function.comp_def, hm, List.length_map]

theorem noEdge_relabel (g : σ ≃ τ) (env : GenEnv σ) (k : PKind σ) : (k.relabel g).noEdge (env.relabel g) = k.noEdge env := by cases k <;> rfl

theorem nodesWith_relabel (g : σ ≃ τ) (rg : RGraph σ) (l : σ) : nodesWith (rg.relabel g) (g l) = nodesWith rg l := by
  simp [nodesWith, RGraph.relabel, List.countP_map, Function.comp_def, RNode.relabel, g.injective.eq_iff]

theorem candUsage_relabel (g : σ ≃ τ) (env : GenEnv σ) (rg : RGraph σ) (c : GCand σ) : candUsage (env.relabel g) (rg.relabel g) (c.relabel g) = candUsage env rg c := by
  have h1 := patternUsage_relabel g rg (c.port.map (fun p => (c.first, p.1))) c.dataPort
  have h2 := patternUsage_relabel g rg (c.port.map (fun p => (c.second, p.2))) c.dataPort
  simp only [List.map_map, Function.comp_def] at h1 h2
  have hE : ∀ l, (env.relabel g).isE (g l) = env.isE l := fun l => by simp [GenEnv.relabel]
  unfold candUsage
  simp only [GCand.relabel, h1, h2, g.injective.eq_iff, nodesWith_relabel, hE]
  split
  · rfl
  · cases c.firstPat <;> cases c.secondPat <;> simp only [Option.map_none, Option.map_some, noEdge_relabel]

theorem flip_relabel (g : σ ≃ τ) (c : GCand σ) : (c.relabel g).flip = c.flip.relabel g := by
  unfold GCand.flip
  have h : (c.relabel g).first = (c.relabel g).second ↔ c.first = c.second := g.injective.eq_iff
  simp only [h]
  split <;> rfl

theorem exclusivePorts_relabel (g : σ ≃ τ) (cs : List (GCand σ)) (r : GCand σ) : exclusivePorts (cs.map (GCand.relabel g)) (r.relabel g) = exclusivePorts cs r := by
  unfold exclusivePorts
  simp only [List.all_map, Function.comp_def, same_relabel]
  rfl

theorem finalPats_relabel (g : σ ≃ τ) (env : GenEnv σ) (c : GCand σ) : finalPats (env.relabel g) (c.relabel g) = (finalPats env c).map (Prod.map (Option.map (PKind.relabel g)) (Option.map (PKind.relabel g))) := by
  unfold finalPats
  simp only [GCand.relabel, singletonPattern_relabel]
  cases c.firstPat <;> cases c.secondPat <;> simp only [Option.map_none, Option.map_some]
  · cases singletonPattern env c.first <;> cases singletonPattern env c.second <;> rfl
  · rfl
  · cases singletonPattern env c.second <;> rfl
  · rfl

theorem finish_relabel (g : σ ≃ τ) (env : GenEnv σ) (rg : RGraph σ) : ∀ (t done : List (GCand σ)), finish (env.relabel g) (rg.relabel g) (done.map (GCand.relabel g)) (t.map (GCand.relabel g)) = (finish env rg done t).map (List.map (GCand.relabel g))
  | [], _ => rfl
  | r :: t, done => by
    rw [List.map_cons, finish, finish, candUsage_relabel, Except.map_bind']
    refine Except.bind_congr' _ (fun u => ?_)
    rw [flip_relabel, finalPats_relabel, Except.bind_map', Except.map_bind']
    refine Except.bind_congr' _ (fun k => ?_)
    rw [← finish_relabel g env rg t]
    congr 1
    rw [List.map_append, ← List.map_cons, ← List.map_append, exclusivePorts_relabel]
    rfl

/-- The candidates with the new names. -/
theorem generate_relabel (g : σ ≃ τ) (env : GenEnv σ) (rg : RGraph σ) : generate (env.relabel g) (rg.relabel g) = (generate env rg).map (List.map (GCand.relabel g)) := by
  have hv : visited (env.relabel g) (rg.relabel g) = visited env rg := by
    unfold visited
    rw [portNodes_relabel]
    rfl
  have h := collect_relabel g env rg (visited env rg) []
  unfold generate
  rw [hv, ← List.map_nil (f := GCand.relabel g), h, Except.bind_map', Except.map_bind']
  exact Except.bind_congr' _ (fun cs => finish_relabel g env rg cs [])

/-! ## Merging -/

theorem Label.relabel_none (g : σ ≃ τ) (l : Label σ) : l.relabel g = .none ↔ l = .none := by cases l <;> simp [Label.relabel]

/-- Vertices with the new names. -/
abbrev nodesRelabel (g : σ ≃ τ) (l : List (ℕ × Label σ)) : List (ℕ × Label τ) := l.map (fun n => (n.1, n.2.relabel g))

theorem addNode_relabel (g : σ ≃ τ) (nodes : List (ℕ × Label σ)) (v : ℕ) (l : Label σ) : addNode (nodesRelabel g nodes) v (l.relabel g) = nodesRelabel g (addNode nodes v l) := by
  have h : (nodesRelabel g nodes).map Prod.fst = nodes.map Prod.fst := by simp [nodesRelabel, List.map_map, Function.comp_def]
  unfold addNode
  rw [h]
  split
  · simp only [nodesRelabel, List.map_map]
    refine List.map_congr_left (fun n _ => ?_)
    simp only [Function.comp_apply, Label.relabel_none]
    split
    · split <;> rfl
    · rfl
  · simp [nodesRelabel]

theorem addEdgeG_relabel (g : σ ≃ τ) (multi : Bool) (p : LGraph σ) (u v : ℕ) (l : Label σ) : addEdge multi (p.relabel g) u v (l.relabel g) = (addEdge multi p u v l).relabel g := by
  have h1 : ∀ (ns : List (ℕ × Label σ)) (w : ℕ), addNode (nodesRelabel g ns) w .none = nodesRelabel g (addNode ns w .none) := fun ns w => addNode_relabel g ns w .none
  have h2 : (p.relabel g).nodes = nodesRelabel g p.nodes := rfl
  have h3 : (p.relabel g).edges.any (fun e => decide (e.1 = u ∧ e.2.1 = v)) = p.edges.any (fun e => decide (e.1 = u ∧ e.2.1 = v)) := by simp [LGraph.relabel, List.any_map, Function.comp_def]
  unfold addEdge
  rw [h2, h1, h1, h3]
  simp only [LGraph.relabel, LGraph.mk.injEq, true_and]
  split
  · simp only [List.map_map]
    refine List.map_congr_left (fun e _ => ?_)
    simp only [Function.comp_apply]
    split <;> rfl
  · simp

theorem appendNew_relabel (g : σ ≃ τ) (ls acc : List σ) : appendNew (acc.map g) (ls.map g) = (appendNew acc ls).map g := by
  unfold appendNew
  induction ls generalizing acc with
  | nil => rfl
  | cons a t ih =>
    rw [List.map_cons, List.foldl_cons, List.foldl_cons, ← ih]
    congr 1
    have : g a ∈ acc.map g ↔ a ∈ acc := by simp
    simp only [this]
    split <;> simp

theorem appendNew_relabel_one (g : σ ≃ τ) (ls : List σ) (s : σ) : appendNew [g s] (ls.map g) = (appendNew [s] ls).map g := appendNew_relabel g ls [s]

theorem newLabel_relabel (g : σ ≃ τ) (a b : Label σ) : newLabel (a.relabel g) (b.relabel g) = (newLabel a b).relabel g := by
  have hm : ∀ (x : σ) (l : List σ), g x ∈ l.map g ↔ x ∈ l := fun x l => by simp
  have hi : ∀ (x : σ) (l : List σ), (if g x ∈ l.map g then l.map g else l.map g ++ [g x]) = (if x ∈ l then l else l ++ [x]).map g := by
    intro x l
    simp only [hm]
    split <;> simp
  cases b <;> cases a <;> simp only [Label.relabel, newLabel, appendNew_relabel, appendNew_relabel_one, hi, List.map_cons, List.map_nil]
  simp only [ne_eq, g.injective.eq_iff]
  split <;> rfl

theorem addLabelled_relabel (g : σ ≃ τ) (multi : Bool) (p : LGraph σ) (u v : ℕ) (l : Label σ) : addLabelled multi (p.relabel g) u v (l.relabel g) = (addLabelled multi p u v l).map (LGraph.relabel g) := by
  unfold addLabelled
  simp only [Label.relabel_none, addEdgeG_relabel]
  split <;> rfl

theorem firstEdges_relabel (g : σ ≃ τ) (multi : Bool) : ∀ (es : List (ℕ × ℕ × Label σ)) (p : LGraph σ), firstEdges multi (es.map (fun e => (e.1, e.2.1, e.2.2.relabel g))) (p.relabel g) = (firstEdges multi es p).map (LGraph.relabel g)
  | [], _ => rfl
  | (u, v, l) :: t, p => by
    rw [List.map_cons, firstEdges, firstEdges, addLabelled_relabel, Except.bind_map', Except.map_bind']
    exact Except.bind_congr' _ (fun q => firstEdges_relabel g multi t q)

theorem addNodes_relabel (g : σ ≃ τ) (ns acc : List (ℕ × Label σ)) : (nodesRelabel g ns).foldl (fun acc n => addNode acc n.1 n.2) (nodesRelabel g acc) = nodesRelabel g (ns.foldl (fun acc n => addNode acc n.1 n.2) acc) := by
  induction ns generalizing acc with
  | nil => rfl
  | cons n t ih =>
    have h := addNode_relabel g acc n.1 n.2
    simp only [nodesRelabel, List.map_cons, List.foldl_cons] at ih h ⊢
    rw [h, ih]

theorem firstPattern_relabel (g : σ ≃ τ) (multi : Bool) (p : LGraph σ) : firstPattern multi (p.relabel g) = (firstPattern multi p).map (LGraph.relabel g) := by
  unfold firstPattern
  rw [← firstEdges_relabel]
  congr 1
  simp only [LGraph.relabel, List.map_nil, LGraph.mk.injEq, and_true]
  exact addNodes_relabel g p.nodes []

theorem lookupNode_relabel (g : σ ≃ τ) (a : ℕ) : ∀ l : List (ℕ × Label σ), (nodesRelabel g l).lookup a = (l.lookup a).map (Label.relabel g)
  | [] => rfl
  | (b, k) :: t => by
    have ih := lookupNode_relabel g a t
    simp only [nodesRelabel, List.map_cons, List.lookup_cons] at ih ⊢
    rw [ih]
    cases a == b <;> rfl

theorem addPortLabel_relabel (g : σ ≃ τ) (nodes : List (ℕ × Label σ)) (a : ℕ) (l : Label σ) : addPortLabel (nodesRelabel g nodes) a (l.relabel g) = (addPortLabel nodes a l).map (nodesRelabel g) := by
  unfold addPortLabel
  simp only [Label.relabel_none, lookupNode_relabel]
  split
  · rfl
  · cases nodes.lookup a with
    | none => rfl
    | some k =>
      simp only [Option.map_some, Label.relabel_none, newLabel_relabel, Except.map]
      split <;> rw [addNode_relabel]

theorem secondNodes_relabel (g : σ ≃ τ) (ports : List (ℕ × ℕ)) : ∀ (l nodes : List (ℕ × Label σ)) (mp : List (ℕ × ℕ)),
    secondNodes ports (nodesRelabel g l) (nodesRelabel g nodes) mp = (secondNodes ports l nodes mp).map (fun x => (nodesRelabel g x.1, x.2))
  | [], _, _ => rfl
  | (b, l) :: t, nodes, mp => by
    have hl : (nodesRelabel g nodes).length = nodes.length := by simp [nodesRelabel]
    have hc : nodesRelabel g ((b, l) :: t) = (b, l.relabel g) :: nodesRelabel g t := rfl
    rw [hc, secondNodes, secondNodes]
    cases portOf ports b with
    | none =>
      simp only [hl]
      rw [addNode_relabel]
      exact secondNodes_relabel g ports t _ _
    | some a =>
      simp only
      rw [addPortLabel_relabel, Except.bind_map', Except.map_bind']
      exact Except.bind_congr' _ (fun q => secondNodes_relabel g ports t q mp)

theorem secondEdges_relabel (g : σ ≃ τ) (multi : Bool) (ports mp : List (ℕ × ℕ)) : ∀ (es : List (ℕ × ℕ × Label σ)) (p : LGraph σ),
    secondEdges multi ports mp (es.map (fun e => (e.1, e.2.1, e.2.2.relabel g))) (p.relabel g) = (secondEdges multi ports mp es p).map (LGraph.relabel g)
  | [], _ => rfl
  | (u, v, l) :: t, p => by
    rw [List.map_cons, secondEdges, secondEdges, Except.map_bind']
    refine Except.bind_congr' _ (fun x => ?_)
    rw [addLabelled_relabel, Except.bind_map', Except.map_bind']
    exact Except.bind_congr' _ (fun q => secondEdges_relabel g multi ports mp t q)

theorem mergeCand_relabel (g : σ ≃ τ) (multi : Bool) (p q : LGraph σ) (ports : List (ℕ × ℕ)) : mergeCand multi (p.relabel g) (q.relabel g) ports = (mergeCand multi p q ports).map (LGraph.relabel g) := by
  unfold mergeCand secondPattern
  rw [firstPattern_relabel, Except.bind_map', Except.map_bind']
  refine Except.bind_congr' _ (fun f => ?_)
  have h := secondNodes_relabel g ports q.nodes f.nodes []
  have e1 : (q.relabel g).nodes = nodesRelabel g q.nodes := rfl
  have e2 : (f.relabel g).nodes = nodesRelabel g f.nodes := rfl
  rw [e1, e2, h, Except.bind_map', Except.map_bind']
  exact Except.bind_congr' _ (fun x => secondEdges_relabel g multi ports _ q.edges ⟨x.1, f.edges⟩)

theorem patternOf_relabel (g : σ ≃ τ) (pats : List (LGraph σ)) (k : Option (PKind σ)) : patternOf (pats.map (LGraph.relabel g)) (k.map (PKind.relabel g)) = (patternOf pats k).map (LGraph.relabel g) := by
  cases k with
  | none => rfl
  | some k => cases k <;> simp [patternOf, PKind.relabel, edgeSingleton, vertexSingleton, LGraph.relabel, Label.relabel]

/-- The pattern of a candidate with the new names. -/
theorem finalPattern_relabel (g : σ ≃ τ) (pats : List (LGraph σ)) (c : GCand σ) : finalPattern (pats.map (LGraph.relabel g)) (c.relabel g) = (finalPattern pats c).map (LGraph.relabel g) := by
  unfold finalPattern
  simp only [GCand.relabel, patternOf_relabel]
  cases patternOf pats c.firstPat <;> cases patternOf pats c.secondPat <;> simp only [Option.map_none, Option.map_some, mergeCand_relabel] <;> rfl

end Verif.Graph
