import Verif.Graph.RatLength
import Verif.Graph.EndProps

/-!
# GraphMDL.fit can raise: property C134
-/

set_option autoImplicit false
set_option linter.unusedSectionVars false

namespace Verif.Graph

variable {σ : Type} [DecidableEq σ]

/-! ## Specification -/

/-- The candidate `a` may be tested before `b`: `_order_candidates` with `reverse=True`, `graph_mdl.py:108, 199-211`: higher usage first, then more exclusive ports, then the shorter description of the pattern. -/
def Before (t : LabelTable σ) (a b : Tried σ) : Prop :=
  b.cand.usage < a.cand.usage ∨ (b.cand.usage = a.cand.usage ∧ (b.cand.exclusive < a.cand.exclusive ∨ (b.cand.exclusive = a.cand.exclusive ∧
    ∀ x y, encode t a.pattern = .ok x → encode t b.pattern = .ok y → x ≤ y)))

/-- The search tests the candidates that are generated, all of them and in the order of the code, unless the generation or the merging of a candidate raises. (Tables with at most one row: with more rows, a pruning that was undone can
have changed the order of the rows since the cover.) -/
structure SortedGen (t : LabelTable σ) (nm : Names σ) (emb : LGraph σ → List Embedding) (d : LGraph σ) (env : SEnv (Tried σ) ℝ) : Prop where
  gen : ∀ s : SState (Tried σ) ℝ, s.rows.length ≤ 1 → ∀ r, cover d.view (tableRows emb (patsOf s.rows)) Marks.fresh = .ok r →
    ∃ genv : GenEnv σ, genv.Ok ∧ genv.For nm (tableRows emb (patsOf s.rows)) r.2.2 ∧
      ∀ cs, generate genv (rewriteGraph nm r.2.2) = .ok cs → (∀ c ∈ cs, ∃ p, finalPattern (patsOf s.rows) c = .ok p) → ((env.gen s).map Tried.cand).Perm cs
  pattern : ∀ s : SState (Tried σ) ℝ, ∀ c ∈ env.gen s, finalPattern (patsOf s.rows) c.cand = .ok c.pattern
  sorted : ∀ s : SState (Tried σ) ℝ, (env.gen s).Pairwise (Before t)

/-! ## Lemmas -/

theorem ordPairs_small {env : GenEnv σ} (h : env.Ok) {l : List (ℕ × ℕ)} (hl : l.length ≤ 1) : env.ordPairs l = l := by
  have := h.pairs l
  match l, hl with
  | [], _ => simpa using this
  | [a], _ => simpa using this

theorem ordPorts_small {env : GenEnv σ} (h : env.Ok) {l : List ℕ} (hl : l.length ≤ 1) : env.ordPorts l = l := by
  have := h.ports l
  match l, hl with
  | [], _ => simpa using this
  | [a], _ => simpa using this

/-- A rewritten graph in which candidates do not depend on the order of sets: no two pairs of nodes at one port, no two shared ports. -/
def Thin (rg : RGraph ℕ) (l : ℕ) : Prop :=
  (∀ p ∈ rg.portNodes, (pairsOf (rg.sources p)).length ≤ 1) ∧
  ∀ q ∈ rg.portNodes.flatMap (fun p => pairsOf (rg.sources p)), (rg.sharedPorts q.1 q.2).length ≤ 1 ∧ rg.node? q.1 = some ⟨l, true, true⟩ ∧ rg.node? q.2 = some ⟨l, true, true⟩

theorem visited_thin {env : GenEnv ℕ} (h : env.Ok) {rg : RGraph ℕ} {l : ℕ} (ht : Thin rg l) : visited env rg = rg.portNodes.flatMap (fun p => pairsOf (rg.sources p)) := by
  unfold visited
  rw [List.flatMap_def, List.flatMap_def]
  congr 1
  exact List.map_congr_left (fun p hp => ordPairs_small h (ht.1 p hp))

theorem collect_thin {env env' : GenEnv ℕ} (h : env.Ok) (h' : env'.Ok) {rg : RGraph ℕ} {l : ℕ} (L : List (ℕ × ℕ))
    (ht : ∀ q ∈ L, (rg.sharedPorts q.1 q.2).length ≤ 1 ∧ rg.node? q.1 = some ⟨l, true, true⟩ ∧ rg.node? q.2 = some ⟨l, true, true⟩) (cs : List (GCand ℕ)) :
    collect env rg L cs = collect env' rg L cs := by
  induction L generalizing cs with
  | nil => rfl
  | cons q L ih =>
    obtain ⟨h1, h2, h3⟩ := ht q List.mem_cons_self
    have hlt : ∀ e : GenEnv ℕ, e.Ok → e.lt l l = false := by
      intro e he
      by_contra hc
      have := he.asymm l l (by simpa using hc)
      simp [this] at hc
    have e1 : makeCand env rg q.1 q.2 = makeCand env' rg q.1 q.2 := by
      unfold makeCand
      simp only [h2, h3, ordPorts_small h h1, ordPorts_small h' h1, hlt env h, hlt env' h']
      rfl
    rw [collect, collect, e1]
    congr 1
    funext c
    exact ih (fun q hq => ht q (List.mem_cons_of_mem _ hq)) _

theorem finish_thin {env env' : GenEnv ℕ} {rg : RGraph ℕ} {l : ℕ} (h : env.isE l = true) (h' : env'.isE l = true) (todo done : List (GCand ℕ))
    (ht : ∀ c ∈ todo, c.first = l ∧ c.second = l ∧ c.firstPat = none ∧ c.secondPat = none) : finish env rg done todo = finish env' rg done todo := by
  induction todo generalizing done with
  | nil => rfl
  | cons c todo ih =>
    obtain ⟨h1, h2, h3, h4⟩ := ht c List.mem_cons_self
    have e1 : candUsage env rg c = candUsage env' rg c := by
      unfold candUsage
      rw [if_pos (h1.trans h2.symm), if_pos (h1.trans h2.symm)]
    have e2 : finalPats env c.flip = finalPats env' c.flip := by
      have : c.flip.firstPat = none ∧ c.flip.secondPat = none ∧ c.flip.first = l ∧ c.flip.second = l := by
        unfold GCand.flip
        split <;> exact ⟨h3, h4, h1, h2⟩
      unfold finalPats
      simp only [this.1, this.2.1, this.2.2.1, this.2.2.2, singletonPattern, h, h', if_true]
    rw [finish, finish, e1, e2]
    congr 1
    funext u
    congr 1
    funext k
    exact ih _ (fun c hc => ht c (List.mem_cons_of_mem _ hc))

/-- The candidates of a thin rewritten graph do not depend on the environment. -/
theorem generate_thin {env env' : GenEnv ℕ} (h : env.Ok) (h' : env'.Ok) {rg : RGraph ℕ} {l : ℕ} (ht : Thin rg l) (hE : env.isE l = true) (hE' : env'.isE l = true) {cs : List (GCand ℕ)}
    (hc : collect env' rg (rg.portNodes.flatMap (fun p => pairsOf (rg.sources p))) [] = .ok cs) (hcs : ∀ c ∈ cs, c.first = l ∧ c.second = l ∧ c.firstPat = none ∧ c.secondPat = none) : generate env rg = generate env' rg := by
  unfold generate
  rw [visited_thin h ht, visited_thin h' ht, collect_thin h h' _ ht.2, hc]
  exact finish_thin hE hE' _ _ hcs

/-! ## The data -/

/-- A chain of three edges and two edges with the same end; all edges have the same label, vertices have none. -/
def forkData : LGraph ℕ := ⟨[(1, .none), (2, .none), (3, .none), (4, .none), (5, .none), (6, .none), (7, .none)], [(1, 2, .str 7), (2, 3, .str 7), (3, 4, .str 7), (5, 6, .str 7), (7, 6, .str 7)]⟩

/-- Two edges in a row. -/
def stepPat : LGraph ℕ := ⟨[(1, .none), (2, .none), (3, .none)], [(1, 2, .str 7), (2, 3, .str 7)]⟩

/-- Two edges with the same end. -/
def forkPat : LGraph ℕ := ⟨[(1, .none), (2, .none), (3, .none)], [(1, 2, .str 7), (3, 2, .str 7)]⟩

def forkTable : RatTable ℕ := ⟨[], [(7, 1)]⟩

def noPieces : List (Piece ℕ) := [.edge 1 2 7, .edge 2 3 7, .edge 3 4 7, .edge 5 6 7, .edge 7 6 7]

/-- What the embeddings of the first pattern can be. -/
def stepAll : List Embedding := [(1, 1), (2, 2), (3, 3)].permutations' ++ [(2, 1), (3, 2), (4, 3)].permutations'

/-- What the embeddings of the second pattern can be. -/
def forkAll : List Embedding := [(5, 1), (6, 2), (7, 3)].permutations' ++ [(7, 1), (6, 2), (5, 3)].permutations'

/-- The pieces of the cover by the first pattern when its first embedding is this one. -/
def stepPieces (e : Embedding) : List (Piece ℕ) := if e ∈ [(1, 1), (2, 2), (3, 3)].permutations' then [.emb 0 e [(3, 3)], .edge 3 4 7, .edge 5 6 7, .edge 7 6 7] else [.emb 0 e [(2, 1)], .edge 1 2 7, .edge 5 6 7, .edge 7 6 7]

def forkPieces (e : Embedding) : List (Piece ℕ) := [.emb 0 e [], .edge 1 2 7, .edge 2 3 7, .edge 3 4 7]

/-- The first candidate. -/
def stepCand : GCand ℕ := ⟨7, 7, [(2, 1)], {3, 5}, some (.edge 7), some (.edge 7), 1, 2⟩

/-- The second candidate. -/
def forkCand : GCand ℕ := ⟨7, 7, [(2, 2)], {10}, some (.edge 7), some (.edge 7), 1, 1⟩

/-- The first candidate in the second round: the ports have other numbers. -/
def stepCand' : GCand ℕ := ⟨7, 7, [(2, 1)], {4, 6}, some (.edge 7), some (.edge 7), 1, 2⟩

theorem fork_labels : labelCodes forkData = .ok forkTable.table := by
  have h1 : totalLabel forkData = .ok 5 := by decide +kernel
  have h2 : countVertex forkData = .ok [] := by decide +kernel
  have h3 : countEdge forkData = .ok [(7, 5)] := by decide +kernel
  have h4 : codesOf (σ := ℕ) 5 [] = .ok [] := rfl
  have h5 : codesOf 5 [(7, 5)] = .ok [(7, (0 : ℝ))] := by
    have : log2 ((5 : ℕ) : ℝ) ((5 : ℕ) : ℝ) = .ok 0 := by
      unfold log2
      rw [if_neg (by norm_num), if_neg (by norm_num), div_self (by norm_num), Real.logb_one, neg_zero]
    show ((log2 ((5 : ℕ) : ℝ) ((5 : ℕ) : ℝ)).map (fun c => (7, c))).bind (fun a => .ok [a]) = _
    rw [this]
    rfl
  unfold labelCodes
  rw [h1, h2, h3]
  simp only [Except.bind]
  rw [h4]
  simp only [h5, Except.map]
  simp [RatTable.table, toCodes, forkTable]

def mapOf (a b c : ℕ) : ℕ → ℕ := fun x => if x = 1 then a else if x = 2 then b else c

theorem found_of (p : LGraph ℕ) (a b c : ℕ) (h : p.verts = [1, 2, 3]) (h1 : ∀ x ∈ [1, 2, 3], mapOf a b c x ∈ forkData.verts) (h2 : ∀ x ∈ [1, 2, 3], ∀ y ∈ [1, 2, 3], mapOf a b c x = mapOf a b c y → x = y)
    (h3 : ∀ x ∈ [1, 2, 3], ∀ y ∈ [1, 2, 3], (p.edgeData x y).length ≤ (forkData.edgeData (mapOf a b c x) (mapOf a b c y)).length)
    (h4 : ∀ x ∈ [1, 2, 3], nodeMatch (forkData.labelAt (mapOf a b c x)) (p.labelAt x) = true)
    (h5 : ∀ x ∈ [1, 2, 3], ∀ y ∈ [1, 2, 3], p.edgeData x y ≠ [] → edgesMatch false (forkData.edgeData (mapOf a b c x) (mapOf a b c y)) (p.edgeData x y) = .ok true) : Found false forkData p (mapOf a b c) := by
  refine ⟨?_, ?_, ?_, ?_, ?_⟩ <;> rw [h] <;> assumption

theorem fork_edge (u v : ℕ) (hu : u ∈ forkData.verts) (hv : v ∈ forkData.verts) (h : 1 ≤ (forkData.edgeData u v).length) : (u, v) ∈ [(1, 2), (2, 3), (3, 4), (5, 6), (7, 6)] := by
  have : ∀ u ∈ forkData.verts, ∀ v ∈ forkData.verts, 1 ≤ (forkData.edgeData u v).length → (u, v) ∈ [(1, 2), (2, 3), (3, 4), (5, 6), (7, 6)] := by decide +kernel
  exact this u hu v hv h

theorem found_step {h : ℕ → ℕ} (hf : Found false forkData stepPat h) : stepPat.verts.map (fun a => (h a, a)) ∈ [[(1, 1), (2, 2), (3, 3)], [(2, 1), (3, 2), (4, 3)]] := by
  have h1 := hf.verts 1 (by decide)
  have h2 := hf.verts 2 (by decide)
  have h3 := hf.verts 3 (by decide)
  have e1 := fork_edge _ _ h1 h2 (le_trans (by decide) (hf.number 1 (by decide) 2 (by decide)))
  have e2 := fork_edge _ _ h2 h3 (le_trans (by decide) (hf.number 2 (by decide) 3 (by decide)))
  have hv : stepPat.verts = [1, 2, 3] := rfl
  simp only [List.mem_cons, Prod.mk.injEq, List.not_mem_nil, or_false] at e1 e2
  rw [hv]
  simp only [List.map_cons, List.map_nil]
  rcases e1 with ⟨a, b⟩ | ⟨a, b⟩ | ⟨a, b⟩ | ⟨a, b⟩ | ⟨a, b⟩ <;> rcases e2 with ⟨c, d⟩ | ⟨c, d⟩ | ⟨c, d⟩ | ⟨c, d⟩ | ⟨c, d⟩ <;>
    first
    | (exfalso; omega)
    | (rw [a, b, d]; decide)

theorem found_fork {h : ℕ → ℕ} (hf : Found false forkData forkPat h) : forkPat.verts.map (fun a => (h a, a)) ∈ [[(5, 1), (6, 2), (7, 3)], [(7, 1), (6, 2), (5, 3)]] := by
  have h1 := hf.verts 1 (by decide)
  have h2 := hf.verts 2 (by decide)
  have h3 := hf.verts 3 (by decide)
  have e1 := fork_edge _ _ h1 h2 (le_trans (by decide) (hf.number 1 (by decide) 2 (by decide)))
  have e2 := fork_edge _ _ h3 h2 (le_trans (by decide) (hf.number 3 (by decide) 2 (by decide)))
  have hi := hf.inj 1 (by decide) 3 (by decide)
  have hv : forkPat.verts = [1, 2, 3] := rfl
  simp only [List.mem_cons, Prod.mk.injEq, List.not_mem_nil, or_false] at e1 e2
  rw [hv]
  simp only [List.map_cons, List.map_nil]
  rcases e1 with ⟨a, b⟩ | ⟨a, b⟩ | ⟨a, b⟩ | ⟨a, b⟩ | ⟨a, b⟩ <;> rcases e2 with ⟨c, d⟩ | ⟨c, d⟩ | ⟨c, d⟩ | ⟨c, d⟩ | ⟨c, d⟩ <;>
    first
    | (exfalso; omega)
    | (rw [a, b, c]; decide)

theorem embs_of {p : LGraph ℕ} {L : List Embedding} (hr : RowFor forkData p ⟨p.view, L, []⟩) (u v : Embedding) (hfound : ∀ h, Found false forkData p h → p.verts.map (fun a => (h a, a)) ∈ [u, v]) (h0 : ∃ h, Found false forkData p h) :
    ∃ e rest, L = e :: rest ∧ e ∈ u.permutations' ++ v.permutations' ∧ ∀ x ∈ rest, x ∈ u.permutations' ++ v.permutations' := by
  have hall : ∀ x ∈ L, x ∈ u.permutations' ++ v.permutations' := by
    intro x hx
    obtain ⟨h, h1, h2⟩ := hr.embs x hx
    have h3 := hfound h h1
    simp only [List.mem_cons, List.not_mem_nil, or_false] at h3
    rw [List.mem_append, List.mem_permutations', List.mem_permutations']
    rcases h3 with h3 | h3
    · left; rwa [h3] at h2
    · right; rwa [h3] at h2
  obtain ⟨h, h1⟩ := h0
  obtain ⟨e, he, -⟩ := hr.all h h1
  match L, he with
  | e :: rest, _ => exact ⟨e, rest, rfl, hall e List.mem_cons_self, fun x hx => hall x (List.mem_cons_of_mem _ hx)⟩

theorem step_embs {emb : LGraph ℕ → List Embedding} (hemb : ∀ p, RowFor forkData p ⟨p.view, emb p, []⟩) : ∃ e rest, emb stepPat = e :: rest ∧ e ∈ stepAll ∧ ∀ x ∈ rest, x ∈ stepAll :=
  embs_of (hemb stepPat) _ _ (fun _ => found_step) ⟨mapOf 1 2 3, found_of _ _ _ _ rfl (by decide +kernel) (by decide +kernel) (by decide +kernel) (by decide +kernel) (by decide +kernel)⟩

theorem fork_embs {emb : LGraph ℕ → List Embedding} (hemb : ∀ p, RowFor forkData p ⟨p.view, emb p, []⟩) : ∃ e rest, emb forkPat = e :: rest ∧ e ∈ forkAll ∧ ∀ x ∈ rest, x ∈ forkAll :=
  embs_of (hemb forkPat) _ _ (fun _ => found_fork) ⟨mapOf 5 6 7, found_of _ _ _ _ rfl (by decide +kernel) (by decide +kernel) (by decide +kernel) (by decide +kernel) (by decide +kernel)⟩

/-! ## Covers, lengths and candidates -/

theorem fork_cover {emb : LGraph ℕ → List Embedding} {pats : List (LGraph ℕ)} {ps : List (Piece ℕ)} (h : (cover forkData.view (tableRows emb pats) Marks.fresh).toOption.map (fun x => x.2.2) = some ps) :
    ∃ r, cover forkData.view (tableRows emb pats) Marks.fresh = .ok r ∧ r.2.2 = ps := by
  rw [Option.map_eq_some_iff] at h
  obtain ⟨r, h1, h2⟩ := h
  exact ⟨r, toOption_ok h1, h2⟩

theorem cover_none (emb : LGraph ℕ → List Embedding) : ∃ r, cover forkData.view (tableRows emb []) Marks.fresh = .ok r ∧ r.2.2 = noPieces :=
  fork_cover (by
    have : tableRows emb [] = [] := rfl
    rw [this]
    decide +kernel)

theorem coverEmbs_blocked {g p : DGraph ℕ} {i : ℕ} {L : List Embedding} {m : Marks ℕ} (h : ∀ e ∈ L, embMarked g p m e = .ok true) : coverEmbs g p i L m = .ok (m, []) := by
  induction L with
  | nil => rfl
  | cons e L ih =>
    rw [coverEmbs, h e List.mem_cons_self]
    simp only [Except.bind, if_true]
    exact ih (fun x hx => h x (List.mem_cons_of_mem _ hx))

/-- After the first embedding all others are marked. -/
theorem cover_first {g p : DGraph ℕ} {e : Embedding} {rest all : List Embedding} {ps : List (Piece ℕ)} (hp : p.edges ≠ []) (hrest : ∀ x ∈ rest, x ∈ all)
    (h : (embMarked g p ⟨1, fun _ => 0, fun _ => 0⟩ e).toOption = some false ∧ ((markEmb g p ⟨1, fun _ => 0, fun _ => 0⟩ e).toOption.map (fun m => all.all (fun x => decide ((embMarked g p m x).toOption = some true)))) = some true ∧
      (cover g [⟨p, [e], []⟩] Marks.fresh).toOption.map (fun x => x.2.2) = some ps) : ∃ r, cover g [⟨p, e :: rest, []⟩] Marks.fresh = .ok r ∧ r.2.2 = ps := by
  obtain ⟨h1, h2, h3⟩ := h
  rw [Option.map_eq_some_iff] at h2 h3
  obtain ⟨m, h2, h4⟩ := h2
  obtain ⟨r, h3, h5⟩ := h3
  have h1 := toOption_ok h1
  have h2 := toOption_ok h2
  have h3 := toOption_ok h3
  rw [List.all_eq_true] at h4
  have e1 : ∀ L : List Embedding, (∀ x ∈ L, x ∈ all) → coverEmbs g p 0 (e :: L) ⟨1, fun _ => 0, fun _ => 0⟩ = .ok (m, [.emb 0 e (searchPort g p m e)]) := by
    intro L hL
    rw [coverEmbs, h1]
    simp only [Except.bind, Bool.false_eq_true, if_false, h2]
    rw [coverEmbs_blocked (fun x hx => toOption_ok (of_decide_eq_true (h4 x (hL x hx))))]
    rfl
  have e2 : ∀ L : List Embedding, (∀ x ∈ L, x ∈ all) → ∃ r', cover g [⟨p, e :: L, []⟩] Marks.fresh = .ok r' ∧ r'.2.2 = [Piece.emb 0 e (searchPort g p m e)] ++ (singleEdges g g.edges m).2 ++ (singleNodes g.nodes (singleEdges g g.edges m).1).2 := by
    intro L hL
    unfold cover coverRows rowCover
    simp only [hp, ne_eq, not_false_eq_true, if_true, Marks.fresh, Nat.zero_add, e1 L hL, Except.bind]
    exact ⟨_, rfl, by simp⟩
  obtain ⟨r1, h6, h7⟩ := e2 rest hrest
  obtain ⟨r2, h8, h9⟩ := e2 [] (by simp)
  rw [h3] at h8
  cases h8
  exact ⟨r1, h6, by rw [h7, ← h9, h5]⟩

theorem cover_step {emb : LGraph ℕ → List Embedding} (hemb : ∀ p, RowFor forkData p ⟨p.view, emb p, []⟩) : ∃ e ∈ stepAll, ∃ r, cover forkData.view (tableRows emb [stepPat]) Marks.fresh = .ok r ∧ r.2.2 = stepPieces e := by
  obtain ⟨e, rest, h1, h2, h3⟩ := step_embs hemb
  have : tableRows emb [stepPat] = [⟨stepPat.view, e :: rest, []⟩] := by rw [← h1]; rfl
  rw [this]
  refine ⟨e, h2, cover_first (by decide) h3 ?_⟩
  revert e
  have : ∀ e ∈ stepAll, (embMarked forkData.view stepPat.view ⟨1, fun _ => 0, fun _ => 0⟩ e).toOption = some false ∧
      ((markEmb forkData.view stepPat.view ⟨1, fun _ => 0, fun _ => 0⟩ e).toOption.map (fun m => stepAll.all (fun x => decide ((embMarked forkData.view stepPat.view m x).toOption = some true)))) = some true ∧
      (cover forkData.view [⟨stepPat.view, [e], []⟩] Marks.fresh).toOption.map (fun x => x.2.2) = some (stepPieces e) := by decide +kernel
  exact fun e _ h2 _ => this e h2

theorem cover_fork {emb : LGraph ℕ → List Embedding} (hemb : ∀ p, RowFor forkData p ⟨p.view, emb p, []⟩) : ∃ e ∈ forkAll, ∃ r, cover forkData.view (tableRows emb [forkPat]) Marks.fresh = .ok r ∧ r.2.2 = forkPieces e := by
  obtain ⟨e, rest, h1, h2, h3⟩ := fork_embs hemb
  have : tableRows emb [forkPat] = [⟨forkPat.view, e :: rest, []⟩] := by rw [← h1]; rfl
  rw [this]
  refine ⟨e, h2, cover_first (by decide) h3 ?_⟩
  revert e
  have : ∀ e ∈ forkAll, (embMarked forkData.view forkPat.view ⟨1, fun _ => 0, fun _ => 0⟩ e).toOption = some false ∧
      ((markEmb forkData.view forkPat.view ⟨1, fun _ => 0, fun _ => 0⟩ e).toOption.map (fun m => forkAll.all (fun x => decide ((embMarked forkData.view forkPat.view m x).toOption = some true)))) = some true ∧
      (cover forkData.view [⟨forkPat.view, [e], []⟩] Marks.fresh).toOption.map (fun x => x.2.2) = some (forkPieces e) := by decide +kernel
  exact fun e _ h2 _ => this e h2

theorem forkTable_pos : forkTable.Pos := by
  constructor <;> simp [forkTable]

/-- The total description length of a table on this data is the logarithm of a rational. -/
theorem fork_length {emb : LGraph ℕ → List Embedding} {pats : List (LGraph ℕ)} {ps : List (Piece ℕ)} (hc : ∃ r, cover forkData.view (tableRows emb pats) Marks.fresh = .ok r ∧ r.2.2 = ps)
    (hne : ps ≠ []) (hn : (rewriteGraph witnessNames ps).nodes ≠ []) (hv : vertexUsage ps = []) (a q : ℚ) (ha : tableQ forkTable pats ps = some a) (hq : a * rewriteQ pats.length ps (rewriteGraph witnessNames ps) = q) :
    IsLog (totalLength (fun _ => false) forkTable.table witnessNames emb forkData pats) q := by
  obtain ⟨r, h1, rfl⟩ := hc
  obtain ⟨p1, h2⟩ := tableQ_log (fun _ => false) forkTable forkTable_pos pats r.2.2 hne hv (fun _ _ => rfl) a ha
  obtain ⟨p2, h3⟩ := rewriteQ_log pats.length r.2.2 (rewriteGraph witnessNames r.2.2) hn hv
  subst hq
  refine ⟨mul_pos p1 p2, ?_⟩
  unfold totalLength
  rw [h1]
  simp only [Except.bind, h2, h3, Except.map, logb_mul_cast p1 p2]

theorem length_none (emb : LGraph ℕ → List Embedding) : IsLog (totalLength (fun _ => false) forkTable.table witnessNames emb forkData []) 62089842424226512896000 :=
  fork_length (cover_none emb) (by decide) (by decide +kernel) (by decide +kernel) ((tableQ forkTable [] noPieces).getD 0) _ (by decide +kernel) (by decide +kernel)

theorem step_numbers : ∀ e ∈ stepAll, stepPieces e ≠ [] ∧ (rewriteGraph witnessNames (stepPieces e)).nodes.length ≠ 0 ∧ vertexUsage (stepPieces e) = [] ∧
    tableQ forkTable [stepPat] (stepPieces e) = some ((tableQ forkTable [stepPat] (stepPieces e)).getD 0) ∧
    (tableQ forkTable [stepPat] (stepPieces e)).getD 0 * rewriteQ 1 (stepPieces e) (rewriteGraph witnessNames (stepPieces e)) = 188557616111122888261632 := by decide +kernel

theorem fork_numbers : ∀ e ∈ forkAll, forkPieces e ≠ [] ∧ (rewriteGraph witnessNames (forkPieces e)).nodes.length ≠ 0 ∧ vertexUsage (forkPieces e) = [] ∧
    tableQ forkTable [forkPat] (forkPieces e) = some ((tableQ forkTable [forkPat] (forkPieces e)).getD 0) ∧
    (tableQ forkTable [forkPat] (forkPieces e)).getD 0 * rewriteQ 1 (forkPieces e) (rewriteGraph witnessNames (forkPieces e)) = 735419804751092514816 := by decide +kernel

theorem length_step {emb : LGraph ℕ → List Embedding} (hemb : ∀ p, RowFor forkData p ⟨p.view, emb p, []⟩) : IsLog (totalLength (fun _ => false) forkTable.table witnessNames emb forkData [stepPat]) 188557616111122888261632 := by
  obtain ⟨e, he, hc⟩ := cover_step hemb
  obtain ⟨h1, h2, h3, h4, h5⟩ := step_numbers e he
  exact fork_length hc h1 (fun h => h2 (by rw [h]; rfl)) h3 _ _ h4 h5

theorem length_fork {emb : LGraph ℕ → List Embedding} (hemb : ∀ p, RowFor forkData p ⟨p.view, emb p, []⟩) : IsLog (totalLength (fun _ => false) forkTable.table witnessNames emb forkData [forkPat]) 735419804751092514816 := by
  obtain ⟨e, he, hc⟩ := cover_fork hemb
  obtain ⟨h1, h2, h3, h4, h5⟩ := fork_numbers e he
  exact fork_length hc h1 (fun h => h2 (by rw [h]; rfl)) h3 _ _ h4 h5

theorem thin_none : Thin (rewriteGraph witnessNames noPieces) 7 := by
  unfold Thin
  decide +kernel

theorem rewrite_fork (e : Embedding) : rewriteGraph witnessNames (forkPieces e) = rewriteGraph witnessNames (forkPieces []) := rfl

theorem thin_fork : Thin (rewriteGraph witnessNames (forkPieces [])) 7 := by
  unfold Thin
  decide +kernel

theorem gen_none {genv : GenEnv ℕ} {rows : List (Row ℕ)} (h : genv.Ok) (hf : genv.For witnessNames rows noPieces) : generate genv (rewriteGraph witnessNames noPieces) = .ok [stepCand, forkCand] := by
  have h1 : genv.isE 7 = true := (hf.isE 7).2 ⟨1, 2, by decide⟩
  rw [generate_thin (env' := witnessEnv 0 [7] []) h (witnessEnv_ok _ _ _) thin_none h1 rfl (cs := (collect (witnessEnv 0 [7] []) (rewriteGraph witnessNames noPieces)
    ((rewriteGraph witnessNames noPieces).portNodes.flatMap (fun p => pairsOf ((rewriteGraph witnessNames noPieces).sources p))) []).toOption.getD []) (toOption_ok (by decide +kernel)) (by decide +kernel)]
  exact toOption_ok (by decide +kernel)

theorem gen_fork {genv : GenEnv ℕ} {rows : List (Row ℕ)} {e : Embedding} (h : genv.Ok) (hf : genv.For witnessNames rows (forkPieces e)) : generate genv (rewriteGraph witnessNames (forkPieces e)) = .ok [stepCand'] := by
  have h1 : genv.isE 7 = true := (hf.isE 7).2 ⟨1, 2, by simp [forkPieces]⟩
  rw [rewrite_fork]
  rw [generate_thin (env' := witnessEnv 1 [7] []) h (witnessEnv_ok _ _ _) thin_fork h1 rfl (cs := (collect (witnessEnv 1 [7] []) (rewriteGraph witnessNames (forkPieces []))
    ((rewriteGraph witnessNames (forkPieces [])).portNodes.flatMap (fun p => pairsOf ((rewriteGraph witnessNames (forkPieces [])).sources p))) []).toOption.getD []) (toOption_ok (by decide +kernel)) (by decide +kernel)]
  exact toOption_ok (by decide +kernel)

/-! ## The search -/

theorem perm_pair {α : Type} {L : List α} {a b : α} (h : L.Perm [a, b]) : L = [a, b] ∨ L = [b, a] := by
  have hl := h.length_eq
  match L, hl with
  | [x, y], _ =>
    by_cases hx : x = a
    · subst hx
      have := (List.perm_cons x).1 h
      left
      rw [List.perm_singleton.1 this]
    · have h1 : x = b := by
        have := h.mem_iff.1 (List.mem_cons_self (a := x))
        simp [hx] at this
        exact this
      subst h1
      have := (List.perm_cons x).1 (h.trans (List.Perm.swap x a []))
      right
      rw [List.perm_singleton.1 this]

theorem finalPattern_step : finalPattern [] stepCand = .ok stepPat := toOption_ok (by decide +kernel)

theorem finalPattern_fork : finalPattern [] forkCand = .ok forkPat := toOption_ok (by decide +kernel)

theorem finalPattern_again : finalPattern [forkPat] stepCand' = .ok stepPat := toOption_ok (by decide +kernel)

/-- The candidates of the first round. -/
theorem round_one {t : LabelTable ℕ} {emb : LGraph ℕ → List Embedding} {env : SEnv (Tried ℕ) ℝ} (hg : SortedGen t witnessNames emb forkData env) (s : SState (Tried ℕ) ℝ) (hs : s.rows = []) :
    env.gen s = [⟨stepCand, stepPat⟩, ⟨forkCand, forkPat⟩] := by
  obtain ⟨r, hr, hps⟩ := cover_none emb
  have e : patsOf s.rows = [] := by rw [hs]; rfl
  obtain ⟨genv, h1, h2, h3⟩ := hg.gen s (by rw [hs]; exact Nat.zero_le _) r (by rw [e]; exact hr)
  rw [hps] at h2 h3
  have h4 := h3 _ (gen_none h1 h2) (by
    rw [e]
    intro c hc
    simp only [List.mem_cons, List.not_mem_nil, or_false] at hc
    rcases hc with rfl | rfl
    · exact ⟨_, finalPattern_step⟩
    · exact ⟨_, finalPattern_fork⟩)
  have hp := hg.pattern s
  have hsort := hg.sorted s
  have hmap : ∀ (L : List (Tried ℕ)) (a b : GCand ℕ), L.map Tried.cand = [a, b] → ∃ x y, L = [⟨a, x⟩, ⟨b, y⟩] := by
    intro L a b h
    match L, h with
    | [⟨c, x⟩, ⟨d, y⟩], h =>
      simp at h
      obtain ⟨rfl, rfl⟩ := h
      exact ⟨x, y, rfl⟩
  rcases perm_pair h4 with h5 | h5
  · obtain ⟨x, y, h6⟩ := hmap _ _ _ h5
    rw [h6] at hp ⊢
    have h7 := hp _ List.mem_cons_self
    have h8 := hp _ (List.mem_cons_of_mem _ List.mem_cons_self)
    rw [e] at h7 h8
    rw [finalPattern_step] at h7
    rw [finalPattern_fork] at h8
    rw [Except.ok.inj h7, Except.ok.inj h8]
  · obtain ⟨x, y, h6⟩ := hmap _ _ _ h5
    rw [h6] at hsort
    exfalso
    have := (List.pairwise_cons.1 hsort).1 _ List.mem_cons_self
    unfold Before at this
    simp [stepCand, forkCand] at this

/-- The candidate of the second round. -/
theorem round_two {t : LabelTable ℕ} {emb : LGraph ℕ → List Embedding} (hemb : ∀ p, RowFor forkData p ⟨p.view, emb p, []⟩) {env : SEnv (Tried ℕ) ℝ} (hg : SortedGen t witnessNames emb forkData env) (s : SState (Tried ℕ) ℝ) (hs : patsOf s.rows = [forkPat]) :
    ∃ p, env.gen s = [⟨stepCand', p⟩] := by
  obtain ⟨e, -, r, hr, hps⟩ := cover_fork hemb
  obtain ⟨genv, h1, h2, h3⟩ := hg.gen s (by have := congrArg List.length hs; simp [patsOf] at this; rw [this]) r (by rw [hs]; exact hr)
  rw [hps] at h2 h3
  have h4 := h3 _ (gen_fork h1 h2) (by
    intro c hc
    rw [List.mem_singleton.1 hc, hs]
    exact ⟨stepPat, finalPattern_again⟩)
  have h5 := List.perm_singleton.1 h4
  rw [List.map_eq_singleton_iff] at h5
  obtain ⟨⟨c, p⟩, h6, h7⟩ := h5
  exact ⟨p, by rw [h6]; cases h7; rfl⟩

theorem dl_log {emb : LGraph ℕ → List Embedding} {env : SEnv (Tried ℕ) ℝ} (hr : RealSearch (fun _ => false) forkTable.table witnessNames emb forkData env) (rows : List (SRow (Tried ℕ))) {q : ℚ}
    (h : IsLog (totalLength (fun _ => false) forkTable.table witnessNames emb forkData (patsOf rows)) q) : env.dl rows = Real.logb 2 (q : ℝ) := by
  rw [hr.dl, h.2]

/-- C134 is false. For a directed graph with seven vertices and five edges, all with one string label, `fit` without a timeout raises TypeError, whatever the order of embeddings and of sets: the second round generates a candidate that
was tested before, and the line that should log this calls the logger. -/
theorem fit_raises (emb : LGraph ℕ → List Embedding) (hemb : ∀ p, RowFor forkData p ⟨p.view, emb p, []⟩) : ∃ t, labelCodes forkData = .ok t ∧
    ∀ env : SEnv (Tried ℕ) ℝ, RealSearch (fun _ => false) t witnessNames emb forkData env → SortedGen t witnessNames emb forkData env → ∀ late n k, searchFit env late (n + 3) false (SState.new k) = some (.error "TypeError") := by
  refine ⟨forkTable.table, fork_labels, ?_⟩
  intro env hr hg late n k
  have d0 : env.dl [] = _ := dl_log hr [] (length_none emb)
  have d1 : ∀ u a, env.dl [⟨⟨stepCand, stepPat⟩, u, a⟩] = _ := fun u a => dl_log hr [⟨⟨stepCand, stepPat⟩, u, a⟩] (length_step hemb)
  have d2 : ∀ u a, env.dl [⟨⟨forkCand, forkPat⟩, u, a⟩] = _ := fun u a => dl_log hr [⟨⟨forkCand, forkPat⟩, u, a⟩] (length_fork hemb)
  have l1 : ∀ u a, env.dl [] < env.dl [⟨⟨stepCand, stepPat⟩, u, a⟩] := by
    intro u a
    rw [d0, d1]
    exact Real.logb_lt_logb (by norm_num) (by norm_num) (by norm_num)
  have l2 : ∀ u a, env.dl [⟨⟨forkCand, forkPat⟩, u, a⟩] < env.dl [] := by
    intro u a
    rw [d0, d2]
    exact Real.logb_lt_logb (by norm_num) (by norm_num) (by norm_num)
  have s12 : env.same ⟨stepCand, stepPat⟩ ⟨forkCand, forkPat⟩ = false := by rw [hr.same]; decide +kernel
  have s11 : env.same ⟨stepCand, stepPat⟩ ⟨stepCand, stepPat⟩ = true := by rw [hr.same]; decide +kernel
  have s13 : ∀ p, env.same ⟨stepCand, stepPat⟩ ⟨stepCand', p⟩ = true := by intro p; rw [hr.same]; show stepCand.same stepCand' = true; decide +kernel
  have hsort : ∀ x : SRow (Tried ℕ), addRow env [] x = [x] := fun x => rfl
  have hrem : ∀ x : SRow (Tried ℕ), removeRow env [x] x = .ok [] := by
    intro x
    unfold removeRow
    rw [if_pos List.mem_cons_self]
    simp [sortRows]
  unfold searchFit
  rw [search]
  simp only [searchInit, SState.new, Bool.or_self, Bool.false_and, Bool.false_eq_true, if_false]
  rw [round_one hg _ rfl]
  simp only [reduceCtorEq, if_false]
  rw [testAll]
  simp only [List.any_nil, Bool.false_eq_true, if_false, Bool.false_and, oldUsage, List.map_nil, coverUsage, hsort, hrem, not_lt_of_gt (l1 _ _), List.findIdx_cons, s11, List.length_cons, cond_true]
  rw [if_neg (by simp)]
  rw [testAll]
  simp only [List.nil_append, List.any_cons, List.any_nil, s12, Bool.or_self, Bool.false_eq_true, if_false, Bool.false_and, oldUsage, List.map_nil, coverUsage, hsort, l2 _ _, if_true]
  simp only [pruneCands, pruneStart, oldUsage, List.lookup_nil, List.filter_cons, List.filter_nil, Bool.false_eq_true, if_false, List.append_nil, List.insertionSort_nil]
  rw [pruneLoop]
  simp only [List.getElem?_nil]
  rw [search]
  simp only [Bool.false_and, Bool.false_eq_true, if_false]
  choose p hp using fun (s : SState (Tried ℕ) ℝ) (hs : patsOf s.rows = [forkPat]) => round_two hemb hg s hs
  rw [hp _ rfl]
  simp only [reduceCtorEq, if_false]
  rw [testAll]
  simp [s13]

/-! ## The hypotheses can be met -/

/-- The length of the pattern of a candidate, 0 if it raises. -/
noncomputable def encLen (t : LabelTable σ) (c : Tried σ) : ℝ := match encode t c.pattern with
  | .ok x => x
  | .error _ => 0

def keyLe (t : LabelTable σ) (a b : Tried σ) : Prop :=
  b.cand.usage < a.cand.usage ∨ (b.cand.usage = a.cand.usage ∧ (b.cand.exclusive < a.cand.exclusive ∨ (b.cand.exclusive = a.cand.exclusive ∧ encLen t a ≤ encLen t b)))

theorem keyLe_before {t : LabelTable σ} {a b : Tried σ} (h : keyLe t a b) : Before t a b := by
  refine h.imp id (fun h => ⟨h.1, h.2.imp id (fun h => ⟨h.1, ?_⟩)⟩)
  intro x y hx hy
  have := h.2
  unfold encLen at this
  rwa [hx, hy] at this

theorem keyLe_total (t : LabelTable σ) (a b : Tried σ) : keyLe t a b ∨ keyLe t b a := by
  unfold keyLe
  rcases lt_trichotomy a.cand.usage b.cand.usage with h | h | h
  · exact .inr (.inl h)
  · rcases lt_trichotomy a.cand.exclusive b.cand.exclusive with h' | h' | h'
    · exact .inr (.inr ⟨h, .inl h'⟩)
    · rcases le_total (encLen t a) (encLen t b) with h2 | h2
      · exact .inl (.inr ⟨h.symm, .inr ⟨h'.symm, h2⟩⟩)
      · exact .inr (.inr ⟨h, .inr ⟨h', h2⟩⟩)
    · exact .inl (.inr ⟨h.symm, .inl h'⟩)
  · exact .inl (.inl h)

theorem keyLe_trans (t : LabelTable σ) {a b c : Tried σ} (h : keyLe t a b) (h' : keyLe t b c) : keyLe t a c := by
  unfold keyLe at *
  rcases h with h | ⟨h, h1⟩
  · rcases h' with h' | ⟨h', -⟩
    · exact .inl (h'.trans h)
    · exact .inl (by rw [h']; exact h)
  · rcases h' with h' | ⟨h', h2⟩
    · exact .inl (by rw [← h]; exact h')
    · refine .inr ⟨h'.trans h, ?_⟩
      rcases h1 with h1 | ⟨h1, h3⟩
      · rcases h2 with h2 | ⟨h2, -⟩
        · exact .inl (h2.trans h1)
        · exact .inl (by rw [h2]; exact h1)
      · rcases h2 with h2 | ⟨h2, h4⟩
        · exact .inl (by rw [← h1]; exact h2)
        · exact .inr ⟨h2.trans h1, h3.trans h4⟩

open Classical in
/-- The search with its parts in place and the candidates sorted. -/
noncomputable def sortedEnv (t : LabelTable ℕ) (emb : LGraph ℕ → List Embedding) (d : LGraph ℕ) : SEnv (Tried ℕ) ℝ :=
  let real := realEnv (fun _ => false) t witnessNames emb d (fun pats => match cover d.view (tableRows emb pats) Marks.fresh with
    | .ok r => witnessEnv pats.length (r.2.2.filterMap Piece.edgeLabel?) (r.2.2.filterMap Piece.vertexLabel?)
    | .error _ => witnessEnv 0 [] [])
  { real with gen := fun s => (real.gen s).insertionSort (keyLe t) }

theorem sortedEnv_real (t : LabelTable ℕ) (emb : LGraph ℕ → List Embedding) (d : LGraph ℕ) : RealSearch (fun _ => false) t witnessNames emb d (sortedEnv t emb d) := by
  classical
  have h := realEnv_real (fun _ => false) t witnessNames emb d (fun pats => match cover d.view (tableRows emb pats) Marks.fresh with
    | .ok r => witnessEnv pats.length (r.2.2.filterMap Piece.edgeLabel?) (r.2.2.filterMap Piece.vertexLabel?)
    | .error _ => witnessEnv 0 [] []) (by
      intro pats
      split <;> exact witnessEnv_ok _ _ _)
  refine ⟨h.dl, h.same, fun s c hc => h.gen s c ?_⟩
  exact (List.mem_insertionSort _).1 hc

theorem sortedEnv_sorted (t : LabelTable ℕ) (emb : LGraph ℕ → List Embedding) (d : LGraph ℕ) : SortedGen t witnessNames emb d (sortedEnv t emb d) := by
  classical
  refine ⟨?_, ?_, ?_⟩
  · intro s _ r hr
    have hlen : (tableRows emb (patsOf s.rows)).length = (patsOf s.rows).length := by unfold tableRows; rw [List.length_map]
    refine ⟨witnessEnv (patsOf s.rows).length (r.2.2.filterMap Piece.edgeLabel?) (r.2.2.filterMap Piece.vertexLabel?), witnessEnv_ok _ _ _, by rw [← hlen]; exact witnessEnv_for _ _, ?_⟩
    intro cs hcs hok
    refine ((List.perm_insertionSort _ _).map _).trans ?_
    unfold realEnv
    simp only [hr, hcs]
    rw [List.map_filterMap]
    have : ∀ L : List (GCand ℕ), (∀ c ∈ L, ∃ p, finalPattern (patsOf s.rows) c = .ok p) → L.filterMap (fun c => ((finalPattern (patsOf s.rows) c).toOption.map (fun p => (⟨c, p⟩ : Tried ℕ))).map Tried.cand) = L := by
      intro L hL
      induction L with
      | nil => rfl
      | cons c L ih =>
        obtain ⟨p, hp⟩ := hL c List.mem_cons_self
        rw [List.filterMap_cons, hp, ih (fun x hx => hL x (List.mem_cons_of_mem _ hx))]
        rfl
    rw [this cs hok]
  · intro s c hc
    have hc := (List.mem_insertionSort _).1 hc
    unfold realEnv at hc
    simp only at hc
    split at hc
    · split at hc
      · obtain ⟨c', -, h4⟩ := List.mem_filterMap.1 hc
        rw [Option.map_eq_some_iff] at h4
        obtain ⟨p, h4, rfl⟩ := h4
        exact toOption_ok h4
      · simp at hc
    · simp at hc
  · intro s
    have : Std.Total (keyLe (σ := ℕ) t) := ⟨keyLe_total t⟩
    have : IsTrans (Tried ℕ) (keyLe t) := ⟨fun _ _ _ => keyLe_trans t⟩
    exact (List.pairwise_insertionSort (keyLe t) _).imp keyLe_before

/-- The hypotheses of `fit_raises` can be met. -/
example : ∃ emb t env, (∀ p, RowFor forkData p ⟨p.view, emb p, []⟩) ∧ labelCodes forkData = .ok t ∧ RealSearch (fun _ => false) t witnessNames emb forkData env ∧ SortedGen t witnessNames emb forkData env ∧
    searchFit env (fun _ => false) 10 false (SState.new 0) = some (.error "TypeError") := by
  obtain ⟨emb, hemb⟩ := rows_exist forkData
  obtain ⟨t, h1, h2⟩ := fit_raises emb hemb
  exact ⟨emb, t, sortedEnv t emb forkData, hemb, h1, sortedEnv_real t emb forkData, sortedEnv_sorted t emb forkData, h2 _ (sortedEnv_real t emb forkData) (sortedEnv_sorted t emb forkData) (fun _ => false) 7 0⟩

end Verif.Graph
