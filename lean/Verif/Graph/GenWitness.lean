import Verif.Graph.GenUsage
import Verif.Graph.RewriteProps

/-!
# The merge candidates of a rewritten graph: witnesses
-/

set_option autoImplicit false
set_option linter.unusedSectionVars false

namespace Verif.Graph

/-- A table with `n` rows, with these edge and vertex singletons. -/
def witnessEnv (n : ℕ) (es vs : List ℕ) : GenEnv ℕ := ⟨List.dedup, List.dedup, fun l => (l - 100) / 2, fun a b => decide (a < b), fun l => decide (l ∈ es), fun l => decide (l ∈ vs), n, fun _ => false⟩

theorem witnessEnv_ok (n : ℕ) (es vs : List ℕ) : (witnessEnv n es vs).Ok :=
  ⟨fun _ => List.Perm.refl _, fun _ => List.Perm.refl _, fun a b h => by simp [witnessEnv] at *; omega, fun a b h => by simp [witnessEnv]; omega⟩

theorem witnessEnv_for (rows : List (Row ℕ)) (ps : List (Piece ℕ)) :
    (witnessEnv rows.length (ps.filterMap Piece.edgeLabel?) (ps.filterMap Piece.vertexLabel?)).For witnessNames rows ps := by
  refine ⟨fun i => by simp [witnessEnv, witnessNames], rfl, fun l => ?_, fun l => ?_⟩
  · simp only [witnessEnv, decide_eq_true_eq, List.mem_filterMap]
    constructor
    · rintro ⟨pc, h1, h2⟩
      cases pc with
      | emb => cases h2
      | edge u v l' => cases h2; exact ⟨u, v, h1⟩
      | vertex => cases h2
    · rintro ⟨u, v, h⟩; exact ⟨_, h, rfl⟩
  · simp only [witnessEnv, decide_eq_true_eq, List.mem_filterMap]
    constructor
    · rintro ⟨pc, h1, h2⟩
      cases pc with
      | emb => cases h2
      | edge => cases h2
      | vertex v l' => cases h2; exact ⟨v, h1⟩
    · rintro ⟨v, h⟩; exact ⟨_, h, rfl⟩

theorem toOption_ok {α : Type} {x : Except String α} {a : α} (h : x.toOption = some a) : x = .ok a := by
  cases x with
  | error => cases h
  | ok b => rw [Option.some.inj h]

/-- All labels used are below 100. -/
theorem names_apart (g : DGraph ℕ) (h1 : ∀ x ∈ g.nodes, ∀ l ∈ x.2, l < 100) (h2 : ∀ x ∈ g.edges, x.2.2 < 100) (i l : ℕ) (h : g.Uses l) : l ≠ witnessNames.row i := by
  have : l < 100 := by
    rcases h with ⟨v, ls, h3, h4⟩ | ⟨u, v, h3⟩
    · exact h1 _ h3 l h4
    · exact h2 _ h3
  simp only [witnessNames]
  omega

/-! ## Two edges in a row -/

/-- Two edges with the same label, one after the other. -/
def chain : DGraph ℕ := ⟨false, [(1, []), (2, []), (3, [])], [(1, 2, 7), (2, 3, 7)]⟩

def chainPieces : List (Piece ℕ) := [.edge 1 2 7, .edge 2 3 7]

theorem chain_cover : ∃ m' rows', cover chain [] Marks.fresh = .ok (m', rows', chainPieces) := by
  obtain ⟨m', rows', ps, h1, -⟩ := cover_partial chain (by decide) [] (by simp) Marks.fresh .fresh
  have e1 : (cover chain [] Marks.fresh).toOption.map (fun x => x.2.2) = some chainPieces := by decide +kernel
  rw [h1] at e1
  have e1 : ps = chainPieces := Option.some.inj e1
  exact ⟨m', rows', e1 ▸ h1⟩

/-- The only candidate. -/
def chainCand : GCand ℕ := ⟨7, 7, [(2, 1)], {3}, some (.edge 7), some (.edge 7), 0, 1⟩

theorem chain_generate : generate (witnessEnv 0 [7, 7] []) (rewriteGraph witnessNames chainPieces) = .ok [chainCand] := toOption_ok (by decide +kernel)

/-- C91 is false for equal labels: the only candidate of a chain of two edges has an occurrence, but its estimated usage is 0. -/
theorem usage_too_small : ∃ r env c x y, cover chain [] Marks.fresh = .ok r ∧ GenEnv.Ok env ∧ env.For witnessNames [] r.2.2 ∧ generate env (rewriteGraph witnessNames r.2.2) = .ok [c] ∧
    (rewriteGraph witnessNames r.2.2).Occurs c x y ∧ c.usage = 0 := by
  obtain ⟨m', rows', h1⟩ := chain_cover
  have hfor := witnessEnv_for [] chainPieces
  obtain ⟨cs, h2, h3, -⟩ := candidates_found chain (by decide) [] (by simp) Marks.fresh .fresh witnessNames witnessNames_ok (names_apart chain (by decide) (by decide)) _ h1 _ (witnessEnv_ok _ _ _) hfor
  obtain ⟨h4, h5, x, y, h6⟩ := h3 chainCand (by
    have := h2.symm.trans chain_generate
    rw [Except.ok.inj this]
    exact List.mem_singleton.2 rfl)
  exact ⟨_, _, chainCand, x, y, h1, witnessEnv_ok _ _ _, hfor, chain_generate, h6, rfl⟩

/-! ## The same candidate in both directions -/

/-- Two chains; in the second one the later edge comes first. -/
def chains : DGraph ℕ := ⟨false, [(1, []), (2, []), (3, []), (4, []), (5, []), (6, [])], [(1, 2, 7), (2, 3, 7), (5, 6, 7), (4, 5, 7)]⟩

def chainsPieces : List (Piece ℕ) := [.edge 1 2 7, .edge 2 3 7, .edge 5 6 7, .edge 4 5 7]

/-- A merge is listed twice, once in each direction, when the two labels are equal: the chains of two edges are split between two candidates. -/
theorem candidates_twice : ∃ r env c d, cover chains [] Marks.fresh = .ok r ∧ GenEnv.Ok env ∧ env.For witnessNames [] r.2.2 ∧ generate env (rewriteGraph witnessNames r.2.2) = .ok [c, d] ∧ c.Opposite d ∧
    c.dataPort.card = 1 ∧ d.dataPort.card = 1 := by
  obtain ⟨m', rows', ps, h1, -⟩ := cover_partial chains (by decide) [] (by simp) Marks.fresh .fresh
  have e1 : (cover chains [] Marks.fresh).toOption.map (fun x => x.2.2) = some chainsPieces := by decide +kernel
  rw [h1] at e1
  have e1 : ps = _ := Option.some.inj e1
  subst e1
  have hgen : generate (witnessEnv 0 [7, 7, 7, 7] []) (rewriteGraph witnessNames chainsPieces) =
      .ok [⟨7, 7, [(2, 1)], {3}, some (.edge 7), some (.edge 7), 0, 1⟩, ⟨7, 7, [(1, 2)], {7}, some (.edge 7), some (.edge 7), 0, 1⟩] := toOption_ok (by decide +kernel)
  refine ⟨_, _, _, _, h1, witnessEnv_ok _ _ _, witnessEnv_for [] chainsPieces, hgen, ⟨rfl, rfl, ?_⟩, rfl, rfl⟩
  intro a b
  simp [and_comm]

/-! ## A label of vertices and edges -/

/-- An edge that starts at a vertex with the same label. -/
def mixed : DGraph ℕ := ⟨false, [(1, [7]), (2, [])], [(1, 2, 7)]⟩

def mixedPieces : List (Piece ℕ) := [.edge 1 2 7, .vertex 1 7]

/-- C90: when a label is in use both as vertex and as edge singleton, the patterns of a candidate are wrong: the labelled vertex is taken for a second edge. -/
theorem candidates_mixed : ∃ r env c, cover mixed [] Marks.fresh = .ok r ∧ GenEnv.Ok env ∧ env.For witnessNames [] r.2.2 ∧ generate env (rewriteGraph witnessNames r.2.2) = .ok [c] ∧
    r.2.2 = [.edge 1 2 7, .vertex 1 7] ∧ c.port = [(1, 1)] ∧ c.firstPat = some (.edge 7) ∧ c.secondPat = some (.edge 7) := by
  obtain ⟨m', rows', ps, h1, -⟩ := cover_partial mixed (by decide) [] (by simp) Marks.fresh .fresh
  have e1 : (cover mixed [] Marks.fresh).toOption.map (fun x => x.2.2) = some mixedPieces := by decide +kernel
  rw [h1] at e1
  have e1 : ps = _ := Option.some.inj e1
  subst e1
  have hgen : generate (witnessEnv 0 [7] [7]) (rewriteGraph witnessNames mixedPieces) = .ok [⟨7, 7, [(1, 1)], {2}, some (.edge 7), some (.edge 7), 1, 1⟩] := toOption_ok (by decide +kernel)
  exact ⟨_, _, _, h1, witnessEnv_ok _ _ _, witnessEnv_for [] mixedPieces, hgen, rfl, rfl, rfl, rfl⟩

/-! ## A wheel -/

/-- A hub, an edge to every vertex of a triangle, and the triangle. -/
def wheel : DGraph ℕ := ⟨false, [(1, []), (2, []), (3, []), (4, [])], [(1, 2, 7), (2, 3, 8), (1, 4, 7), (4, 2, 8), (1, 3, 7), (3, 4, 8)]⟩

/-- An edge from the hub and the next edge of the triangle. -/
def spoke : DGraph ℕ := ⟨false, [(1, []), (2, []), (3, [])], [(1, 2, 7), (2, 3, 8)]⟩

def wheelRow : Row ℕ := ⟨spoke, [[(1, 1), (2, 2), (3, 3)], [(1, 1), (4, 2), (2, 3)], [(1, 1), (3, 2), (4, 3)]], []⟩

theorem wheelRow_ok : RowOk wheel wheelRow := by
  refine rowOk_of _ _ ?_ (by decide) (by decide)
  intro e he
  simp only [wheelRow, List.mem_cons, List.not_mem_nil, or_false] at he
  rcases he with rfl | rfl | rfl
  all_goals exact isEmbedding_of _ _ _ rfl (by decide) (by decide) (by decide) (by decide) (by decide)

def wheelPieces : List (Piece ℕ) :=
  [.emb 0 [(1, 1), (2, 2), (3, 3)] [(1, 1), (2, 2), (3, 3)], .emb 0 [(1, 1), (4, 2), (2, 3)] [(1, 1), (4, 2), (2, 3)], .emb 0 [(1, 1), (3, 2), (4, 3)] [(1, 1), (3, 2), (4, 3)]]

theorem wheel_cover : ∃ m' rows', cover wheel [wheelRow] Marks.fresh = .ok (m', rows', wheelPieces) := by
  obtain ⟨m', rows', ps, h1, -⟩ := cover_partial wheel (by decide) [wheelRow] (by intro r hr; rw [List.mem_singleton] at hr; subst hr; exact wheelRow_ok) Marks.fresh .fresh
  have e1 : (cover wheel [wheelRow] Marks.fresh).toOption.map (fun x => x.2.2) = some wheelPieces := by decide +kernel
  rw [h1] at e1
  have e1 : ps = wheelPieces := Option.some.inj e1
  exact ⟨m', rows', e1 ▸ h1⟩

/-- The two candidates of the wheel. -/
def wheelCands : List (GCand ℕ) :=
  [⟨100, 100, [(1, 1), (2, 3)], {3, 2, 6}, some (.row 0), some (.row 0), 1, 3⟩, ⟨100, 100, [(1, 1), (3, 2)], {2, 4}, some (.row 0), some (.row 0), 1, 1⟩]

theorem wheel_generate : generate (witnessEnv 1 [] []) (rewriteGraph witnessNames wheelPieces) = .ok wheelCands := toOption_ok (by decide +kernel)

/-- C92 is false when a later candidate is opposite: the hub, node 2, belongs to both candidates; it counts as exclusive for the first one, whose three ports are all exclusive, but not for the second one. -/
theorem exclusive_too_large : ∃ r env c d, cover wheel [wheelRow] Marks.fresh = .ok r ∧ GenEnv.Ok env ∧ env.For witnessNames [wheelRow] r.2.2 ∧ generate env (rewriteGraph witnessNames r.2.2) = .ok [c, d] ∧
    2 ∈ c.dataPort ∧ 2 ∈ d.dataPort ∧ c.exclusive = c.dataPort.card ∧ d.exclusive + 1 = d.dataPort.card := by
  obtain ⟨m', rows', h1⟩ := wheel_cover
  exact ⟨_, _, _, _, h1, witnessEnv_ok _ _ _, witnessEnv_for [wheelRow] wheelPieces, wheel_generate, by decide, by decide, by decide, by decide⟩

/-! ## Two edges with different labels and a labelled vertex -/

/-- A vertex labelled 5, an edge labelled 7 from it, and an edge labelled 8, twice. -/
def forks : DGraph ℕ := ⟨false, [(1, [5]), (2, []), (3, []), (4, [5]), (5, []), (6, [])], [(1, 2, 7), (2, 3, 8), (4, 5, 7), (5, 6, 8)]⟩

def forksPieces : List (Piece ℕ) := [.edge 1 2 7, .edge 2 3 8, .edge 4 5 7, .edge 5 6 8, .vertex 1 5, .vertex 4 5]

/-- The two candidates: the edges at their common vertex, and the labelled vertex with the edge that leaves it. -/
def forksCands : List (GCand ℕ) :=
  [⟨5, 7, [(1, 1)], {2, 7}, some (.vertex 5), some (.edge 7), 2, 2⟩, ⟨7, 8, [(2, 1)], {3, 8}, some (.edge 7), some (.edge 8), 2, 2⟩]

theorem forks_cover : ∃ m' rows', cover forks [] Marks.fresh = .ok (m', rows', forksPieces) := by
  obtain ⟨m', rows', ps, h1, -⟩ := cover_partial forks (by decide) [] (by simp) Marks.fresh .fresh
  have e1 : (cover forks [] Marks.fresh).toOption.map (fun x => x.2.2) = some forksPieces := by decide +kernel
  rw [h1] at e1
  have e1 : ps = forksPieces := Option.some.inj e1
  exact ⟨m', rows', e1 ▸ h1⟩

theorem forks_generate : generate (witnessEnv 0 [7, 8, 7, 8] [5, 5]) (rewriteGraph witnessNames forksPieces) = .ok forksCands := toOption_ok (by decide +kernel)

/-- The hypotheses of `candidates_found` and `candidate_patterns_partial` hold for this graph; there are two candidates. -/
example : ∃ (m' : Marks ℕ) (rows' : List (Row ℕ)), cover forks [] Marks.fresh = .ok (m', rows', forksPieces) ∧
    (∀ c ∈ forksCands, c.port ≠ [] ∧ c.port.Nodup ∧ ∃ x y, (rewriteGraph witnessNames forksPieces).Occurs c x y) ∧
    ∀ c ∈ forksCands, ∀ pc ∈ forksPieces, (pc.node witnessNames).label = c.first → c.firstPat = some pc.kind := by
  obtain ⟨m', rows', h1⟩ := forks_cover
  obtain ⟨cs, h2, h3, -⟩ := candidates_found forks (by decide) [] (by simp) Marks.fresh .fresh witnessNames witnessNames_ok (names_apart forks (by decide) (by decide)) _ h1 _ (witnessEnv_ok _ _ _) (witnessEnv_for [] forksPieces)
  obtain ⟨cs', h4, h5⟩ := candidate_patterns_partial forks (by decide) [] (by simp) Marks.fresh .fresh witnessNames witnessNames_ok (names_apart forks (by decide) (by decide)) _ h1 _ (witnessEnv_ok _ _ _) (witnessEnv_for [] forksPieces)
    (by
      intro u v w l he hv
      have h6 : ∀ pc ∈ forksPieces, ∀ qc ∈ forksPieces, pc.edgeLabel? = none ∨ pc.edgeLabel? ≠ qc.vertexLabel? := by decide
      rcases h6 _ he _ hv with h | h
      · cases h
      · exact h rfl)
  have e1 : cs = forksCands := Except.ok.inj (h2.symm.trans forks_generate)
  have e2 : cs' = forksCands := Except.ok.inj (h4.symm.trans forks_generate)
  subst e1
  subst e2
  exact ⟨m', rows', h1, h3, fun c hc pc hpc => ((h5 c hc).2.2 pc hpc).1⟩

/-- The hypotheses of `estimated_usage_partial` and `exclusive_ports_partial` hold for the second candidate, with two occurrences without common node. -/
example : ∃ c ∈ forksCands, c.first ≠ c.second ∧ c.usage = 2 ∧ c.exclusive = 2 ∧ ∀ O : List (ℕ × ℕ), (∀ q ∈ O, (rewriteGraph witnessNames forksPieces).Occurs c q.1 q.2) → (O.map Prod.fst ++ O.map Prod.snd).Nodup → O.length ≤ 2 := by
  obtain ⟨m', rows', h1⟩ := forks_cover
  obtain ⟨cs, h2, h3⟩ := estimated_usage_partial forks (by decide) [] (by simp) Marks.fresh .fresh witnessNames witnessNames_ok (names_apart forks (by decide) (by decide)) _ h1 _ (witnessEnv_ok _ _ _) (witnessEnv_for [] forksPieces)
  have e1 : cs = forksCands := Except.ok.inj (h2.symm.trans forks_generate)
  subst e1
  refine ⟨_, List.mem_cons_of_mem _ (List.mem_cons_self ..), by decide, rfl, rfl, ?_⟩
  intro O hO hdis
  have h4 := h3 _ (List.mem_cons_of_mem _ (List.mem_cons_self ..)) (.inl (by decide)) O hO hdis
  have h5 : ((O.length : ℕ) : ℚ) ≤ 2 := h4
  exact_mod_cast h5

/-- The hypotheses of `exclusive_ports_partial` hold for both candidates; the number of exclusive ports of the second one is 2. -/
example : ∀ S : Finset ℕ, (∀ p, p ∈ S ↔ p ∈ ({3, 8} : Finset ℕ) ∧ ∀ (j : ℕ) (d : GCand ℕ), forksCands[j]? = some d → p ∈ d.dataPort → j = 1) → S.card = 2 := by
  intro S hS
  obtain ⟨m', rows', h1⟩ := forks_cover
  have h2 := exclusive_ports_partial forks [] (by simp) Marks.fresh witnessNames witnessNames_ok _ h1 _ (witnessEnv_ok _ _ _) forksCands forks_generate 1 _ rfl S hS
  exact (h2.2 (fun j d _ _ he => absurd he (by decide))).symm

end Verif.Graph
