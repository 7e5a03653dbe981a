import Verif.Graph.VertexSpec
import Verif.Graph.RaiseProps
import Mathlib.Logic.Equiv.Basic

/-!
# Other names for the labels of a data graph: specification
-/

set_option autoImplicit false

namespace Verif.Graph

variable {σ τ : Type} [DecidableEq σ] [DecidableEq τ]

/-- The label with every name replaced. -/
def Label.relabel (g : σ ≃ τ) : Label σ → Label τ
  | .none => .none
  | .str s => .str (g s)
  | .tuple l => .tuple (l.map g)
  | .list l => .list (l.map g)

/-- The same graph with other names for its labels. -/
def LGraph.relabel (g : σ ≃ τ) (p : LGraph σ) : LGraph τ := ⟨p.nodes.map (fun n => (n.1, n.2.relabel g)), p.edges.map (fun e => (e.1, e.2.1, e.2.2.relabel g))⟩

/-- The embeddings of a pattern with other names for its labels: the same ones in the same order. -/
def embRelabel (g : σ ≃ τ) (emb : LGraph σ → List Embedding) : LGraph τ → List Embedding := fun p => emb (p.relabel g.symm)

/-- The code lengths of the labels, under their new names. -/
def LabelTable.relabel (g : σ ≃ τ) (t : LabelTable σ) : LabelTable τ := ⟨t.vertex.map (fun x => (g x.1, x.2)), t.edge.map (fun x => (g x.1, x.2))⟩

/-- What a node stands for, with the new names. -/
def PKind.relabel (g : σ ≃ τ) : PKind σ → PKind τ
  | .row i => .row i
  | .edge l => .edge (g l)
  | .vertex l => .vertex (g l)

/-- A candidate with the new names. -/
def GCand.relabel (g : σ ≃ τ) (c : GCand σ) : GCand τ := ⟨g c.first, g c.second, c.port, c.dataPort, c.firstPat.map (PKind.relabel g), c.secondPat.map (PKind.relabel g), c.usage, c.exclusive⟩

/-- A candidate and its pattern with the new names. -/
def Tried.relabel (g : σ ≃ τ) (c : Tried σ) : Tried τ := ⟨c.cand.relabel g, c.pattern.relabel g⟩

/-- The same object with other values for the candidates: rows, candidates tested, rows to prune, usages. -/
def SRow.along {C C' : Type} (e : C ≃ C') (r : SRow C) : SRow C' := ⟨e r.cand, r.uid, r.arrival⟩

/-- The same state with other values for the candidates. -/
def SState.along {C C' K : Type} (e : C ≃ C') (s : SState C K) : SState C' K where
  rows := s.rows.map (SRow.along e)
  dlen := s.dlen
  tested := s.tested.map e
  prune := s.prune.map (SRow.along e)
  usage r := s.usage (r.along e.symm)
  old := s.old.map (fun x => (x.1.along e, x.2))
  ticks := s.ticks
  timeout := s.timeout
  log := s.log

/-- The same search with other values for the candidates. -/
def SEnv.along {C C' K : Type} (e : C ≃ C') (env : SEnv C K) : SEnv C' K where
  size c := env.size (e.symm c)
  dl rows := env.dl (rows.map (SRow.along e.symm))
  usage rows r := env.usage (rows.map (SRow.along e.symm)) (r.along e.symm)
  gen s := (env.gen (s.along e.symm)).map e
  same a b := env.same (e.symm a) (e.symm b)

/-- What the generation reads: numbers in the names of rows, the number of rows, singletons that are labels of the data, and the order `lt` of the labels of the data (`utils.py:944`). -/
structure GenEnv.ReadsBy (env : GenEnv σ) (lt : σ → σ → Bool) (nm : Names σ) (n : ℕ) (d : LGraph σ) : Prop where
  idx : ∀ i, env.idx (nm.row i) = i
  nRows : env.nRows = n
  used : ∀ l, env.isE l = true ∨ env.isV l = true → d.view.Uses l
  lt : ∀ a b, d.view.Uses a → d.view.Uses b → env.lt a b = lt a b

/-- The candidates of a cover with their final patterns, or the error that ends `fit`. -/
def triedOf (nm : Names σ) (emb : LGraph σ → List Embedding) (d : LGraph σ) (pats rowPats : List (LGraph σ)) (m : Marks σ) (genv : GenEnv σ) : Except String (List (Tried σ)) :=
  (cover d.view (tableRows emb pats) m).bind (fun r => (generate genv (rewriteGraph nm r.2.2)).bind (fun cs => cs.mapM (fun c => (finalPattern rowPats c).map (fun p => ⟨c, p⟩))))

/-- The candidates tested are these, in any order; after an error there are none. -/
def TestsAll (res : Except String (List (Tried σ))) (l : List (Tried σ)) : Prop := match res with
  | .ok cs => l.Perm cs
  | .error _ => l = []

/-- The search uses the real table and tests the candidates that are generated, all of them and in the order of the code, with the final patterns of the code (`graph_mdl.py:107-108, 199-211`); labels are compared by `lt`. The rows can
have changed their order since the cover (C46). -/
structure LabelSearch (lt : σ → σ → Bool) (blank : σ → Bool) (t : LabelTable σ) (nm : Names σ) (emb : LGraph σ → List Embedding) (d : LGraph σ) (env : SEnv (Tried σ) ℝ) : Prop extends WholeSearch blank t nm emb d env where
  tests : ∀ s : SState (Tried σ) ℝ, ∃ pats m genv, pats.Perm (patsOf s.rows) ∧ History d.view m ∧ genv.Ok ∧ genv.ReadsBy lt nm pats.length d ∧
    TestsAll (triedOf nm emb d pats (patsOf s.rows) m genv) (env.gen s)
  sorted : ∀ s : SState (Tried σ) ℝ, (env.gen s).Pairwise (Before t)

/-- The texts written by the program itself, names of rows and of vertices, keep their names. -/
structure NamesKept (g : σ ≃ τ) (nm : Names σ) (nm' : Names τ) : Prop where
  row : ∀ i, nm'.row i = g (nm.row i)
  vertex : ∀ v, nm'.vertex v = g (nm.vertex v)

end Verif.Graph
