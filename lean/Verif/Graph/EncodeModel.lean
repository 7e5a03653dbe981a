import Verif.Graph.CodeModel
import Verif.Graph.MergeModel

/-!
# Label codes and description of patterns: model

Source: `/repo/skmine/graph/graphmdl/label_codes.py:16-95`, `utils.py:169-280`, `code_table_row.py:140-163`, `code_table.py:115-140, 285-309`. Floats are real numbers.
-/

set_option autoImplicit false

namespace Verif.Graph

variable {σ : Type} [DecidableEq σ]

/-- `LabelCodes`: the code lengths of the vertex labels and of the edge labels. -/
structure LabelTable (σ : Type) where
  vertex : List (σ × ℝ)
  edge : List (σ × ℝ)

/-- The code lengths of counted labels, `label_codes.py:18-21`. -/
noncomputable def codesOf (total : ℕ) (d : List (σ × ℕ)) : Except String (List (σ × ℝ)) := d.mapM (fun x => (log2 x.2 total).map (fun c => (x.1, c)))

/-- `LabelCodes.__init__`, `label_codes.py:16-21`. -/
noncomputable def labelCodes (g : LGraph σ) : Except String (LabelTable σ) :=
  (totalLabel g).bind (fun total => (countVertex g).bind (fun v => (codesOf total v).bind (fun vc => (countEdge g).bind (fun e => (codesOf total e).map (fun ec => ⟨vc, ec⟩)))))

/-- `math.log2(binomial(n, k))` with exact division. -/
noncomputable def logBinomial (n k : ℕ) : Except String ℝ := (binomial id n k).bind (fun b => if b ≤ 0 then .error "ValueError" else .ok (Real.logb 2 (b : ℝ)))

/-- The loops over the labels of a pattern, `utils.py:192-206`, and their sum. `N` is the number of places a label can be at. -/
noncomputable def describeLabels (codes : List (σ × ℝ)) (N : ℕ) : List (σ × ℕ) → Except String ℝ
  | [] => .ok 0
  | (l, k) :: t => match codes.lookup l with
    | none => .error "KeyError"
    | some c => (universalInt0 k).bind (fun a => (logBinomial N k).bind (fun b => (describeLabels codes N t).map (fun r => c + a + b + r)))

/-- `encode`, `utils.py:169-211`. -/
noncomputable def encode (t : LabelTable σ) (p : LGraph σ) : Except String ℝ :=
  (countEdge p).bind (fun edges => (countVertex p).bind (fun vertex =>
    if t.vertex.length + t.edge.length = 0 then .error "ValueError"
    else (universalInt0 p.nodes.length).bind (fun n => (describeLabels t.vertex p.nodes.length vertex).bind (fun a =>
      (describeLabels t.edge (p.nodes.length ^ 2) edges).map (fun b => a + b + Real.logb 2 (t.vertex.length + t.edge.length) + n)))))

/-- `encode_vertex_singleton`, `utils.py:214-236`; `blank` tells whether the label is the empty string or `None`. -/
noncomputable def encodeVertexSingleton (blank : σ → Bool) (t : LabelTable σ) (l : σ) : Except String ℝ :=
  if blank l then .error "ValueError"
  else if t.vertex.length + t.edge.length = 0 then .error "ValueError"
  else (universalInt0 1).bind (fun n => match t.vertex.lookup l with
    | none => .error "KeyError"
    | some c => (universalInt0 1).bind (fun a => (logBinomial 1 1).map (fun b => c + a + b + Real.logb 2 (t.vertex.length + t.edge.length) + n)))

/-- `encode_edge_singleton`, `utils.py:239-260`. -/
noncomputable def encodeEdgeSingleton (blank : σ → Bool) (t : LabelTable σ) (l : σ) : Except String ℝ :=
  if blank l then .error "ValueError"
  else if t.vertex.length + t.edge.length = 0 then .error "ValueError"
  else (universalInt0 2).bind (fun n => match t.edge.lookup l with
    | none => .error "KeyError"
    | some c => (universalInt0 1).bind (fun a => (logBinomial 4 1).map (fun b => c + a + b + Real.logb 2 (t.vertex.length + t.edge.length) + n)))

/-- `encode_singleton`, `utils.py:263-280`. -/
noncomputable def encodeSingleton (blank : σ → Bool) (t : LabelTable σ) (arity : ℕ) (l : σ) : Except String ℝ :=
  if arity = 1 then encodeVertexSingleton blank t l else if arity = 2 then encodeEdgeSingleton blank t l else .error "ValueError"

/-- `CodeTableRow.compute_description_length`, `code_table_row.py:140-163`, for a pattern with `k` ports. -/
noncomputable def rowDescription (t : LabelTable σ) (p : LGraph σ) (k : ℕ) : Except String ℝ :=
  (logBinomial p.nodes.length k).bind (fun b => (encode t p).map (fun s => s + (Real.logb 2 (p.nodes.length + 1) + b)))

/-- The sum of results that may be errors. -/
noncomputable def sumOk : List (Except String ℝ) → Except String ℝ
  | [] => .ok 0
  | x :: t => x.bind (fun a => (sumOk t).map (fun b => a + b))

/-- `_compute_singleton_description_length`, `code_table.py:285-309`. -/
noncomputable def singletonDescription (blank : σ → Bool) (t : LabelTable σ) (ps : List (Piece σ)) : Except String ℝ :=
  sumOk ((vertexUsage ps).map (fun x => (encodeSingleton blank t 1 x.1).map (fun d => d + Real.logb 2 2)) ++ (edgeUsage ps).map (fun x => (encodeSingleton blank t 2 x.1).map (fun d => d + (Real.logb 2 3 + 2))))

/-- `compute_ct_description_length`, `code_table.py:124-140`, after a cover that made the pieces `ps`; `pats` are the patterns of the rows. -/
noncomputable def tableDescription (blank : σ → Bool) (t : LabelTable σ) (pats : List (LGraph σ)) (ps : List (Piece σ)) : Except String ℝ :=
  if ps = [] then .error "ValueError"
  else (sumOk ((pats.zipIdx.filter (fun x => decide (rowUsage ps x.2 ≠ 0))).map (fun x => rowDescription t x.1 (portUsage ps x.2).length))).bind (fun a => (singletonDescription blank t ps).map (fun b => a + b))

end Verif.Graph
