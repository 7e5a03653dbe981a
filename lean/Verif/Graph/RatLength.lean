import Verif.Graph.EndModel
import Verif.Graph.EncodeLemmas
import Verif.Graph.DescProps
import Mathlib.Tactic.Linarith
import Mathlib.Tactic.Positivity
import Mathlib.Tactic.Ring
import Mathlib.Tactic.FieldSimp

/-!
# Description lengths of GraphMDL are logarithms of rational numbers: lemmas

All lengths are sums of whole numbers and of logarithms of rational numbers; the functions here compute the rational number whose logarithm a length is, so that lengths can be compared exactly.
-/

set_option autoImplicit false
set_option linter.unusedSectionVars false

namespace Verif.Graph

variable {σ : Type} [DecidableEq σ]

/-- The result is the logarithm of a positive rational number. -/
def IsLog (x : Except String ℝ) (q : ℚ) : Prop := 0 < q ∧ x = .ok (Real.logb 2 (q : ℝ))

theorem logb_mul_cast {p q : ℚ} (hp : 0 < p) (hq : 0 < q) : Real.logb 2 ((p * q : ℚ) : ℝ) = Real.logb 2 (p : ℝ) + Real.logb 2 (q : ℝ) := by
  have h1 : (0 : ℝ) < p := by exact_mod_cast hp
  have h2 : (0 : ℝ) < q := by exact_mod_cast hq
  push_cast
  rw [Real.logb_mul h1.ne' h2.ne']

theorem logb_pow_two (n : ℕ) : Real.logb 2 (((2 : ℚ) ^ n : ℚ) : ℝ) = n := by
  push_cast
  rw [Real.logb_pow]
  simp

theorem logb_nat (n : ℕ) : Real.logb 2 (((n : ℕ) : ℚ) : ℝ) = Real.logb 2 (n : ℝ) := by norm_cast

/-! ## The prequential code -/

/-- The inner loop. -/
def runQ : ℕ → ℚ → ℚ → ℚ
  | 0, _, _ => 1
  | n + 1, e, t => t / e * runQ n (e + 1) (t + 1)

/-- The outer loop. -/
def seqQ : List ℕ → ℚ → ℚ
  | [], _ => 1
  | v :: t, tot => runQ v (1 / 2) tot * seqQ t (tot + v)

def preqQ (seq : List ℕ) : ℚ := seqQ seq (seq.length * (1 / 2))

theorem runQ_pos (n : ℕ) (e t : ℚ) (he : 0 < e) (ht : 0 < t) : 0 < runQ n e t := by
  induction n generalizing e t with
  | zero => exact one_pos
  | succ n ih => exact mul_pos (div_pos ht he) (ih _ _ (by linarith) (by linarith))

theorem seqQ_pos (l : List ℕ) (t : ℚ) (ht : 0 < t) : 0 < seqQ l t := by
  induction l generalizing t with
  | nil => exact one_pos
  | cons v l ih => exact mul_pos (runQ_pos _ _ _ (by norm_num) ht) (ih _ (by positivity))

theorem preqRun_log (n : ℕ) (c e t : ℚ) (hc : 0 < c) (he : 0 < e) (ht : 0 < t) : preqRun n (Real.logb 2 (c : ℝ)) e t = .ok (Real.logb 2 ((c * runQ n e t : ℚ) : ℝ), ((t + n : ℚ) : ℝ)) := by
  induction n generalizing c e t with
  | zero => simp [preqRun, runQ]
  | succ n ih =>
    have h1 : (0 : ℝ) < e := by exact_mod_cast he
    have h2 : (0 : ℝ) < t := by exact_mod_cast ht
    have hl : log2 (e : ℝ) (t : ℝ) = .ok (Real.logb 2 ((t / e : ℚ) : ℝ)) := by
      unfold log2
      rw [if_neg h2.ne', if_neg (not_le.2 (div_pos h1 h2))]
      push_cast
      rw [Real.logb_div h1.ne' h2.ne', Real.logb_div h2.ne' h1.ne']
      congr 1
      ring
    rw [preqRun, hl]
    simp only [Except.bind]
    rw [← logb_mul_cast hc (div_pos ht he)]
    have h3 := ih (c * (t / e)) (e + 1) (t + 1) (mul_pos hc (div_pos ht he)) (by linarith) (by linarith)
    push_cast at h3 ⊢
    rw [h3, runQ]
    push_cast
    rw [mul_assoc, show (t : ℝ) + 1 + n = t + (n + 1) by ring]

theorem preqSeq_log (l : List ℕ) (c t : ℚ) (hc : 0 < c) (ht : 0 < t) : preqSeq (1 / 2) l (Real.logb 2 (c : ℝ)) t = .ok (Real.logb 2 ((c * seqQ l t : ℚ) : ℝ)) := by
  induction l generalizing c t with
  | nil => simp [preqSeq, seqQ]
  | cons v l ih =>
    have h := preqRun_log v c (1 / 2) t hc (by norm_num) ht
    rw [preqSeq]
    have e : ((1 / 2 : ℚ) : ℝ) = 1 / 2 := by norm_num
    rw [e] at h
    rw [h]
    simp only [Except.bind]
    rw [ih _ _ (mul_pos hc (runQ_pos _ _ _ (by norm_num) ht)) (by positivity), seqQ, mul_assoc]

theorem prequential_log (l : List ℕ) : IsLog (prequential l (1 / 2)) (preqQ l) := by
  unfold prequential preqQ
  cases l with
  | nil => exact ⟨one_pos, by simp [preqSeq, seqQ]⟩
  | cons v l =>
    have ht : (0 : ℚ) < ((v :: l).length : ℚ) * (1 / 2) := by
      have : (0 : ℚ) < ((v :: l).length : ℚ) := by exact_mod_cast Nat.succ_pos _
      linarith
    refine ⟨seqQ_pos _ _ ht, ?_⟩
    have h := preqSeq_log (v :: l) 1 _ one_pos ht
    simp only [one_mul, Rat.cast_one, Real.logb_one] at h
    rw [← h]
    congr 1
    push_cast
    rfl

/-! ## Sums -/

theorem sumOk_log (L : List (Except String ℝ)) (Q : List ℚ) (h : List.Forall₂ IsLog L Q) : IsLog (sumOk L) Q.prod := by
  induction h with
  | nil => exact ⟨one_pos, by simp [sumOk]⟩
  | cons h1 _ ih =>
    refine ⟨by rw [List.prod_cons]; exact mul_pos h1.1 ih.1, ?_⟩
    rw [sumOk, h1.2, ih.2, List.prod_cons, logb_mul_cast h1.1 ih.1]
    rfl

theorem mapM_log {α : Type} (f : α → Except String ℝ) (q : α → ℚ) (h : ∀ a, IsLog (f a) (q a)) (L : List α) : 0 < (L.map q).prod ∧ ∃ d, L.mapM f = .ok d ∧ d.sum = Real.logb 2 ((L.map q).prod : ℚ) := by
  induction L with
  | nil => exact ⟨one_pos, [], rfl, by simp⟩
  | cons a L ih =>
    obtain ⟨hp, d, hd, hs⟩ := ih
    refine ⟨by rw [List.map_cons, List.prod_cons]; exact mul_pos (h a).1 hp, Real.logb 2 (q a : ℝ) :: d, ?_, ?_⟩
    · rw [List.mapM_cons, (h a).2, hd]
      rfl
    · rw [List.sum_cons, hs, List.map_cons, List.prod_cons, logb_mul_cast (h a).1 hp]

/-! ## Descriptions of patterns -/

/-- The number of bits of a whole number. -/
def bits0 (n : ℕ) : ℕ := (universalInt0 n).toOption.getD 0

theorem bits0_ok (n : ℕ) : universalInt0 n = .ok (bits0 n) := by
  obtain ⟨a, h⟩ := universalInt0_ok n
  unfold bits0
  rw [h]
  rfl

/-- Codes of labels, as rational numbers. -/
structure RatTable (σ : Type) where
  vertex : List (σ × ℚ)
  edge : List (σ × ℚ)

noncomputable def toCodes (c : List (σ × ℚ)) : List (σ × ℝ) := c.map (fun x => (x.1, Real.logb 2 (x.2 : ℝ)))

/-- The table with these codes. -/
noncomputable def RatTable.table (t : RatTable σ) : LabelTable σ := ⟨toCodes t.vertex, toCodes t.edge⟩

def RatTable.Pos (t : RatTable σ) : Prop := (∀ x ∈ t.vertex, 0 < x.2) ∧ ∀ x ∈ t.edge, 0 < x.2

theorem toCodes_lookup (c : List (σ × ℚ)) (l : σ) : (toCodes c).lookup l = (c.lookup l).map (fun q : ℚ => Real.logb 2 (q : ℝ)) := by
  induction c with
  | nil => rfl
  | cons x c ih =>
    obtain ⟨a, q⟩ := x
    unfold toCodes at ih ⊢
    simp only [List.map_cons, List.lookup_cons]
    cases l == a
    · exact ih
    · rfl

theorem lookup_pos {c : List (σ × ℚ)} (h : ∀ x ∈ c, 0 < x.2) {l : σ} {q : ℚ} (hq : c.lookup l = some q) : 0 < q := by
  induction c with
  | nil => cases hq
  | cons x c ih =>
    obtain ⟨a, b⟩ := x
    rw [List.lookup_cons] at hq
    cases hla : l == a
    · rw [hla] at hq
      exact ih (fun y hy => h y (List.mem_cons_of_mem _ hy)) hq
    · rw [hla] at hq
      obtain rfl := Option.some.inj hq
      exact h _ List.mem_cons_self

/-- `describeLabels`, when it succeeds. -/
def labelsQ (codes : List (σ × ℚ)) (N : ℕ) : List (σ × ℕ) → Option ℚ
  | [] => some 1
  | (l, k) :: t => match codes.lookup l with
    | none => none
    | some c => if k ≤ N then (labelsQ codes N t).map (fun r => c * 2 ^ bits0 k * (N.choose k : ℕ) * r) else none

theorem labelsQ_log (codes : List (σ × ℚ)) (hc : ∀ x ∈ codes, 0 < x.2) (N : ℕ) (L : List (σ × ℕ)) (q : ℚ) (h : labelsQ codes N L = some q) : IsLog (describeLabels (toCodes codes) N L) q := by
  induction L generalizing q with
  | nil =>
    obtain rfl := Option.some.inj h
    exact ⟨one_pos, by simp [describeLabels]⟩
  | cons x L ih =>
    obtain ⟨l, k⟩ := x
    rw [labelsQ] at h
    cases hl : codes.lookup l with
    | none => rw [hl] at h; cases h
    | some c =>
      rw [hl] at h
      simp only at h
      split at h
      · rename_i hk
        rw [Option.map_eq_some_iff] at h
        obtain ⟨r, hr, rfl⟩ := h
        have hcp := lookup_pos hc hl
        have h1 := ih r hr
        have hch : (0 : ℚ) < (N.choose k : ℕ) := by exact_mod_cast Nat.choose_pos hk
        have h2 : (0 : ℚ) < 2 ^ bits0 k := by positivity
        refine ⟨by have := h1.1; positivity, ?_⟩
        rw [describeLabels, toCodes_lookup, hl]
        simp only [Option.map_some, bits0_ok, logBinomial_ok _ _ hk, h1.2, Except.bind, Except.map]
        rw [logb_mul_cast (mul_pos (mul_pos hcp h2) hch) h1.1, logb_mul_cast (mul_pos hcp h2) hch, logb_mul_cast hcp h2, logb_pow_two, logb_nat]
      · cases h

/-- `encode`, when it succeeds. -/
def encodeQ (t : RatTable σ) (p : LGraph σ) : Option ℚ :=
  match countEdge p, countVertex p with
  | .ok e, .ok v => if t.vertex.length + t.edge.length = 0 then none
    else (labelsQ t.vertex p.nodes.length v).bind (fun a => (labelsQ t.edge (p.nodes.length ^ 2) e).map (fun b => a * b * (t.vertex.length + t.edge.length : ℕ) * 2 ^ bits0 p.nodes.length))
  | _, _ => none

theorem encodeQ_log (t : RatTable σ) (ht : t.Pos) (p : LGraph σ) (q : ℚ) (h : encodeQ t p = some q) : IsLog (encode t.table p) q := by
  unfold encodeQ at h
  split at h
  · rename_i e v he hv
    split at h
    · cases h
    · rename_i hn
      rw [Option.bind_eq_some_iff] at h
      obtain ⟨a, ha, h⟩ := h
      rw [Option.map_eq_some_iff] at h
      obtain ⟨b, hb, rfl⟩ := h
      have h1 := labelsQ_log _ ht.1 _ _ _ ha
      have h2 := labelsQ_log _ ht.2 _ _ _ hb
      have h3 : (0 : ℚ) < (t.vertex.length + t.edge.length : ℕ) := by exact_mod_cast Nat.pos_of_ne_zero hn
      have h4 : (0 : ℚ) < 2 ^ bits0 p.nodes.length := by positivity
      have e1 : t.table.vertex.length = t.vertex.length := List.length_map _
      have e2 : t.table.edge.length = t.edge.length := List.length_map _
      refine ⟨mul_pos (mul_pos (mul_pos h1.1 h2.1) h3) h4, ?_⟩
      unfold encode
      rw [he, hv]
      simp only [Except.bind, e1, e2, if_neg hn, bits0_ok]
      rw [show t.table.vertex = toCodes t.vertex from rfl, show t.table.edge = toCodes t.edge from rfl, h1.2, h2.2]
      simp only [Except.map]
      rw [logb_mul_cast (mul_pos (mul_pos h1.1 h2.1) h3) h4, logb_mul_cast (mul_pos h1.1 h2.1) h3, logb_mul_cast h1.1 h2.1, logb_pow_two, logb_nat]
      push_cast
      rfl
  · cases h

/-- `rowDescription`, when it succeeds. -/
def rowQ (t : RatTable σ) (p : LGraph σ) (k : ℕ) : Option ℚ :=
  if k ≤ p.nodes.length then (encodeQ t p).map (fun s => s * ((p.nodes.length + 1 : ℕ) * (p.nodes.length.choose k : ℕ))) else none

theorem rowQ_log (t : RatTable σ) (ht : t.Pos) (p : LGraph σ) (k : ℕ) (q : ℚ) (h : rowQ t p k = some q) : IsLog (rowDescription t.table p k) q := by
  unfold rowQ at h
  split at h
  · rename_i hk
    rw [Option.map_eq_some_iff] at h
    obtain ⟨s, hs, rfl⟩ := h
    have h1 := encodeQ_log t ht p s hs
    have h2 : (0 : ℚ) < (p.nodes.length.choose k : ℕ) := by exact_mod_cast Nat.choose_pos hk
    have h3 : (0 : ℚ) < (p.nodes.length + 1 : ℕ) := by exact_mod_cast Nat.succ_pos _
    refine ⟨mul_pos h1.1 (mul_pos h3 h2), ?_⟩
    unfold rowDescription
    rw [logBinomial_ok _ _ hk, h1.2]
    simp only [Except.bind, Except.map]
    rw [logb_mul_cast h1.1 (mul_pos h3 h2), logb_mul_cast h3 h2, logb_nat, logb_nat]
    push_cast
    rfl
  · cases h

/-- The description of an edge singleton with the bits for its ports, when it succeeds. -/
def edgeQ (t : RatTable σ) (l : σ) : Option ℚ := (t.edge.lookup l).map (fun c => c * 2 ^ bits0 1 * 4 * (t.vertex.length + t.edge.length : ℕ) * 2 ^ bits0 2 * (3 * 4))

theorem edgeQ_log (blank : σ → Bool) (t : RatTable σ) (ht : t.Pos) (l : σ) (hb : blank l = false) (q : ℚ) (h : edgeQ t l = some q) :
    IsLog ((encodeSingleton blank t.table 2 l).map (fun d => d + (Real.logb 2 3 + 2))) q := by
  unfold edgeQ at h
  rw [Option.map_eq_some_iff] at h
  obtain ⟨c, hc, rfl⟩ := h
  have hcp := lookup_pos ht.2 hc
  have hn : t.vertex.length + t.edge.length ≠ 0 := by
    cases he : t.edge with
    | nil => rw [he] at hc; cases hc
    | cons => simp
  have h3 : (0 : ℚ) < (t.vertex.length + t.edge.length : ℕ) := by exact_mod_cast Nat.pos_of_ne_zero hn
  have h1 : (0 : ℚ) < 2 ^ bits0 1 := by positivity
  have h2 : (0 : ℚ) < 2 ^ bits0 2 := by positivity
  have e1 : t.table.vertex.length = t.vertex.length := List.length_map _
  have e2 : t.table.edge.length = t.edge.length := List.length_map _
  refine ⟨by positivity, ?_⟩
  unfold encodeSingleton encodeEdgeSingleton
  rw [if_neg (by decide), if_pos rfl, hb, if_neg (by decide), e1, e2, if_neg hn, show (2 : ℤ) = ((2 : ℕ) : ℤ) from rfl, show (1 : ℤ) = ((1 : ℕ) : ℤ) from rfl, bits0_ok, bits0_ok, logBinomial_ok _ _ (by decide),
    show t.table.edge = toCodes t.edge from rfl, toCodes_lookup, hc]
  simp only [Except.bind, Except.map, Option.map_some]
  rw [logb_mul_cast (by positivity) (by norm_num), logb_mul_cast (by positivity) h2, logb_mul_cast (by positivity) h3, logb_mul_cast (by positivity) (by norm_num), logb_mul_cast hcp h1, logb_pow_two, logb_pow_two, logb_nat,
    logb_mul_cast (by norm_num) (by norm_num)]
  have e3 : Real.logb 2 ((4 : ℚ) : ℝ) = 2 := by
    have := logb_pow_two 2
    norm_num at this ⊢
    exact this
  have e4 : Real.logb 2 (((Nat.choose 4 1 : ℕ)) : ℝ) = 2 := by
    rw [show (((Nat.choose 4 1 : ℕ)) : ℝ) = ((4 : ℚ) : ℝ) by norm_num [Nat.choose]]; exact e3
  rw [e4, e3]
  push_cast
  congr 1

/-! ## Tables without vertex singletons -/

/-- `tableDescription`, when no vertex singleton is in use. -/
def tableQ (t : RatTable σ) (pats : List (LGraph σ)) (ps : List (Piece σ)) : Option ℚ :=
  (((pats.zipIdx.filter (fun x => decide (rowUsage ps x.2 ≠ 0))).mapM (fun x => rowQ t x.1 (portUsage ps x.2).length))).bind (fun a => ((edgeUsage ps).mapM (fun x => edgeQ t x.1)).map (fun b => a.prod * b.prod))

theorem mapM_some {α : Type} (f : α → Option ℚ) (g : α → Except String ℝ) (L : List α) (hfg : ∀ a ∈ L, ∀ q, f a = some q → IsLog (g a) q) (Q : List ℚ) (h : L.mapM f = some Q) : List.Forall₂ IsLog (L.map g) Q := by
  induction L generalizing Q with
  | nil =>
    simp at h
    subst h
    exact .nil
  | cons a L ih =>
    rw [List.mapM_cons] at h
    cases h1 : f a with
    | none => rw [h1] at h; cases h
    | some q =>
      cases h2 : L.mapM f with
      | none => rw [h1, h2] at h; cases h
      | some Q' =>
        rw [h1, h2] at h
        obtain rfl := Option.some.inj h
        exact .cons (hfg a List.mem_cons_self q h1) (ih (fun b hb => hfg b (List.mem_cons_of_mem _ hb)) Q' h2)

theorem tableQ_log (blank : σ → Bool) (t : RatTable σ) (ht : t.Pos) (pats : List (LGraph σ)) (ps : List (Piece σ)) (hne : ps ≠ []) (hv : vertexUsage ps = []) (hb : ∀ x ∈ edgeUsage ps, blank x.1 = false) (q : ℚ)
    (h : tableQ t pats ps = some q) : IsLog (tableDescription blank t.table pats ps) q := by
  unfold tableQ at h
  rw [Option.bind_eq_some_iff] at h
  obtain ⟨a, ha, h⟩ := h
  rw [Option.map_eq_some_iff] at h
  obtain ⟨b, hb', rfl⟩ := h
  have h1 := sumOk_log _ _ (mapM_some _ (fun x : LGraph σ × ℕ => rowDescription t.table x.1 (portUsage ps x.2).length) _ (fun x _ q hq => rowQ_log t ht _ _ q hq) a ha)
  have h2 := sumOk_log _ _ (mapM_some _ (fun x : σ × ℕ => (encodeSingleton blank t.table 2 x.1).map (fun d => d + (Real.logb 2 3 + 2))) _ (fun x hx q hq => edgeQ_log blank t ht _ (hb x hx) q hq) b hb')
  refine ⟨mul_pos h1.1 h2.1, ?_⟩
  unfold tableDescription singletonDescription
  rw [if_neg hne, h1.2, hv, List.map_nil, List.nil_append, h2.2, logb_mul_cast h1.1 h2.1]
  rfl

/-- `rewriteDesc`, when no vertex singleton is in use. -/
def rewriteQ (n : ℕ) (ps : List (Piece σ)) (rg : RGraph σ) : ℚ :=
  2 ^ bits0 (rg.nodes.filter (fun x => x.isPattern)).length * ((rg.nodes.filter (fun x => !x.isPattern)).length + 1 : ℕ)
    * (((usedRows n ps).map (fun i => (((portUsage ps i).length + 1 : ℕ) : ℚ) ^ rowUsage ps i)).prod * ((edgeUsage ps).map (fun x => (3 : ℚ) ^ x.2)).prod)
    * preqQ ((usedRows n ps).map (rowUsage ps) ++ (edgeUsage ps).map Prod.snd) * preqQ rg.portDegrees * ((edgesLabel n ps).map preqQ).prod

theorem sum_pow_log {α : Type} (f : α → ℝ) (q : α → ℚ) (hq : ∀ a, 0 < q a) (hf : ∀ a, f a = Real.logb 2 (q a : ℝ)) (L : List α) : 0 < (L.map q).prod ∧ (L.map f).sum = Real.logb 2 (((L.map q).prod : ℚ) : ℝ) := by
  induction L with
  | nil => exact ⟨one_pos, by simp⟩
  | cons a L ih =>
    refine ⟨by rw [List.map_cons, List.prod_cons]; exact mul_pos (hq a) ih.1, ?_⟩
    rw [List.map_cons, List.sum_cons, ih.2, hf, List.map_cons, List.prod_cons, logb_mul_cast (hq a) ih.1]

theorem rewriteQ_log (n : ℕ) (ps : List (Piece σ)) (rg : RGraph σ) (hne : rg.nodes ≠ []) (hv : vertexUsage ps = []) : IsLog (rewriteDesc n ps rg) (rewriteQ n ps rg) := by
  have h1 := prequential_log ((usedRows n ps).map (rowUsage ps) ++ (edgeUsage ps).map Prod.snd)
  have h2 := prequential_log rg.portDegrees
  obtain ⟨h3, d, hd, hs⟩ := mapM_log (fun l => prequential l (1 / 2)) preqQ prequential_log (edgesLabel n ps)
  obtain ⟨h4, h4'⟩ := sum_pow_log (fun i => (rowUsage ps i : ℝ) * Real.logb 2 ((portUsage ps i).length + 1)) (fun i => (((portUsage ps i).length + 1 : ℕ) : ℚ) ^ rowUsage ps i) (fun i => by positivity)
    (fun i => by push_cast; rw [Real.logb_pow]) (usedRows n ps)
  obtain ⟨h5, h5'⟩ := sum_pow_log (fun x : σ × ℕ => (x.2 : ℝ) * Real.logb 2 (2 + 1)) (fun x => (3 : ℚ) ^ x.2) (fun i => by positivity)
    (fun i => by push_cast; rw [Real.logb_pow]; norm_num) (edgeUsage ps)
  have h6 : (0 : ℚ) < 2 ^ bits0 (rg.nodes.filter (fun x => x.isPattern)).length := by positivity
  have h7 : (0 : ℚ) < ((rg.nodes.filter (fun x => !x.isPattern)).length + 1 : ℕ) := by exact_mod_cast Nat.succ_pos _
  unfold rewriteQ
  refine ⟨mul_pos (mul_pos (mul_pos (mul_pos (mul_pos h6 h7) (mul_pos h4 h5)) h1.1) h2.1) h3, ?_⟩
  unfold rewriteDesc edgesPerVertex
  rw [if_neg hne, bits0_ok, hv]
  simp only [List.map_nil, List.append_nil, Except.bind]
  rw [h1.2]
  simp only
  rw [h2.2]
  simp only
  rw [hd]
  simp only
  rw [List.sum_append, h4', h5', hs, logb_mul_cast (mul_pos (mul_pos (mul_pos (mul_pos h6 h7) (mul_pos h4 h5)) h1.1) h2.1) h3, logb_mul_cast (mul_pos (mul_pos (mul_pos h6 h7) (mul_pos h4 h5)) h1.1) h2.1,
    logb_mul_cast (mul_pos (mul_pos h6 h7) (mul_pos h4 h5)) h1.1, logb_mul_cast (mul_pos h6 h7) (mul_pos h4 h5), logb_mul_cast h4 h5, logb_mul_cast h6 h7, logb_pow_two, logb_nat]
  push_cast
  rfl

end Verif.Graph
