import Verif.Graph.GenSpec
import Verif.Graph.LabelProps
import Verif.Graph.CoverProps
import Mathlib.Data.List.Perm.Subperm
import Mathlib.Data.List.Nodup
import Mathlib.Data.List.Induction

/-!
# The merge candidates of a rewritten graph: lemmas
-/

set_option autoImplicit false
set_option linter.unusedSectionVars false

namespace Verif.Graph

variable {σ : Type} [DecidableEq σ]

/-- What the rewritten graph of a cover satisfies: edges start at pattern nodes, there is one edge between two nodes, and the edges of a node have different labels. -/
structure RGraph.Ok (rg : RGraph σ) : Prop where
  src : ∀ x p a, (x, p, a) ∈ rg.edges → ∃ n, 1 ≤ x ∧ rg.nodes[x - 1]? = some n ∧ n.isPattern = true
  pairs : (rg.edges.map (fun e => (e.1, e.2.1))).Nodup
  inj : ∀ x p q a, (x, p, a) ∈ rg.edges → (x, q, a) ∈ rg.edges → p = q

theorem node?_iff (rg : RGraph σ) (x : ℕ) (n : RNode σ) : rg.node? x = some n ↔ 1 ≤ x ∧ rg.nodes[x - 1]? = some n := by
  unfold RGraph.node?
  split
  · rename_i h; simp [h]
  · rename_i h; exact ⟨fun h1 => ⟨by omega, h1⟩, fun h1 => h1.2⟩

theorem mem_portNodes (rg : RGraph σ) (p : ℕ) : p ∈ rg.portNodes ↔ rg.IsPort p := by
  unfold RGraph.portNodes RGraph.IsPort
  rw [List.mem_filter, List.mem_range'_1]
  constructor
  · rintro ⟨_, h2⟩
    split at h2
    · rename_i n hn
      obtain ⟨h3, h4⟩ := (node?_iff rg p n).1 hn
      exact ⟨n, h3, h4, by simpa using h2⟩
    · cases h2
  · rintro ⟨n, h1, h2, h3⟩
    have h4 := (node?_iff rg p n).2 ⟨h1, h2⟩
    refine ⟨⟨h1, ?_⟩, ?_⟩
    · have := (List.getElem?_eq_some_iff.1 h2).1
      omega
    · rw [h4]; simp [h3]

theorem nodup_portNodes (rg : RGraph σ) : rg.portNodes.Nodup := List.Nodup.filter _ List.nodup_range'

theorem RGraph.Ok.one {rg : RGraph σ} (h : rg.Ok) (x p a b : ℕ) (ha : (x, p, a) ∈ rg.edges) (hb : (x, p, b) ∈ rg.edges) : a = b := by
  have := List.inj_on_of_nodup_map h.pairs ha hb rfl
  simpa using this

theorem RGraph.Ok.label {rg : RGraph σ} (h : rg.Ok) (x p a : ℕ) (ha : (x, p, a) ∈ rg.edges) : rg.edgeLabel x p = a := by
  unfold RGraph.edgeLabel
  cases hf : rg.edges.find? (fun e => decide (e.1 = x ∧ e.2.1 = p)) with
  | none =>
    have := List.find?_eq_none.1 hf _ ha
    simp at this
  | some e =>
    obtain ⟨e1, e2, e3⟩ := e
    have h1 := List.find?_some hf
    simp only [decide_eq_true_eq] at h1
    obtain ⟨rfl, rfl⟩ := h1
    exact h.one _ _ _ _ (List.mem_of_find?_eq_some hf) ha

theorem mem_sources (rg : RGraph σ) (p x : ℕ) : x ∈ rg.sources p ↔ ∃ a, (x, p, a) ∈ rg.edges := by
  unfold RGraph.sources
  rw [List.mem_map]
  constructor
  · rintro ⟨⟨x, q, a⟩, h1, rfl⟩
    simp only [List.mem_filter, decide_eq_true_eq] at h1
    obtain ⟨h1, rfl⟩ := h1
    exact ⟨a, h1⟩
  · rintro ⟨a, h1⟩
    exact ⟨(x, p, a), by simp [h1], rfl⟩

theorem RGraph.Ok.sources {rg : RGraph σ} (h : rg.Ok) (p : ℕ) : (rg.sources p).Nodup := by
  unfold RGraph.sources
  have h1 : (rg.edges.filter (fun e => decide (e.2.1 = p))).Nodup := List.Nodup.filter _ (List.Nodup.of_map _ h.pairs)
  refine List.Nodup.map_on ?_ h1
  rintro ⟨x, q, a⟩ hx ⟨y, q', b⟩ hy h2
  simp only [List.mem_filter, decide_eq_true_eq] at hx hy
  obtain ⟨hx, rfl⟩ := hx
  obtain ⟨hy, rfl⟩ := hy
  simp only at h2
  subst h2
  rw [h.one _ _ _ _ hx hy]

theorem countP_pair (l : List ℕ) (x y : ℕ) (h : x ≠ y) : l.countP (fun z => decide (z = x ∨ z = y)) = l.count x + l.count y := by
  induction l with
  | nil => rfl
  | cons z t ih =>
    rw [List.countP_cons, ih, List.count_cons, List.count_cons]
    by_cases h1 : z = x
    · subst h1; simp [h]; omega
    · by_cases h2 : z = y
      · subst h2; simp [h1]; omega
      · simp [h1, h2]

theorem RGraph.Ok.shared {rg : RGraph σ} (h : rg.Ok) (x y p : ℕ) (hne : x ≠ y) : p ∈ rg.sharedPorts x y ↔ ∃ a b, rg.Meet x y p a b := by
  unfold RGraph.sharedPorts RGraph.Meet
  rw [List.mem_filter, mem_portNodes, decide_eq_true_eq, countP_pair _ _ _ hne]
  have h1 := List.nodup_iff_count_le_one.1 (h.sources p) x
  have h2 := List.nodup_iff_count_le_one.1 (h.sources p) y
  constructor
  · rintro ⟨hp, h3⟩
    obtain ⟨a, ha⟩ := (mem_sources rg p x).1 (List.count_pos_iff.1 (by omega))
    obtain ⟨b, hb⟩ := (mem_sources rg p y).1 (List.count_pos_iff.1 (by omega))
    exact ⟨a, b, hp, ha, hb⟩
  · rintro ⟨a, b, hp, ha, hb⟩
    have h3 := List.count_pos_iff.2 ((mem_sources rg p x).2 ⟨a, ha⟩)
    have h4 := List.count_pos_iff.2 ((mem_sources rg p y).2 ⟨b, hb⟩)
    exact ⟨hp, by omega⟩

theorem nodup_shared (rg : RGraph σ) (x y : ℕ) : (rg.sharedPorts x y).Nodup := List.Nodup.filter _ (nodup_portNodes rg)

theorem pairsOf_mem (l : List ℕ) (h : l.Nodup) (x y : ℕ) (hq : (x, y) ∈ pairsOf l) : x ∈ l ∧ y ∈ l ∧ x ≠ y := by
  induction l with
  | nil => cases hq
  | cons z t ih =>
    rw [List.nodup_cons] at h
    rw [pairsOf, List.mem_append, List.mem_map] at hq
    rcases hq with ⟨w, hw, e⟩ | hq
    · obtain ⟨rfl, rfl⟩ := Prod.mk.inj e
      refine ⟨List.mem_cons_self .., List.mem_cons_of_mem _ hw, ?_⟩
      rintro rfl
      exact h.1 hw
    · obtain ⟨h1, h2, h3⟩ := ih h.2 hq
      exact ⟨List.mem_cons_of_mem _ h1, List.mem_cons_of_mem _ h2, h3⟩

theorem pairsOf_all (l : List ℕ) (x y : ℕ) (hx : x ∈ l) (hy : y ∈ l) (hne : x ≠ y) : (x, y) ∈ pairsOf l ∨ (y, x) ∈ pairsOf l := by
  induction l with
  | nil => cases hx
  | cons z t ih =>
    rw [pairsOf, List.mem_append, List.mem_append, List.mem_map, List.mem_map]
    rcases List.mem_cons.1 hx with rfl | hx'
    · rcases List.mem_cons.1 hy with rfl | hy'
      · exact absurd rfl hne
      · exact .inl (.inl ⟨y, hy', rfl⟩)
    · rcases List.mem_cons.1 hy with rfl | hy'
      · exact .inr (.inl ⟨x, hx', rfl⟩)
      · rcases ih hx' hy' with h | h
        · exact .inl (.inr h)
        · exact .inr (.inr h)

/-- The two nodes are different and share a port. -/
def RGraph.Joined (rg : RGraph σ) (x y : ℕ) : Prop := x ≠ y ∧ ∃ p a b, rg.Meet x y p a b

theorem visited_mem {env : GenEnv σ} (henv : env.Ok) {rg : RGraph σ} (h : rg.Ok) (x y : ℕ) (hq : (x, y) ∈ visited env rg) : rg.Joined x y := by
  obtain ⟨p, hp, hq⟩ := List.mem_flatMap.1 hq
  obtain ⟨h1, h2, h3⟩ := pairsOf_mem _ (h.sources p) x y (List.mem_dedup.1 ((henv.pairs _).mem_iff.1 hq))
  obtain ⟨a, ha⟩ := (mem_sources rg p x).1 h1
  obtain ⟨b, hb⟩ := (mem_sources rg p y).1 h2
  exact ⟨h3, p, a, b, (mem_portNodes rg p).1 hp, ha, hb⟩

theorem visited_all {env : GenEnv σ} (henv : env.Ok) {rg : RGraph σ} (x y : ℕ) (hq : rg.Joined x y) : (x, y) ∈ visited env rg ∨ (y, x) ∈ visited env rg := by
  obtain ⟨hne, p, a, b, hp, ha, hb⟩ := hq
  have hp := (mem_portNodes rg p).2 hp
  rcases pairsOf_all (rg.sources p) x y ((mem_sources rg p x).2 ⟨a, ha⟩) ((mem_sources rg p y).2 ⟨b, hb⟩) hne with h | h
  · exact .inl (List.mem_flatMap.2 ⟨p, hp, (henv.pairs _).mem_iff.2 (List.mem_dedup.2 h)⟩)
  · exact .inr (List.mem_flatMap.2 ⟨p, hp, (henv.pairs _).mem_iff.2 (List.mem_dedup.2 h)⟩)

/-! ## The candidate made for two nodes -/

/-- The order of the two nodes is kept. -/
def GenEnv.keeps (env : GenEnv σ) (n m : RNode σ) : Bool :=
  if !n.isSingleton && !m.isSingleton then decide (env.idx n.label < env.idx m.label)
  else if n.isSingleton && !m.isSingleton then false
  else if !n.isSingleton && m.isSingleton then true
  else env.lt n.label m.label

/-- The pattern given to a node at the end. -/
def GenEnv.patOf (env : GenEnv σ) (n : RNode σ) : Except String (PKind σ) := if n.isSingleton then singletonPattern env n.label else rowPattern env (env.idx n.label)

/-- The pattern stored at once, or none if it is made at the end. -/
def PatFor (env : GenEnv σ) (n : RNode σ) (k : Option (PKind σ)) : Prop := (∃ k', k = some k' ∧ env.patOf n = .ok k') ∨ (n.isSingleton = true ∧ k = none)

theorem makeCand_core (env : GenEnv σ) (rg : RGraph σ) (x y : ℕ) (n m : RNode σ) (hn : rg.node? x = some n) (hm : rg.node? y = some m) (c : GCand σ) (h : makeCand env rg x y = .ok c) :
    c.dataPort = (env.ordPorts (rg.sharedPorts x y)).toFinset ∧
    (if env.keeps n m then c.first = n.label ∧ c.second = m.label ∧ c.port = (env.ordPorts (rg.sharedPorts x y)).map (fun p => (rg.edgeLabel x p, rg.edgeLabel y p)) ∧ PatFor env n c.firstPat ∧ PatFor env m c.secondPat
      else c.first = m.label ∧ c.second = n.label ∧ c.port = (env.ordPorts (rg.sharedPorts x y)).map (fun p => (rg.edgeLabel y p, rg.edgeLabel x p)) ∧ PatFor env m c.firstPat ∧ PatFor env n c.secondPat) ∧
    (c.firstPat = none → c.secondPat = none) := by
  unfold makeCand at h
  rw [hn, hm] at h
  unfold GenEnv.keeps
  simp only at h
  cases hs : n.isSingleton <;> cases ht : m.isSingleton <;> simp only [hs, ht, Bool.not_false, Bool.not_true, Bool.and_self, Bool.and_true, Bool.and_false, if_true, Bool.false_eq_true, if_false] at h ⊢
  · obtain ⟨k1, h1, h2⟩ := bind_ok h
    obtain ⟨k2, h3, rfl⟩ := map_ok h2
    by_cases hlt : env.idx n.label < env.idx m.label
    · simp only [hlt, decide_true, Bool.not_true, if_false, Bool.false_eq_true, if_true] at h1 h3 ⊢
      exact ⟨trivial, ⟨trivial, trivial, by simp [portTuples], .inl ⟨k1, rfl, by simp [GenEnv.patOf, hs, h1]⟩, .inl ⟨k2, rfl, by simp [GenEnv.patOf, ht, h3]⟩⟩, by simp⟩
    · simp only [hlt, decide_false, Bool.not_false, if_true, Bool.false_eq_true, if_false] at h1 h3 ⊢
      exact ⟨trivial, ⟨trivial, trivial, by simp [portTuples], .inl ⟨k1, rfl, by simp [GenEnv.patOf, ht, h1]⟩, .inl ⟨k2, rfl, by simp [GenEnv.patOf, hs, h3]⟩⟩, by simp⟩
  · obtain ⟨k1, h1, h2⟩ := bind_ok h
    obtain ⟨k2, h3, rfl⟩ := map_ok h2
    exact ⟨rfl, ⟨rfl, rfl, by simp [portTuples], .inl ⟨k1, rfl, by simp [GenEnv.patOf, hs, h1]⟩, .inl ⟨k2, rfl, by simp [GenEnv.patOf, ht, h3]⟩⟩, by simp⟩
  · obtain ⟨k1, h1, rfl⟩ := map_ok h
    exact ⟨rfl, ⟨rfl, rfl, by simp [portTuples], .inl ⟨k1, rfl, by simp [GenEnv.patOf, ht, h1]⟩, .inr ⟨hs, rfl⟩⟩, by simp⟩
  · by_cases hlt : env.lt n.label m.label = true
    · rw [if_pos hlt] at h
      rw [← Except.ok.inj h, if_pos hlt]
      exact ⟨rfl, ⟨rfl, rfl, by simp [portTuples], .inr ⟨hs, rfl⟩, .inr ⟨ht, rfl⟩⟩, by simp⟩
    · rw [if_neg hlt] at h
      rw [← Except.ok.inj h, if_neg hlt]
      exact ⟨rfl, ⟨rfl, rfl, by simp [portTuples], .inr ⟨ht, rfl⟩, .inr ⟨hs, rfl⟩⟩, by simp⟩

/-- The candidate `c` was made for the nodes `u` and `v`, in this order. -/
structure CandMade (env : GenEnv σ) (rg : RGraph σ) (c : GCand σ) (u v : ℕ) (n m : RNode σ) : Prop where
  node1 : 1 ≤ u ∧ rg.nodes[u - 1]? = some n ∧ n.isPattern = true
  node2 : 1 ≤ v ∧ rg.nodes[v - 1]? = some m ∧ m.isPattern = true
  first : c.first = n.label
  second : c.second = m.label
  order : env.keeps n m = true ∨ env.keeps m n = false
  occurs : rg.Occurs c u v
  nodup : c.port.Nodup
  data : ∀ p, p ∈ c.dataPort ↔ ∃ a b, rg.Meet u v p a b
  pat1 : PatFor env n c.firstPat
  pat2 : PatFor env m c.secondPat
  late : c.firstPat = none → c.secondPat = none
  meet : ∃ p a b, rg.Meet u v p a b

theorem Meet.swap {rg : RGraph σ} {x y p a b : ℕ} (h : rg.Meet x y p a b) : rg.Meet y x p b a := ⟨h.1, h.2.2, h.2.1⟩

theorem tuples_mem {env : GenEnv σ} (henv : env.Ok) {rg : RGraph σ} (h : rg.Ok) (x y : ℕ) (hne : x ≠ y) (a b : ℕ) :
    (a, b) ∈ (env.ordPorts (rg.sharedPorts x y)).map (fun p => (rg.edgeLabel x p, rg.edgeLabel y p)) ↔ ∃ p, rg.Meet x y p a b := by
  rw [List.mem_map]
  constructor
  · rintro ⟨p, hp, e⟩
    obtain ⟨rfl, rfl⟩ := Prod.mk.inj e
    obtain ⟨a, b, hm⟩ := (h.shared x y p hne).1 (List.mem_dedup.1 ((henv.ports _).mem_iff.1 hp))
    rw [h.label _ _ _ hm.2.1, h.label _ _ _ hm.2.2]
    exact ⟨p, hm⟩
  · rintro ⟨p, hm⟩
    refine ⟨p, (henv.ports _).mem_iff.2 (List.mem_dedup.2 ((h.shared x y p hne).2 ⟨a, b, hm⟩)), ?_⟩
    rw [h.label _ _ _ hm.2.1, h.label _ _ _ hm.2.2]

theorem tuples_nodup {env : GenEnv σ} (henv : env.Ok) {rg : RGraph σ} (h : rg.Ok) (x y : ℕ) (hne : x ≠ y) :
    ((env.ordPorts (rg.sharedPorts x y)).map (fun p => (rg.edgeLabel x p, rg.edgeLabel y p))).Nodup := by
  refine List.Nodup.map_on ?_ ((henv.ports _).nodup_iff.2 (List.nodup_dedup _))
  intro p hp q hq e
  obtain ⟨a, b, hm⟩ := (h.shared x y p hne).1 (List.mem_dedup.1 ((henv.ports _).mem_iff.1 hp))
  obtain ⟨a', b', hm'⟩ := (h.shared x y q hne).1 (List.mem_dedup.1 ((henv.ports _).mem_iff.1 hq))
  rw [h.label _ _ _ hm.2.1, h.label _ _ _ hm'.2.1] at e
  have e1 := (Prod.mk.inj e).1
  rw [← e1] at hm'
  exact h.inj _ _ _ _ hm.2.1 hm'.2.1

theorem data_mem {env : GenEnv σ} (henv : env.Ok) {rg : RGraph σ} (h : rg.Ok) (x y : ℕ) (hne : x ≠ y) (p : ℕ) :
    p ∈ (env.ordPorts (rg.sharedPorts x y)).toFinset ↔ ∃ a b, rg.Meet x y p a b := by
  rw [List.mem_toFinset, (henv.ports _).mem_iff, List.mem_dedup, h.shared x y p hne]

theorem sharedPorts_symm (rg : RGraph σ) (x y : ℕ) : rg.sharedPorts x y = rg.sharedPorts y x := by
  unfold RGraph.sharedPorts
  congr 1
  funext p
  congr 2
  congr 1
  funext z
  simp [or_comm]

theorem makeCand_made {env : GenEnv σ} (henv : env.Ok) {rg : RGraph σ} (h : rg.Ok) (x y : ℕ) (hj : rg.Joined x y) (c : GCand σ) (hc : makeCand env rg x y = .ok c) :
    ∃ n m, CandMade env rg c x y n m ∨ CandMade env rg c y x n m := by
  obtain ⟨hne, p, a, b, hp, ha, hb⟩ := hj
  obtain ⟨n, hn1, hn2, hn3⟩ := h.src _ _ _ ha
  obtain ⟨m, hm1, hm2, hm3⟩ := h.src _ _ _ hb
  obtain ⟨h1, h2, h3⟩ := makeCand_core env rg x y n m ((node?_iff rg x n).2 ⟨hn1, hn2⟩) ((node?_iff rg y m).2 ⟨hm1, hm2⟩) c hc
  cases hk : env.keeps n m with
  | true =>
    rw [hk, if_pos rfl] at h2
    obtain ⟨e1, e2, e3, p1, p2⟩ := h2
    exact ⟨n, m, .inl ⟨⟨hn1, hn2, hn3⟩, ⟨hm1, hm2, hm3⟩, e1, e2, .inl hk, ⟨hne, ⟨n, hn1, hn2, hn3, e1.symm⟩, ⟨m, hm1, hm2, hm3, e2.symm⟩, by rw [e3]; exact tuples_mem henv h x y hne⟩,
      by rw [e3]; exact tuples_nodup henv h x y hne, by rw [h1]; exact data_mem henv h x y hne, p1, p2, h3, p, a, b, hp, ha, hb⟩⟩
  | false =>
    rw [hk, if_neg (by simp)] at h2
    obtain ⟨e1, e2, e3, p1, p2⟩ := h2
    rw [sharedPorts_symm] at e3 h1
    exact ⟨m, n, .inr ⟨⟨hm1, hm2, hm3⟩, ⟨hn1, hn2, hn3⟩, e1, e2, .inr hk, ⟨hne.symm, ⟨m, hm1, hm2, hm3, e1.symm⟩, ⟨n, hn1, hn2, hn3, e2.symm⟩, by rw [e3]; exact tuples_mem henv h y x hne.symm⟩,
      by rw [e3]; exact tuples_nodup henv h y x hne.symm, by rw [h1]; exact data_mem henv h y x hne.symm, p1, p2, h3, p, b, a, hp, hb, ha⟩⟩

/-! ## Equal candidates -/

theorem same_iff (c d : GCand σ) (hc : c.port.Nodup) (hd : d.port.Nodup) : c.same d = true ↔ c.Alike d := by
  unfold GCand.same portsEqual GCand.Alike
  simp only [Bool.and_eq_true, decide_eq_true_eq]
  constructor
  · rintro ⟨⟨h1, h2⟩, h3⟩
    split at h3
    · cases h3
    · rename_i hl
      have hs : c.port ⊆ d.port := fun q hq => by simpa using List.all_eq_true.1 h3 q hq
      have hp : c.port.Perm d.port := (List.subperm_of_subset hc hs).perm_of_length_le (by push Not at hl; omega)
      exact ⟨h1.symm, h2.symm, fun q => hp.mem_iff⟩
  · rintro ⟨h1, h2, h3⟩
    have hp : c.port.Perm d.port := (List.perm_ext_iff_of_nodup hc hd).2 h3
    refine ⟨⟨h1.symm, h2.symm⟩, ?_⟩
    rw [if_neg (by rw [hp.length_eq]; simp)]
    exact List.all_eq_true.2 (fun q hq => by simpa using (h3 q).1 hq)

theorem GCand.Alike.rfl' (c : GCand σ) : c.Alike c := ⟨rfl, rfl, fun _ => Iff.rfl⟩
theorem GCand.Alike.symm {c d : GCand σ} (h : c.Alike d) : d.Alike c := ⟨h.1.symm, h.2.1.symm, fun q => (h.2.2 q).symm⟩
theorem GCand.Alike.trans {c d e : GCand σ} (h : c.Alike d) (h' : d.Alike e) : c.Alike e := ⟨h.1.trans h'.1, h.2.1.trans h'.2.1, fun q => (h.2.2 q).trans (h'.2.2 q)⟩

/-- The list after adding a candidate. -/
theorem addCand_spec (cs : List (GCand σ)) (d : GCand σ) (hcs : ∀ c ∈ cs, c.port.Nodup) (hd : d.port.Nodup) :
    (∀ c ∈ addCand cs d, c = d ∨ ∃ c' ∈ cs, c.first = c'.first ∧ c.second = c'.second ∧ c.port = c'.port ∧ c.firstPat = c'.firstPat ∧ c.secondPat = c'.secondPat ∧
      ∀ p ∈ c.dataPort, p ∈ c'.dataPort ∨ (d.Alike c ∧ p ∈ d.dataPort)) ∧
    (∀ c ∈ cs, ∃ c' ∈ addCand cs d, c.Alike c' ∧ c.dataPort ⊆ c'.dataPort) ∧
    (∃ c ∈ addCand cs d, d.Alike c ∧ d.dataPort ⊆ c.dataPort) := by
  induction cs with
  | nil => simp [addCand, GCand.Alike.rfl']
  | cons c t ih =>
    have hc := hcs c (List.mem_cons_self ..)
    obtain ⟨i1, i2, i3⟩ := ih (fun e he => hcs e (List.mem_cons_of_mem _ he))
    rw [addCand]
    split
    · rename_i hsame
      have ha := (same_iff c d hc hd).1 hsame
      refine ⟨?_, ?_, ?_⟩
      · intro e he
        rcases List.mem_cons.1 he with rfl | he
        · refine .inr ⟨c, List.mem_cons_self .., rfl, rfl, rfl, rfl, rfl, ?_⟩
          intro p hp
          rcases Finset.mem_union.1 hp with hp | hp
          · exact .inl hp
          · exact .inr ⟨ha.symm, hp⟩
        · exact .inr ⟨e, List.mem_cons_of_mem _ he, rfl, rfl, rfl, rfl, rfl, fun p hp => .inl hp⟩
      · intro e he
        rcases List.mem_cons.1 he with rfl | he
        · exact ⟨_, List.mem_cons_self .., GCand.Alike.rfl' _, Finset.subset_union_left⟩
        · exact ⟨e, List.mem_cons_of_mem _ he, GCand.Alike.rfl' _, Finset.Subset.refl _⟩
      · exact ⟨_, List.mem_cons_self .., ha.symm, Finset.subset_union_right⟩
    · refine ⟨?_, ?_, ?_⟩
      · intro e he
        rcases List.mem_cons.1 he with rfl | he
        · exact .inr ⟨e, List.mem_cons_self .., rfl, rfl, rfl, rfl, rfl, fun p hp => .inl hp⟩
        · rcases i1 e he with h | ⟨e', he', h⟩
          · exact .inl h
          · exact .inr ⟨e', List.mem_cons_of_mem _ he', h⟩
      · intro e he
        rcases List.mem_cons.1 he with rfl | he
        · exact ⟨e, List.mem_cons_self .., GCand.Alike.rfl' _, Finset.Subset.refl _⟩
        · obtain ⟨e', he', h⟩ := i2 e he
          exact ⟨e', List.mem_cons_of_mem _ he', h⟩
      · obtain ⟨e', he', h⟩ := i3
        exact ⟨e', List.mem_cons_of_mem _ he', h⟩

theorem addCand_pairwise (cs : List (GCand σ)) (d : GCand σ) (hcs : ∀ c ∈ cs, c.port.Nodup) (hd : d.port.Nodup) (hp : cs.Pairwise (fun c e => ¬ c.Alike e)) :
    (addCand cs d).Pairwise (fun c e => ¬ c.Alike e) := by
  induction cs with
  | nil => simp [addCand]
  | cons c t ih =>
    have hc := hcs c (List.mem_cons_self ..)
    have hcs' := fun e he => hcs e (List.mem_cons_of_mem _ he)
    rw [List.pairwise_cons] at hp
    rw [addCand]
    split
    · rw [List.pairwise_cons]
      exact ⟨fun e he h => hp.1 e he h, hp.2⟩
    · rename_i hsame
      rw [List.pairwise_cons]
      refine ⟨?_, ih hcs' hp.2⟩
      intro e he h
      rcases (addCand_spec t d hcs' hd).1 e he with rfl | ⟨e', he', h1, h2, h3, _⟩
      · exact hsame ((same_iff c e hc hd).2 h)
      · exact hp.1 e' he' ⟨h.1.trans h1, h.2.1.trans h2, fun q => by rw [← h3]; exact h.2.2 q⟩

/-- The candidates after some pairs of nodes were visited. -/
structure Coll (env : GenEnv σ) (rg : RGraph σ) (P : List (ℕ × ℕ)) (cs : List (GCand σ)) : Prop where
  sound : ∀ c ∈ cs, ∃ d u v n m, CandMade env rg d u v n m ∧ d.Alike c ∧ d.firstPat = c.firstPat ∧ d.secondPat = c.secondPat
  nodup : ∀ c ∈ cs, c.port.Nodup
  data : ∀ c ∈ cs, ∀ p ∈ c.dataPort, ∃ d u v n m, CandMade env rg d u v n m ∧ d.Alike c ∧ p ∈ d.dataPort
  complete : ∀ q ∈ P, ∃ d n m, (CandMade env rg d q.1 q.2 n m ∨ CandMade env rg d q.2 q.1 n m) ∧ ∃ c ∈ cs, d.Alike c ∧ d.dataPort ⊆ c.dataPort
  distinct : cs.Pairwise (fun c e => ¬ c.Alike e)

theorem Coll.add {env : GenEnv σ} {rg : RGraph σ} {P : List (ℕ × ℕ)} {cs : List (GCand σ)} (h : Coll env rg P cs) (q : ℕ × ℕ) (d : GCand σ) (n m : RNode σ)
    (hm : CandMade env rg d q.1 q.2 n m ∨ CandMade env rg d q.2 q.1 n m) : Coll env rg (P ++ [q]) (addCand cs d) := by
  have hd : d.port.Nodup := by rcases hm with hm | hm <;> exact hm.nodup
  obtain ⟨u, v, hm'⟩ : ∃ u v, CandMade env rg d u v n m := by rcases hm with hm | hm <;> exact ⟨_, _, hm⟩
  obtain ⟨a1, a2, a3⟩ := addCand_spec cs d h.nodup hd
  refine ⟨?_, ?_, ?_, ?_, addCand_pairwise cs d h.nodup hd h.distinct⟩
  · intro c hc
    rcases a1 c hc with rfl | ⟨c', hc', e1, e2, e3, e4, e5, _⟩
    · exact ⟨c, u, v, n, m, hm', GCand.Alike.rfl' _, rfl, rfl⟩
    · obtain ⟨d', u', v', n', m', h1, h2, h3, h4⟩ := h.sound c' hc'
      exact ⟨d', u', v', n', m', h1, ⟨h2.1.trans e1.symm, h2.2.1.trans e2.symm, by rw [e3]; exact h2.2.2⟩, h3.trans e4.symm, h4.trans e5.symm⟩
  · intro c hc
    rcases a1 c hc with rfl | ⟨c', hc', _, _, e3, _⟩
    · exact hd
    · rw [e3]; exact h.nodup c' hc'
  · intro c hc p hp
    rcases a1 c hc with rfl | ⟨c', hc', e1, e2, e3, _, _, e6⟩
    · exact ⟨c, u, v, n, m, hm', GCand.Alike.rfl' _, hp⟩
    · rcases e6 p hp with hp | ⟨ha, hp⟩
      · obtain ⟨d', u', v', n', m', h1, h2, h3⟩ := h.data c' hc' p hp
        exact ⟨d', u', v', n', m', h1, ⟨h2.1.trans e1.symm, h2.2.1.trans e2.symm, by rw [e3]; exact h2.2.2⟩, h3⟩
      · exact ⟨d, u, v, n, m, hm', ha, hp⟩
  · intro r hr
    rcases List.mem_append.1 hr with hr | hr
    · obtain ⟨d', n', m', h1, c, hc, h2, h3⟩ := h.complete r hr
      obtain ⟨c', hc', h4, h5⟩ := a2 c hc
      exact ⟨d', n', m', h1, c', hc', h2.trans h4, h3.trans h5⟩
    · rw [List.mem_singleton] at hr
      subst hr
      exact ⟨d, n, m, hm, a3⟩

theorem collect_coll {env : GenEnv σ} (henv : env.Ok) {rg : RGraph σ} (h : rg.Ok) (Q : List (ℕ × ℕ)) (hQ : ∀ q ∈ Q, rg.Joined q.1 q.2) (P : List (ℕ × ℕ)) (cs cs' : List (GCand σ))
    (hP : Coll env rg P cs) (hr : collect env rg Q cs = .ok cs') : Coll env rg (P ++ Q) cs' := by
  induction Q generalizing P cs with
  | nil => rw [collect] at hr; rw [← Except.ok.inj hr]; simpa using hP
  | cons q t ih =>
    rw [collect] at hr
    obtain ⟨d, hd, hr⟩ := bind_ok hr
    obtain ⟨n, m, hm⟩ := makeCand_made henv h q.1 q.2 (hQ q (List.mem_cons_self ..)) d hd
    have := ih (fun r hr => hQ r (List.mem_cons_of_mem _ hr)) (P ++ [q]) (addCand cs d) (hP.add q d n m hm) hr
    simpa using this

theorem coll_visited {env : GenEnv σ} (henv : env.Ok) {rg : RGraph σ} (h : rg.Ok) (cs : List (GCand σ)) (hr : collect env rg (visited env rg) [] = .ok cs) : Coll env rg (visited env rg) cs := by
  have := collect_coll henv h (visited env rg) (fun q hq => visited_mem henv h q.1 q.2 hq) [] [] cs ⟨by simp, by simp, by simp, by simp, by simp⟩ hr
  simpa using this

/-! ## The second loop -/

/-- What the comparison of candidates and the exclusive ports read. -/
def GCand.core (c : GCand σ) : σ × σ × List (ℕ × ℕ) × Finset ℕ := (c.first, c.second, c.port, c.dataPort)

theorem exclusive_congr (cs ds : List (GCand σ)) (r s : GCand σ) (h : cs.map GCand.core = ds.map GCand.core) (hr : r.core = s.core) : exclusivePorts cs r = exclusivePorts ds s := by
  have h1 : ∀ (c r : GCand σ) (p : ℕ), (!decide (p ∈ c.dataPort) || c.same r) = (fun (a b : σ × σ × List (ℕ × ℕ) × Finset ℕ) => !decide (p ∈ a.2.2.2) || (decide (b.1 = a.1) && decide (b.2.1 = a.2.1) && portsEqual a.2.2.1 b.2.2.1)) c.core r.core := fun _ _ _ => rfl
  have h2 : ∀ (cs : List (GCand σ)) (r : GCand σ) (p : ℕ), cs.all (fun c => !decide (p ∈ c.dataPort) || c.same r) = (cs.map GCand.core).all (fun a => !decide (p ∈ a.2.2.2) || (decide (r.core.1 = a.1) && decide (r.core.2.1 = a.2.1) && portsEqual a.2.2.1 r.core.2.2.1)) := by
    intro cs r p
    rw [List.all_map]
    rfl
  unfold exclusivePorts
  have hd : r.dataPort = s.dataPort := congrArg (fun t => t.2.2.2) hr
  rw [hd]
  congr 1
  ext p
  rw [Finset.mem_filter, Finset.mem_filter, h2, h2, h, hr]

theorem finish_spec (env : GenEnv σ) (rg : RGraph σ) (todo : List (GCand σ)) : ∀ (done res : List (GCand σ)), finish env rg done todo = .ok res →
    ∃ new, res = done ++ new ∧ new.map GCand.core = todo.map (fun c => c.flip.core) ∧
      ∀ (k : ℕ) (r : GCand σ), todo[k]? = some r → ∃ r', new[k]? = some r' ∧ candUsage env rg r = .ok r'.usage ∧ finalPats env r.flip = .ok (r'.firstPat, r'.secondPat) ∧
        r'.exclusive = exclusivePorts (done ++ (todo.take k).map GCand.flip ++ r.flip :: todo.drop (k + 1)) r.flip := by
  induction todo with
  | nil =>
    intro done res h
    rw [finish] at h
    exact ⟨[], by simpa using (Except.ok.inj h).symm, rfl, by simp⟩
  | cons c t ih =>
    intro done res h
    rw [finish] at h
    obtain ⟨u, hu, h⟩ := bind_ok h
    obtain ⟨k, hk, h⟩ := bind_ok h
    obtain ⟨c', hc'⟩ : ∃ c' : GCand σ, c' = { c.flip with usage := u, exclusive := exclusivePorts (done ++ c.flip :: t) c.flip, firstPat := k.1, secondPat := k.2 } := ⟨_, rfl⟩
    rw [← hc'] at h
    have hcore : c'.core = c.flip.core := by rw [hc']; rfl
    obtain ⟨new, h1, h2, h3⟩ := ih (done ++ [c']) res h
    refine ⟨c' :: new, by rw [h1]; simp, by rw [List.map_cons, List.map_cons, h2, hcore], ?_⟩
    intro j r hr
    cases j with
    | zero =>
      rw [List.getElem?_cons_zero] at hr ⊢
      cases hr
      refine ⟨c', rfl, by rw [hc']; exact hu, by rw [hc']; exact hk, ?_⟩
      rw [hc']
      simp
    | succ j =>
      rw [List.getElem?_cons_succ] at hr ⊢
      obtain ⟨r', e1, e2, e3, e4⟩ := h3 j r hr
      refine ⟨r', e1, e2, e3, ?_⟩
      rw [e4]
      refine exclusive_congr _ _ _ _ ?_ rfl
      simp only [List.map_append, List.map_cons, List.map_nil, hcore, List.append_assoc, List.take_succ_cons, List.drop_succ_cons, List.cons_append, List.nil_append]

theorem generate_ok_split (env : GenEnv σ) (rg : RGraph σ) (res : List (GCand σ)) (h : generate env rg = .ok res) :
    ∃ cs, collect env rg (visited env rg) [] = .ok cs ∧ res.map GCand.core = cs.map (fun c => c.flip.core) ∧
      ∀ (k : ℕ) (r : GCand σ), cs[k]? = some r → ∃ r', res[k]? = some r' ∧ r'.core = r.flip.core ∧ candUsage env rg r = .ok r'.usage ∧ finalPats env r.flip = .ok (r'.firstPat, r'.secondPat) ∧
        r'.exclusive = exclusivePorts ((cs.take k).map GCand.flip ++ r.flip :: cs.drop (k + 1)) r.flip := by
  obtain ⟨cs, h1, h2⟩ := bind_ok h
  obtain ⟨new, h3, h4, h5⟩ := finish_spec env rg cs [] res h2
  rw [List.nil_append] at h3
  subst h3
  refine ⟨cs, h1, h4, ?_⟩
  intro k r hr
  obtain ⟨r', e1, e2, e3, e4⟩ := h5 k r hr
  refine ⟨r', e1, ?_, e2, e3, by simpa using e4⟩
  have := congrArg (fun l => l[k]?) h4
  simp only [List.getElem?_map, e1, hr, Option.map_some] at this
  exact Option.some.inj this

end Verif.Graph
