import Verif.Graph.GenLemmas
import Verif.Graph.RewriteTrace
import Verif.Graph.DescProps

/-!
# The merge candidates of a rewritten graph: the list returned, and the rewritten graph of a cover
-/

set_option autoImplicit false
set_option linter.unusedSectionVars false

namespace Verif.Graph

variable {σ : Type} [DecidableEq σ]

/-! ## The list returned -/

theorem RGraph.Occurs.alike {rg : RGraph σ} {c d : GCand σ} {x y : ℕ} (h : rg.Occurs d x y) (ha : d.Alike c) : rg.Occurs c x y :=
  ⟨h.ne, by rw [← ha.1]; exact h.first, by rw [← ha.2.1]; exact h.second, fun a b => by rw [← ha.2.2]; exact h.ports a b⟩

theorem alike_of_core {c d : GCand σ} (h : c.core = d.core) : c.Alike d := by
  simp only [GCand.core, Prod.mk.injEq] at h
  exact ⟨h.1, h.2.1, fun q => by rw [h.2.2.1]⟩

theorem data_of_core {c d : GCand σ} (h : c.core = d.core) : c.dataPort = d.dataPort := by
  simp only [GCand.core, Prod.mk.injEq] at h
  exact h.2.2.2

theorem flip_first (c : GCand σ) : c.flip.first = c.first := by unfold GCand.flip; split <;> rfl
theorem flip_second (c : GCand σ) : c.flip.second = c.second := by unfold GCand.flip; split <;> rfl
theorem flip_data (c : GCand σ) : c.flip.dataPort = c.dataPort := by unfold GCand.flip; split <;> rfl
theorem flip_pat1 (c : GCand σ) : c.flip.firstPat = c.firstPat := by unfold GCand.flip; split <;> rfl
theorem flip_pat2 (c : GCand σ) : c.flip.secondPat = c.secondPat := by unfold GCand.flip; split <;> rfl

theorem flip_port (c : GCand σ) (a b : ℕ) : (a, b) ∈ c.flip.port ↔ if c.first = c.second then (b, a) ∈ c.port else (a, b) ∈ c.port := by
  unfold GCand.flip
  split
  · simp only [List.mem_map, Prod.mk.injEq, Prod.exists]
    constructor
    · rintro ⟨p, q, h, rfl, rfl⟩; exact h
    · intro h; exact ⟨b, a, h, rfl, rfl⟩
  · rfl

theorem flip_nodup (c : GCand σ) (h : c.port.Nodup) : c.flip.port.Nodup := by
  unfold GCand.flip
  split
  · refine List.Nodup.map ?_ h
    rintro ⟨a, b⟩ ⟨a', b'⟩ e
    simp only [Prod.mk.injEq] at e ⊢
    exact ⟨e.2, e.1⟩
  · exact h

theorem flip_alike (c d : GCand σ) : c.flip.Alike d.flip ↔ c.Alike d := by
  unfold GCand.Alike
  rw [flip_first, flip_first, flip_second, flip_second]
  constructor
  · rintro ⟨h1, h2, h3⟩
    refine ⟨h1, h2, ?_⟩
    rintro ⟨a, b⟩
    have h4 := h3 (a, b)
    have h5 := h3 (b, a)
    rw [flip_port, flip_port] at h4 h5
    rw [← h1, ← h2] at h4 h5
    split at h4
    · rename_i he; rw [if_pos he, if_pos he] at h5; exact h5
    · exact h4
  · rintro ⟨h1, h2, h3⟩
    refine ⟨h1, h2, ?_⟩
    rintro ⟨a, b⟩
    rw [flip_port, flip_port, ← h1, ← h2]
    split
    · exact h3 (b, a)
    · exact h3 (a, b)

theorem RGraph.Occurs.flip {rg : RGraph σ} {c : GCand σ} {x y : ℕ} (h : rg.Occurs c x y) : rg.Occurs c.flip x y ∨ (c.first = c.second ∧ rg.Occurs c.flip y x) := by
  by_cases he : c.first = c.second
  · refine .inr ⟨he, h.ne.symm, by rw [flip_first, he]; exact h.second, by rw [flip_second, ← he]; exact h.first, ?_⟩
    intro a b
    rw [flip_port, if_pos he, h.ports]
    exact ⟨fun ⟨p, hp⟩ => ⟨p, Meet.swap hp⟩, fun ⟨p, hp⟩ => ⟨p, Meet.swap hp⟩⟩
  · left
    unfold GCand.flip
    rw [if_neg he]
    exact h

/-- Everything known about the list returned. -/
structure Result (env : GenEnv σ) (rg : RGraph σ) (cs res : List (GCand σ)) : Prop where
  coll : Coll env rg (visited env rg) cs
  core : res.map GCand.core = cs.map (fun c => c.flip.core)
  each : ∀ (k : ℕ) (r : GCand σ), cs[k]? = some r → ∃ r', res[k]? = some r' ∧ r'.core = r.flip.core ∧ candUsage env rg r = .ok r'.usage ∧ finalPats env r.flip = .ok (r'.firstPat, r'.secondPat) ∧
        r'.exclusive = exclusivePorts ((cs.take k).map GCand.flip ++ r.flip :: cs.drop (k + 1)) r.flip

theorem result_of {env : GenEnv σ} (henv : env.Ok) {rg : RGraph σ} (h : rg.Ok) (res : List (GCand σ)) (hr : generate env rg = .ok res) : ∃ cs, Result env rg cs res := by
  obtain ⟨cs, h1, h2, h3⟩ := generate_ok_split env rg res hr
  exact ⟨cs, coll_visited henv h cs h1, h2, h3⟩

theorem Result.back {env : GenEnv σ} {rg : RGraph σ} {cs res : List (GCand σ)} (h : Result env rg cs res) (k : ℕ) (r' : GCand σ) (hk : res[k]? = some r') :
    ∃ r, cs[k]? = some r ∧ r'.core = r.flip.core ∧ candUsage env rg r = .ok r'.usage ∧ finalPats env r.flip = .ok (r'.firstPat, r'.secondPat) ∧
        r'.exclusive = exclusivePorts ((cs.take k).map GCand.flip ++ r.flip :: cs.drop (k + 1)) r.flip := by
  have hl : res.length = cs.length := by simpa using congrArg List.length h.core
  have hlt : k < cs.length := hl ▸ (List.getElem?_eq_some_iff.1 hk).1
  obtain ⟨r'', e1, e2⟩ := h.each k cs[k] (List.getElem?_eq_getElem hlt)
  rw [hk] at e1
  cases e1
  exact ⟨_, List.getElem?_eq_getElem hlt, e2⟩

theorem Result.backMem {env : GenEnv σ} {rg : RGraph σ} {cs res : List (GCand σ)} (h : Result env rg cs res) (r' : GCand σ) (hr : r' ∈ res) :
    ∃ r ∈ cs, r'.core = r.flip.core ∧ candUsage env rg r = .ok r'.usage ∧ finalPats env r.flip = .ok (r'.firstPat, r'.secondPat) := by
  obtain ⟨k, hk⟩ := List.mem_iff_getElem?.1 hr
  obtain ⟨r, e1, e2, e3, e4, _⟩ := h.back k r' hk
  exact ⟨r, List.mem_of_getElem? e1, e2, e3, e4⟩

theorem Result.forth {env : GenEnv σ} {rg : RGraph σ} {cs res : List (GCand σ)} (h : Result env rg cs res) (r : GCand σ) (hr : r ∈ cs) : ∃ r' ∈ res, r'.core = r.flip.core := by
  obtain ⟨k, hk⟩ := List.mem_iff_getElem?.1 hr
  obtain ⟨r', e1, e2, _⟩ := h.each k r hk
  exact ⟨r', List.mem_of_getElem? e1, e2⟩

/-- The candidates returned are distinct. -/
theorem Result.distinct {env : GenEnv σ} {rg : RGraph σ} {cs res : List (GCand σ)} (h : Result env rg cs res) : res.Pairwise (fun c e => ¬ c.Alike e) := by
  have h1 : ∀ l : List (GCand σ), l.Pairwise (fun c e => ¬ c.Alike e) ↔ (l.map GCand.core).Pairwise (fun a b => ¬ (a.1 = b.1 ∧ a.2.1 = b.2.1 ∧ ∀ q, q ∈ a.2.2.1 ↔ q ∈ b.2.2.1)) := by
    intro l
    rw [List.pairwise_map]
    rfl
  rw [h1, h.core]
  have h2 : cs.map (fun c => c.flip.core) = (cs.map GCand.flip).map GCand.core := by rw [List.map_map]; rfl
  rw [h2, ← h1, List.pairwise_map]
  exact h.coll.distinct.imp (fun hn hh => hn ((flip_alike _ _).1 hh))

/-- A candidate returned was made for two nodes. -/
theorem Result.made {env : GenEnv σ} {rg : RGraph σ} {cs res : List (GCand σ)} (h : Result env rg cs res) (c : GCand σ) (hc : c ∈ res) :
    ∃ u v n m d, CandMade env rg d u v n m ∧ c.first = n.label ∧ c.second = m.label ∧ (rg.Occurs c u v ∨ (c.first = c.second ∧ rg.Occurs c v u)) ∧ c.port.Nodup := by
  obtain ⟨r, hr, e1, _⟩ := h.backMem c hc
  obtain ⟨d, u, v, n, m, h1, h2, _⟩ := h.coll.sound r hr
  have ha := alike_of_core e1
  rw [GCand.Alike, flip_first, flip_second] at ha
  refine ⟨u, v, n, m, d, h1, ?_, ?_, ?_, ?_⟩
  · rw [ha.1, ← h2.1, h1.first]
  · rw [ha.2.1, ← h2.2.1, h1.second]
  · rcases (h1.occurs.alike h2).flip with h3 | ⟨h3, h4⟩
    · exact .inl (h3.alike (alike_of_core e1).symm)
    · exact .inr ⟨by rw [ha.1, ha.2.1, h3], h4.alike (alike_of_core e1).symm⟩
  · have : c.port = r.flip.port := by
      simp only [GCand.core, Prod.mk.injEq] at e1
      exact e1.2.2.1
    rw [this]
    exact flip_nodup r (h.coll.nodup r hr)

theorem Result.data {env : GenEnv σ} {rg : RGraph σ} {cs res : List (GCand σ)} (h : Result env rg cs res) (c : GCand σ) (hc : c ∈ res) (p : ℕ) (hp : p ∈ c.dataPort) :
    ∃ x y a b, rg.Occurs c x y ∧ rg.Meet x y p a b := by
  obtain ⟨r, hr, e1, _⟩ := h.backMem c hc
  rw [data_of_core e1, flip_data] at hp
  obtain ⟨d, u, v, n, m, h1, h2, h3⟩ := h.coll.data r hr p hp
  obtain ⟨a, b, h4⟩ := (h1.data p).1 h3
  rcases (h1.occurs.alike h2).flip with h5 | ⟨_, h5⟩
  · exact ⟨u, v, a, b, h5.alike (alike_of_core e1).symm, h4⟩
  · exact ⟨v, u, b, a, h5.alike (alike_of_core e1).symm, Meet.swap h4⟩

theorem Result.complete {env : GenEnv σ} (henv : env.Ok) {rg : RGraph σ} {cs res : List (GCand σ)} (h : Result env rg cs res) (x y p a b : ℕ) (hne : x ≠ y) (hm : rg.Meet x y p a b) :
    ∃ c ∈ res, p ∈ c.dataPort ∧ (rg.Occurs c x y ∨ rg.Occurs c y x) := by
  have key : ∀ x y a b, (x, y) ∈ visited env rg → rg.Meet x y p a b → ∃ c ∈ res, p ∈ c.dataPort ∧ (rg.Occurs c x y ∨ rg.Occurs c y x) := by
    intro x y a b hv hm
    obtain ⟨d, n, m, h1, c, hc, h2, h3⟩ := h.coll.complete (x, y) hv
    obtain ⟨c', hc', e⟩ := h.forth c hc
    refine ⟨c', hc', ?_, ?_⟩
    · rw [data_of_core e, flip_data]
      rcases h1 with h1 | h1
      · exact h3 ((h1.data p).2 ⟨a, b, hm⟩)
      · exact h3 ((h1.data p).2 ⟨b, a, Meet.swap hm⟩)
    · rcases h1 with h1 | h1
      · rcases (h1.occurs.alike h2).flip with h4 | ⟨_, h4⟩
        · exact .inl (h4.alike (alike_of_core e).symm)
        · exact .inr (h4.alike (alike_of_core e).symm)
      · rcases (h1.occurs.alike h2).flip with h4 | ⟨_, h4⟩
        · exact .inr (h4.alike (alike_of_core e).symm)
        · exact .inl (h4.alike (alike_of_core e).symm)
  rcases visited_all henv x y ⟨hne, p, a, b, hm⟩ with hv | hv
  · exact key x y a b hv hm
  · obtain ⟨c, h1, h2, h3⟩ := key y x b a hv (Meet.swap hm)
    exact ⟨c, h1, h2, h3.symm⟩

/-! ## The order of the two labels -/

/-- A label tells whether a node is a row or a singleton, and the number in the name of a row tells the name. -/
structure RGraph.Clear (env : GenEnv σ) (rg : RGraph σ) : Prop where
  kind : ∀ (i j : ℕ) (n m : RNode σ), rg.nodes[i]? = some n → rg.nodes[j]? = some m → n.isPattern = true → m.isPattern = true → n.label = m.label → n.isSingleton = m.isSingleton
  num : ∀ (i j : ℕ) (n m : RNode σ), rg.nodes[i]? = some n → rg.nodes[j]? = some m → n.isPattern = true → m.isPattern = true → n.isSingleton = false → m.isSingleton = false →
    env.idx n.label = env.idx m.label → n.label = m.label

theorem keeps_asymm {env : GenEnv σ} (henv : env.Ok) (n m : RNode σ) (h : env.keeps n m = true) : env.keeps m n = false := by
  unfold GenEnv.keeps at *
  cases hs : n.isSingleton <;> cases ht : m.isSingleton <;> simp only [hs, ht, Bool.not_false, Bool.not_true, Bool.and_self, Bool.and_true, Bool.and_false, if_true, Bool.false_eq_true, if_false] at h ⊢
  · simp only [decide_eq_true_eq] at h; simp; omega
  · exact henv.asymm _ _ h

theorem keeps_total {env : GenEnv σ} (henv : env.Ok) (n m : RNode σ) (hl : n.label ≠ m.label) (hn : n.isSingleton = false → m.isSingleton = false → env.idx n.label ≠ env.idx m.label)
    (h : env.keeps m n = false) : env.keeps n m = true := by
  unfold GenEnv.keeps at *
  cases hs : n.isSingleton <;> cases ht : m.isSingleton <;> simp only [hs, ht, Bool.not_false, Bool.not_true, Bool.and_self, Bool.and_true, Bool.and_false, if_true, Bool.false_eq_true, if_false] at h ⊢
  · simp only [decide_eq_false_iff_not] at h
    have := hn hs ht
    simp
    omega
  · cases h
  · rcases henv.total _ _ hl with h1 | h1
    · exact h1
    · rw [h] at h1; cases h1

theorem keeps_congr (env : GenEnv σ) (n m n' m' : RNode σ) (h1 : n.label = n'.label) (h2 : m.label = m'.label) (h3 : n.isSingleton = n'.isSingleton) (h4 : m.isSingleton = m'.isSingleton) :
    env.keeps n m = env.keeps n' m' := by
  unfold GenEnv.keeps
  rw [h1, h2, h3, h4]

theorem CandMade.keeps {env : GenEnv σ} (henv : env.Ok) {rg : RGraph σ} (hcl : rg.Clear env) {d : GCand σ} {u v : ℕ} {n m : RNode σ} (h : CandMade env rg d u v n m) (hl : n.label ≠ m.label) : env.keeps n m = true := by
  rcases h.order with h1 | h1
  · exact h1
  · exact keeps_total henv n m hl (fun hs ht he => hl (hcl.num _ _ n m h.node1.2.1 h.node2.2.1 h.node1.2.2 h.node2.2.2 hs ht he)) h1

/-- The list does not contain a candidate with different labels the other way round. -/
theorem Result.oriented {env : GenEnv σ} (henv : env.Ok) {rg : RGraph σ} (hcl : rg.Clear env) {cs res : List (GCand σ)} (h : Result env rg cs res) (c d : GCand σ) (hc : c ∈ res) (hd : d ∈ res) (hne : c.first ≠ c.second)
    (h1 : d.first = c.second) (h2 : d.second = c.first) : False := by
  obtain ⟨u, v, n, m, _, m1, e1, e2, _⟩ := h.made c hc
  obtain ⟨u', v', n', m', _, m2, e3, e4, _⟩ := h.made d hd
  have k1 := m1.keeps henv hcl (by rw [← e1, ← e2]; exact hne)
  have k2 := m2.keeps henv hcl (by rw [← e3, ← e4, h1, h2]; exact hne.symm)
  have l1 : n'.label = m.label := by rw [← e3, h1, e2]
  have l2 : m'.label = n.label := by rw [← e4, h2, e1]
  rw [keeps_congr env n' m' m n l1 l2 (hcl.kind _ _ _ _ m2.node1.2.1 m1.node2.2.1 m2.node1.2.2 m1.node2.2.2 l1) (hcl.kind _ _ _ _ m2.node2.2.1 m1.node1.2.1 m2.node2.2.2 m1.node1.2.2 l2),
    keeps_asymm henv n m k1] at k2
  cases k2

theorem carries_unique {rg : RGraph σ} {x : ℕ} {l l' : σ} (h : rg.Carries x l) (h' : rg.Carries x l') : l = l' := by
  obtain ⟨n, _, h1, _, rfl⟩ := h
  obtain ⟨n', _, h2, _, rfl⟩ := h'
  rw [h1] at h2
  cases h2
  rfl

/-- A candidate read the other way round is itself. -/
def GCand.Balanced (c : GCand σ) : Prop := c.first ≠ c.second ∨ c.Opposite c

theorem Result.unique {env : GenEnv σ} {rg : RGraph σ} {cs res : List (GCand σ)} (h : Result env rg cs res) (c d : GCand σ) (hc : c ∈ res) (hd : d ∈ res) (ha : c.Alike d) : c = d := by
  by_contra hne
  have : Std.Symm (fun x y : GCand σ => ¬ x.Alike y) := ⟨fun _ _ h1 h2 => h1 h2.symm⟩
  exact h.distinct.forall hc hd hne ha

/-- The data ports of a balanced candidate are all ports where its occurrences meet. -/
theorem Result.data_all {env : GenEnv σ} (henv : env.Ok) {rg : RGraph σ} (hcl : rg.Clear env) {cs res : List (GCand σ)} (h : Result env rg cs res) (c : GCand σ) (hc : c ∈ res) (hb : c.Balanced)
    (x y p a b : ℕ) (ho : rg.Occurs c x y) (hm : rg.Meet x y p a b) : p ∈ c.dataPort := by
  obtain ⟨d, hd, h1, h2⟩ := h.complete henv x y p a b ho.ne hm
  rcases h2 with h2 | h2
  · have ha : c.Alike d := ⟨carries_unique ho.first h2.first, carries_unique ho.second h2.second, fun q => by rw [show q = (q.1, q.2) from rfl, ho.ports, h2.ports]⟩
    rw [h.unique c d hc hd ha]
    exact h1
  · have e1 := carries_unique h2.first ho.second
    have e2 := carries_unique h2.second ho.first
    rcases hb with hb | hb
    · exact (h.oriented henv hcl c d hc hd hb e1 e2).elim
    · have ha : c.Alike d := by
        refine ⟨by rw [e1, ← hb.1], by rw [e2, ← hb.2.1], ?_⟩
        rintro ⟨q, r⟩
        rw [hb.2.2, ho.ports, h2.ports]
        exact ⟨fun ⟨p, hp⟩ => ⟨p, Meet.swap hp⟩, fun ⟨p, hp⟩ => ⟨p, Meet.swap hp⟩⟩
      rw [h.unique c d hc hd ha]
      exact h1

/-! ## The rewritten graph of a cover -/

theorem addEdge_pairs (rg : RGraph σ) (x y a : ℕ) (h : (rg.edges.map (fun e => (e.1, e.2.1))).Nodup) : ((rg.addEdge x y a).edges.map (fun e => (e.1, e.2.1))).Nodup := by
  unfold RGraph.addEdge
  simp only
  split
  · rw [List.map_map]
    have : ((fun e : ℕ × ℕ × ℕ => (e.1, e.2.1)) ∘ fun e => if e.1 = x ∧ e.2.1 = y then (x, y, a) else e) = fun e => (e.1, e.2.1) := by
      funext e
      simp only [Function.comp]
      split
      · rename_i he; rw [he.1, he.2]
      · rfl
    rw [this]
    exact h
  · rename_i hn
    rw [List.map_append, List.nodup_append]
    refine ⟨h, by simp, ?_⟩
    rintro q hq r hr rfl
    simp only [List.map_cons, List.map_nil, List.mem_singleton] at hr
    obtain ⟨e, he, h2⟩ := List.mem_map.1 hq
    rw [hr] at h2
    obtain ⟨h3, h4⟩ := Prod.mk.inj h2
    exact hn (List.any_eq_true.2 ⟨e, he, by simp [h3, h4]⟩)

theorem rewrite_pairs (nm : Names σ) (ps : List (Piece σ)) : ((rewriteGraph nm ps).edges.map (fun e => (e.1, e.2.1))).Nodup := by
  have h1 : ∀ (x : ℕ) (qs : List (ℕ × ℕ)) (rg : RGraph σ), (rg.edges.map (fun e => (e.1, e.2.1))).Nodup → ((qs.foldl (rewriteEdge nm x) rg).edges.map (fun e => (e.1, e.2.1))).Nodup := by
    intro x qs
    induction qs with
    | nil => intro rg h; exact h
    | cons q t ih =>
      intro rg h
      refine ih _ ?_
      unfold rewriteEdge
      simp only
      split
      · exact addEdge_pairs _ _ _ _ h
      · exact addEdge_pairs _ _ _ _ h
  unfold rewriteGraph
  have h2 : ∀ (ps : List (Piece σ)) (rg : RGraph σ), (rg.edges.map (fun e => (e.1, e.2.1))).Nodup →
      ((ps.foldl (fun rg pc => addPiece nm rg (pc.node nm) pc.ports) rg).edges.map (fun e => (e.1, e.2.1))).Nodup := by
    intro ps
    induction ps with
    | nil => intro rg h; exact h
    | cons pc t ih =>
      intro rg h
      exact ih _ (h1 _ _ _ h)
  exact h2 ps _ (by simp)

theorem setPort_subset (qs : List (ℕ × ℕ)) : ∀ ps : List (ℕ × ℕ), ∀ z ∈ qs.foldl setPort ps, z ∈ ps ∨ z ∈ qs := by
  induction qs with
  | nil => intro ps z hz; exact .inl hz
  | cons q t ih =>
    intro ps z hz
    rcases ih _ z hz with h | h
    · unfold setPort at h
      rcases List.mem_append.1 h with h | h
      · exact .inl (List.mem_filter.1 h).1
      · rw [List.mem_singleton] at h; exact .inr (h ▸ List.mem_cons_self ..)
    · exact .inr (List.mem_cons_of_mem _ h)

theorem kept_subset (pc : Piece σ) (z : ℕ × ℕ) (h : z ∈ pc.kept) : z ∈ pc.ports := by
  rcases setPort_subset pc.ports [] z h with h | h
  · cases h
  · exact h

theorem node_pattern (nm : Names σ) (pc : Piece σ) : (pc.node nm).isPattern = true := by cases pc <;> rfl

/-- The pattern nodes are the nodes of the pieces. -/
theorem rewrite_nodes {nm : Names σ} (hnm : nm.Ok) (ps : List (Piece σ)) (i : ℕ) (n : RNode σ) (h : (rewriteGraph nm ps).nodes[i]? = some n) (hp : n.isPattern = true) : ∃ pc ∈ ps, n = pc.node nm := by
  obtain ⟨L, hL, hrep⟩ := rewrite_rep hnm ps
  rcases hrep.all i n h with ⟨t, ht, he⟩ | hf
  · obtain ⟨s, hs, rfl⟩ := List.mem_map.1 ht
    have h1 := (hrep.node _ ht).2
    simp only at he h1
    rw [he, Nat.add_sub_cancel, h] at h1
    exact ⟨s.2, hL ▸ List.mem_map_of_mem hs, Option.some.inj h1⟩
  · rw [hp] at hf; cases hf

/-- The pattern vertices of the ports of a piece are different. -/
def CandPorts (ps : List (Piece σ)) : Prop := ∀ pc ∈ ps, (pc.ports.map Prod.snd).Nodup

theorem rewrite_graph_ok {nm : Names σ} (hnm : nm.Ok) (ps : List (Piece σ)) (hps : CandPorts ps) : (rewriteGraph nm ps).Ok := by
  obtain ⟨L, hL, hrep⟩ := rewrite_rep hnm ps
  refine ⟨?_, rewrite_pairs nm ps, ?_⟩
  · intro x p a h
    obtain ⟨t, ht, rfl, _⟩ := (hrep.edges x p a).1 h
    obtain ⟨s, hs, rfl⟩ := List.mem_map.1 ht
    obtain ⟨h1, h2⟩ := hrep.node _ ht
    exact ⟨_, h1, h2, node_pattern nm s.2⟩
  · intro x p q a h h'
    obtain ⟨t, ht, rfl, v, hv, h1, h2⟩ := (hrep.edges x p a).1 h
    obtain ⟨t', ht', e, v', hv', h1', h2'⟩ := (hrep.edges _ q a).1 h'
    have : t' = t := List.inj_on_of_nodup_map hrep.nodup ht' ht e
    subst this
    obtain ⟨s, hs, rfl⟩ := List.mem_map.1 ht
    have hn := hps s.2 (hL ▸ List.mem_map_of_mem hs)
    have := List.inj_on_of_nodup_map hn (kept_subset _ _ hv) (kept_subset _ _ hv') rfl
    have e1 : v = v' := congrArg Prod.fst this
    subst e1
    rw [h2] at h2'
    have := Option.some.inj h2'
    omega

theorem cover_ports (g : DGraph σ) (rows : List (Row σ)) (hrows : ∀ r ∈ rows, RowOk g r) (m : Marks σ) (r : Marks σ × List (Row σ) × List (Piece σ)) (h : cover g rows m = .ok r) : CandPorts r.2.2 := by
  intro pc hpc
  rcases cover_pieces g rows m r h pc hpc with ⟨i, row, h1, e, he, ports, rfl, hs⟩ | ⟨u, v, l, rfl⟩ | ⟨v, l, rfl⟩
  · exact List.Nodup.sublist (hs.map _) ((hrows row (List.mem_of_getElem? h1)).embs e he).values
  · simp [Piece.ports]
  · simp [Piece.ports]

end Verif.Graph
