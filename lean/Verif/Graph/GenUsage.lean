import Verif.Graph.GenProps
import Mathlib.Data.List.Sigma
import Mathlib.Data.List.ProdSigma
import Mathlib.Algebra.Order.Field.Basic
import Mathlib.Tactic.Linarith
import Mathlib.Tactic.FieldSimp

/-!
# Estimated usage and exclusive ports of the merge candidates: properties
-/

set_option autoImplicit false
set_option linter.unusedSectionVars false

namespace Verif.Graph

variable {σ : Type} [DecidableEq σ]

/-! ## Counting edges -/

/-- The edge leaves a node with a label and a number in the list. -/
def RGraph.fits (rg : RGraph σ) (fmt : List (σ × ℕ)) (e : ℕ × ℕ × ℕ) : Bool := match rg.node? e.1 with
  | some n => decide ((n.label, e.2.2) ∈ fmt)
  | none => false

theorem infos_count (rg : RGraph σ) (fmt : List (σ × ℕ)) (p : ℕ) : (rg.infos p).countP (fun i => decide (i ∈ fmt)) = rg.edges.countP (fun e => decide (e.2.1 = p) && rg.fits fmt e) := by
  unfold RGraph.infos
  rw [List.countP_filterMap, List.countP_filter]
  congr 1
  funext e
  unfold RGraph.fits
  cases rg.node? e.1 with
  | none => simp
  | some n => simp [Bool.and_comm]

theorem sum_count_ports (Q : ℕ × ℕ × ℕ → Bool) (D : Finset ℕ) (es : List (ℕ × ℕ × ℕ)) : ∑ p ∈ D, es.countP (fun e => decide (e.2.1 = p) && Q e) = es.countP (fun e => decide (e.2.1 ∈ D) && Q e) := by
  induction es with
  | nil => simp
  | cons e t ih =>
    simp only [List.countP_cons]
    rw [Finset.sum_add_distrib, ih]
    congr 1
    cases hQ : Q e with
    | false => simp
    | true =>
      simp only [Bool.and_true, decide_eq_true_eq]
      rw [Finset.sum_ite_eq]

theorem usage_count {rg : RGraph σ} (l : σ) (A : List ℕ) (hA : A.Nodup) (D : Finset ℕ) (X : List ℕ) (hX : X.Nodup)
    (h : ∀ x ∈ X, rg.Carries x l ∧ ∀ a ∈ A, ∃ p ∈ D, (x, p, a) ∈ rg.edges) :
    X.length * A.length ≤ ∑ p ∈ D, (rg.infos p).countP (fun i => decide (i ∈ A.map (fun a => (l, a)))) := by
  simp only [infos_count]
  rw [sum_count_ports, List.countP_eq_length_filter, ← List.length_product,
    ← List.length_map (as := rg.edges.filter _) (f := fun e : ℕ × ℕ × ℕ => (e.1, e.2.2))]
  refine (List.subperm_of_subset (hX.product hA) ?_).length_le
  rintro ⟨x, a⟩ hxa
  obtain ⟨hx, ha⟩ := List.mem_product.1 hxa
  obtain ⟨⟨n, h1, h2, h3, h4⟩, h5⟩ := h x hx
  obtain ⟨p, hp, he⟩ := h5 a ha
  refine List.mem_map.2 ⟨(x, p, a), List.mem_filter.2 ⟨he, ?_⟩, rfl⟩
  unfold RGraph.fits
  rw [(node?_iff rg x n).2 ⟨h1, h2⟩]
  simp [hp, h4, ha]

theorem patternUsage_ge {rg : RGraph σ} (l : σ) (A : List ℕ) (hA : A.Nodup) (hA0 : A ≠ []) (D : Finset ℕ) (X : List ℕ) (hX : X.Nodup)
    (h : ∀ x ∈ X, rg.Carries x l ∧ ∀ a ∈ A, ∃ p ∈ D, (x, p, a) ∈ rg.edges) : (X.length : ℚ) ≤ patternUsage rg (A.map (fun a => (l, a))) D := by
  unfold patternUsage
  have h1 := usage_count l A hA D X hX h
  have h2 : (0 : ℚ) < ((A.map (fun a => (l, a))).length : ℚ) := by
    rw [List.length_map]
    exact_mod_cast List.length_pos_iff.2 hA0
  rw [le_div_iff₀ h2, List.length_map]
  exact_mod_cast h1

theorem countP_range {α : Type} (P : α → Bool) (l : List α) : l.countP P = (List.range l.length).countP (fun i => (l[i]?).any P) := by
  induction l using List.reverseRecOn with
  | nil => rfl
  | append_singleton t x ih =>
    rw [List.countP_append, ih, List.length_append, List.length_singleton, List.range_succ, List.countP_append]
    congr 1
    · refine List.countP_congr (fun i hi => ?_)
      rw [List.mem_range] at hi
      rw [List.getElem?_append_left hi]
    · simp

theorem nodesWith_ge {rg : RGraph σ} (l : σ) (X : List ℕ) (hX : X.Nodup) (h : ∀ x ∈ X, rg.Carries x l) : X.length ≤ nodesWith rg l := by
  unfold nodesWith
  rw [countP_range, List.countP_eq_length_filter, ← List.length_map (as := X) (f := fun x => x - 1)]
  refine (List.subperm_of_subset ?_ ?_).length_le
  · refine List.Nodup.map_on ?_ hX
    intro x hx y hy e
    obtain ⟨_, h1, _⟩ := h x hx
    obtain ⟨_, h2, _⟩ := h y hy
    omega
  · intro i hi
    obtain ⟨x, hx, rfl⟩ := List.mem_map.1 hi
    obtain ⟨n, h1, h2, _, h3⟩ := h x hx
    refine List.mem_filter.2 ⟨List.mem_range.2 (List.getElem?_eq_some_iff.1 h2).1, ?_⟩
    rw [h2]
    simp [h3]

/-! ## C91 -/

theorem Occurs.fst_nodup {rg : RGraph σ} (hok : rg.Ok) {c : GCand σ} {x y : ℕ} (h : rg.Occurs c x y) (hn : c.port.Nodup) : (c.port.map Prod.fst).Nodup := by
  refine List.Nodup.map_on ?_ hn
  rintro ⟨a, b⟩ h1 ⟨a', b'⟩ h2 e
  simp only at e
  subst e
  obtain ⟨p, hp⟩ := (h.ports _ _).1 h1
  obtain ⟨q, hq⟩ := (h.ports _ _).1 h2
  have := hok.inj _ _ _ _ hp.2.1 hq.2.1
  subst this
  rw [hok.one _ _ _ _ hp.2.2 hq.2.2]

theorem Occurs.snd_nodup {rg : RGraph σ} (hok : rg.Ok) {c : GCand σ} {x y : ℕ} (h : rg.Occurs c x y) (hn : c.port.Nodup) : (c.port.map Prod.snd).Nodup := by
  refine List.Nodup.map_on ?_ hn
  rintro ⟨b, a⟩ h1 ⟨b', a'⟩ h2 e
  simp only at e
  subst e
  obtain ⟨p, hp⟩ := (h.ports _ _).1 h1
  obtain ⟨q, hq⟩ := (h.ports _ _).1 h2
  have := hok.inj _ _ _ _ hp.2.2 hq.2.2
  subst this
  rw [hok.one _ _ _ _ hp.2.1 hq.2.1]

theorem first_usage {rg : RGraph σ} (hok : rg.Ok) (c : GCand σ) (hn : c.port.Nodup) (h0 : c.port ≠ []) (X : List ℕ) (hX : X.Nodup) (h : ∀ x ∈ X, ∃ y, rg.Occurs c x y)
    (hd : ∀ x y p a b, rg.Occurs c x y → rg.Meet x y p a b → p ∈ c.dataPort) : (X.length : ℚ) ≤ patternUsage rg (c.port.map (fun p => (c.first, p.1))) c.dataPort := by
  have e : c.port.map (fun p => (c.first, p.1)) = (c.port.map Prod.fst).map (fun a => (c.first, a)) := by rw [List.map_map]; rfl
  rw [e]
  cases X with
  | nil =>
    unfold patternUsage
    positivity
  | cons x0 t =>
    obtain ⟨y0, h1⟩ := h x0 (List.mem_cons_self ..)
    refine patternUsage_ge _ _ (Occurs.fst_nodup hok h1 hn) (by simpa using h0) _ _ hX ?_
    intro x hx
    obtain ⟨y, hy⟩ := h x hx
    refine ⟨hy.first, ?_⟩
    intro a ha
    obtain ⟨⟨a', b⟩, hab, rfl⟩ := List.mem_map.1 ha
    obtain ⟨p, hp⟩ := (hy.ports a' b).1 hab
    exact ⟨p, hd x y p a' b hy hp, hp.2.1⟩

theorem second_usage {rg : RGraph σ} (hok : rg.Ok) (c : GCand σ) (hn : c.port.Nodup) (h0 : c.port ≠ []) (X : List ℕ) (hX : X.Nodup) (h : ∀ y ∈ X, ∃ x, rg.Occurs c x y)
    (hd : ∀ x y p a b, rg.Occurs c x y → rg.Meet x y p a b → p ∈ c.dataPort) : (X.length : ℚ) ≤ patternUsage rg (c.port.map (fun p => (c.second, p.2))) c.dataPort := by
  have e : c.port.map (fun p => (c.second, p.2)) = (c.port.map Prod.snd).map (fun a => (c.second, a)) := by rw [List.map_map]; rfl
  rw [e]
  cases X with
  | nil =>
    unfold patternUsage
    positivity
  | cons y0 t =>
    obtain ⟨x0, h1⟩ := h y0 (List.mem_cons_self ..)
    refine patternUsage_ge _ _ (Occurs.snd_nodup hok h1 hn) (by simpa using h0) _ _ hX ?_
    intro y hy
    obtain ⟨x, hx⟩ := h y hy
    refine ⟨hx.second, ?_⟩
    intro b hb
    obtain ⟨⟨a, b'⟩, hab, rfl⟩ := List.mem_map.1 hb
    obtain ⟨p, hp⟩ := (hx.ports a b').1 hab
    exact ⟨p, hd x y p a b' hx hp, hp.2.2⟩

theorem flip_balanced (c : GCand σ) (h : c.flip.Balanced) : c.Balanced ∧ c.Alike c.flip := by
  unfold GCand.Balanced GCand.Opposite at *
  rw [flip_first, flip_second] at h
  by_cases he : c.first = c.second
  · rcases h with h | ⟨_, _, h⟩
    · exact absurd he h
    · have hs : ∀ a b, (a, b) ∈ c.port ↔ (b, a) ∈ c.port := by
        intro a b
        have := h b a
        rw [flip_port, flip_port, if_pos he, if_pos he] at this
        exact this
      refine ⟨.inr ⟨he, he.symm, hs⟩, (flip_first c).symm, (flip_second c).symm, ?_⟩
      rintro ⟨a, b⟩
      rw [flip_port, if_pos he]
      exact hs a b
  · refine ⟨.inl he, (flip_first c).symm, (flip_second c).symm, ?_⟩
    rintro ⟨a, b⟩
    rw [flip_port, if_neg he]

theorem alike_balanced {c d : GCand σ} (h : c.Alike d) (hc : c.Balanced) : d.Balanced := by
  unfold GCand.Balanced GCand.Opposite at *
  rw [← h.1, ← h.2.1]
  rcases hc with hc | ⟨h1, h2, h3⟩
  · exact .inl hc
  · exact .inr ⟨h1, h2, fun a b => by rw [← h.2.2, ← h.2.2]; exact h3 a b⟩

/-- The usage set for a candidate is at least the number of occurrences without common node. -/
theorem Result.usage {env : GenEnv σ} (henv : env.Ok) {rg : RGraph σ} (hok : rg.Ok) (hcl : rg.Clear env) {cs res : List (GCand σ)} (h : Result env rg cs res) (c : GCand σ) (hc : c ∈ res) (hb : c.Balanced)
    (O : List (ℕ × ℕ)) (hO : ∀ q ∈ O, rg.Occurs c q.1 q.2) (hdis : (O.map Prod.fst ++ O.map Prod.snd).Nodup) : (O.length : ℚ) ≤ c.usage := by
  obtain ⟨r, hr, e1, e2, _⟩ := h.backMem c hc
  have ha1 := alike_of_core e1
  obtain ⟨hb', ha2⟩ := flip_balanced r (alike_balanced ha1 hb)
  have ha : c.Alike r := ha1.trans ha2.symm
  have hdata : c.dataPort = r.dataPort := (data_of_core e1).trans (flip_data r)
  have hd : ∀ x y p a b, rg.Occurs r x y → rg.Meet x y p a b → p ∈ r.dataPort := by
    intro x y p a b ho hm
    rw [← hdata]
    exact h.data_all henv hcl c hc hb x y p a b (ho.alike ha.symm) hm
  have hO' : ∀ q ∈ O, rg.Occurs r q.1 q.2 := fun q hq => (hO q hq).alike ha
  have hn := h.coll.nodup r hr
  have h0 : r.port ≠ [] := by
    obtain ⟨d, u, v, n, m, h1, h2, _⟩ := h.coll.sound r hr
    obtain ⟨p, a, b, hm⟩ := h1.meet
    have := (h2.2.2 (a, b)).1 ((h1.occurs.ports a b).2 ⟨p, hm⟩)
    intro hnil
    rw [hnil] at this
    cases this
  rw [List.nodup_append] at hdis
  have u1 := first_usage hok r hn h0 (O.map Prod.fst) hdis.1 (fun x hx => by
    obtain ⟨q, hq, rfl⟩ := List.mem_map.1 hx
    exact ⟨q.2, hO' q hq⟩) hd
  have u2 := second_usage hok r hn h0 (O.map Prod.snd) hdis.2.1 (fun x hx => by
    obtain ⟨q, hq, rfl⟩ := List.mem_map.1 hx
    exact ⟨q.1, hO' q hq⟩) hd
  have u3 := nodesWith_ge (rg := rg) r.first (O.map Prod.fst) hdis.1 (fun x hx => by
    obtain ⟨q, hq, rfl⟩ := List.mem_map.1 hx
    exact (hO' q hq).first)
  rw [List.length_map] at u1 u2 u3
  have u3' : (O.length : ℚ) ≤ (nodesWith rg r.first : ℚ) := by exact_mod_cast u3
  have u4 := le_min u1 u2
  unfold candUsage at e2
  simp only at e2
  split at e2
  · rename_i he
    have hopp : r.Opposite r := by
      rcases hb' with hb' | hb'
      · exact absurd he hb'
      · exact hb'
    have hrev : ∀ q ∈ O, rg.Occurs r q.2 q.1 := by
      intro q hq
      have ho := hO' q hq
      refine ⟨ho.ne.symm, by rw [hopp.1]; exact ho.second, by rw [hopp.2.1]; exact ho.first, ?_⟩
      intro a b
      rw [hopp.2.2, ho.ports]
      exact ⟨fun ⟨p, hp⟩ => ⟨p, Meet.swap hp⟩, fun ⟨p, hp⟩ => ⟨p, Meet.swap hp⟩⟩
    have u5 := first_usage hok r hn h0 (O.map Prod.fst ++ O.map Prod.snd) (List.nodup_append.2 hdis) (fun x hx => by
      rcases List.mem_append.1 hx with hx | hx
      · obtain ⟨q, hq, rfl⟩ := List.mem_map.1 hx
        exact ⟨q.2, hO' q hq⟩
      · obtain ⟨q, hq, rfl⟩ := List.mem_map.1 hx
        exact ⟨q.1, hrev q hq⟩) hd
    rw [List.length_append, List.length_map, List.length_map] at u5
    push_cast at u5
    rw [← Except.ok.inj e2]
    have : (O.length : ℤ) ≤ ⌊patternUsage rg (r.port.map (fun p => (r.first, p.1))) r.dataPort / 2⌋ := by
      rw [Int.le_floor]
      push_cast
      linarith
    exact_mod_cast this
  · split at e2
    · split at e2
      · rw [← Except.ok.inj e2]; exact u2
      · split at e2
        · rw [← Except.ok.inj e2]; exact u1
        · split at e2
          · rw [← Except.ok.inj e2]; exact u3'
          · rw [← Except.ok.inj e2]; exact u4
    · cases e2
    · split at e2
      · split at e2
        · rw [← Except.ok.inj e2]; exact u2
        · rw [← Except.ok.inj e2]; exact u4
      · rw [← Except.ok.inj e2]; exact u1
    · split at e2
      · rw [← Except.ok.inj e2]; exact u1
      · split at e2
        · rw [← Except.ok.inj e2]; exact u2
        · rw [← Except.ok.inj e2]; exact u4

/-- C91: the estimated usage of a candidate is never less than the number of its occurrences that can be used at the same time, i.e. of occurrences without common node. The full statement has no condition `hb`: the two labels must
differ, or the candidate read the other way round must be itself; `usage_too_small` refutes it otherwise. -/
theorem estimated_usage_partial (g : DGraph σ) (hnodup : g.edges.Nodup) (rows : List (Row σ)) (hrows : ∀ r ∈ rows, RowOk g r) (m : Marks σ) (hm : History g m) (nm : Names σ) (hnm : nm.Ok)
    (hname : ∀ i l, g.Uses l → l ≠ nm.row i) (r : Marks σ × List (Row σ) × List (Piece σ)) (hcov : cover g rows m = .ok r) (env : GenEnv σ) (henv : env.Ok) (hfor : env.For nm rows r.2.2) :
    ∃ cs, generate env (rewriteGraph nm r.2.2) = .ok cs ∧ ∀ c ∈ cs, (c.first ≠ c.second ∨ c.Opposite c) → ∀ O : List (ℕ × ℕ), (∀ q ∈ O, (rewriteGraph nm r.2.2).Occurs c q.1 q.2) →
      (O.map Prod.fst ++ O.map Prod.snd).Nodup → (O.length : ℚ) ≤ c.usage := by
  obtain ⟨res, cs, hr, hres, hok, hcl, hfit⟩ := cover_result g hnodup rows hrows m hm nm hnm hname r hcov env henv hfor
  exact ⟨res, hr, fun c hc hb O hO hdis => hres.usage henv hok hcl c hc hb O hO hdis⟩

/-! ## C92 -/

/-- No other candidate of the list has the port. -/
def Exclusive (cs : List (GCand σ)) (k p : ℕ) : Prop := ∀ (j : ℕ) (d : GCand σ), cs[j]? = some d → p ∈ d.dataPort → j = k

theorem Result.exclusive {env : GenEnv σ} {rg : RGraph σ} {cs res : List (GCand σ)} (h : Result env rg cs res) (k : ℕ) (c : GCand σ) (hk : res[k]? = some c) :
    ∃ S : Finset ℕ, c.exclusive = S.card ∧ S ⊆ c.dataPort ∧ (∀ p ∈ c.dataPort, Exclusive res k p → p ∈ S) ∧
      ((∀ j d, k < j → res[j]? = some d → c.first = c.second → ¬ c.Opposite d) → ∀ p ∈ S, Exclusive res k p) := by
  obtain ⟨r, hr, e1, _, _, e4⟩ := h.back k c hk
  have hlt := (List.getElem?_eq_some_iff.1 hr).1
  obtain ⟨L, hL⟩ : ∃ L : List (GCand σ), L = (cs.take k).map GCand.flip ++ r.flip :: cs.drop (k + 1) := ⟨_, rfl⟩
  rw [← hL] at e4
  have hget : ∀ j d, cs[j]? = some d → L[j]? = some (if j ≤ k then d.flip else d) := by
    intro j d hj
    have hjlt := (List.getElem?_eq_some_iff.1 hj).1
    rw [hL]
    rcases Nat.lt_trichotomy j k with h1 | h1 | h1
    · rw [List.getElem?_append_left (by simp; omega), List.getElem?_map, List.getElem?_take, if_pos h1, hj, if_pos (by omega)]
      rfl
    · subst h1
      rw [List.getElem?_append_right (by simp)]
      have : j - ((cs.take j).map GCand.flip).length = 0 := by simp; omega
      rw [this, List.getElem?_cons_zero]
      rw [hj] at hr; cases hr
      simp
    · rw [List.getElem?_append_right (by simp; omega)]
      have : j - ((cs.take k).map GCand.flip).length = (j - k - 1) + 1 := by simp; omega
      rw [this, List.getElem?_cons_succ, List.getElem?_drop, if_neg (by omega)]
      rw [← hj]
      congr 1
      omega
  have hinv : ∀ j d, L[j]? = some d → ∃ d', cs[j]? = some d' ∧ d = if j ≤ k then d'.flip else d' := by
    intro j d hj
    have hl : L.length = cs.length := by
      rw [hL]; simp; omega
    have hjlt : j < cs.length := hl ▸ (List.getElem?_eq_some_iff.1 hj).1
    have := hget j cs[j] (List.getElem?_eq_getElem hjlt)
    rw [hj] at this
    exact ⟨cs[j], List.getElem?_eq_getElem hjlt, Option.some.inj this⟩
  refine ⟨r.flip.dataPort.filter (fun p => (L.all (fun c => !decide (p ∈ c.dataPort) || c.same r.flip)) = true), e4, ?_, ?_, ?_⟩
  · rw [data_of_core e1]
    exact Finset.filter_subset _ _
  · intro p hp hex
    rw [Finset.mem_filter]
    refine ⟨by rw [← data_of_core e1]; exact hp, List.all_eq_true.2 ?_⟩
    intro d hd
    obtain ⟨j, hj⟩ := List.mem_iff_getElem?.1 hd
    obtain ⟨d', h1, h2⟩ := hinv j d hj
    by_cases hpd : p ∈ d.dataPort
    · have hpd' : p ∈ d'.dataPort := by
        rw [h2] at hpd
        split at hpd
        · rwa [flip_data] at hpd
        · exact hpd
      obtain ⟨d'', h3, h4, _⟩ := h.each j d' h1
      have hjk := hex j d'' h3 (by rw [data_of_core h4, flip_data]; exact hpd')
      subst hjk
      rw [h1] at hr
      cases hr
      rw [if_pos (Nat.le_refl _)] at h2
      rw [h2]
      have hn := flip_nodup r (h.coll.nodup r (List.mem_of_getElem? h1))
      simp [(same_iff r.flip r.flip hn hn).2 (GCand.Alike.rfl' _)]
    · simp [hpd]
  · intro hopp p hp j d hj hpd
    rw [Finset.mem_filter] at hp
    obtain ⟨d', h1, h2, _⟩ := h.back j d hj
    rw [data_of_core h2, flip_data] at hpd
    have h3 := List.all_eq_true.1 hp.2 _ (List.mem_of_getElem? (hget j d' h1))
    have hpd2 : p ∈ (if j ≤ k then d'.flip else d').dataPort := by
      split
      · rw [flip_data]; exact hpd
      · exact hpd
    have hs : (if j ≤ k then d'.flip else d').same r.flip = true := by simpa [hpd2] using h3
    have hn1 := h.coll.nodup d' (List.mem_of_getElem? h1)
    have hn2 := h.coll.nodup r (List.mem_of_getElem? hr)
    have huniq : d'.Alike r → j = k := by
      intro ha
      by_contra hne
      have hpw := h.coll.distinct
      rw [List.pairwise_iff_getElem] at hpw
      obtain ⟨hj1, hj2⟩ := List.getElem?_eq_some_iff.1 h1
      obtain ⟨hk1, hk2⟩ := List.getElem?_eq_some_iff.1 hr
      rcases Nat.lt_or_gt_of_ne hne with hlt' | hlt'
      · exact hpw j k hj1 hk1 hlt' (by rw [hj2, hk2]; exact ha)
      · exact hpw k j hk1 hj1 hlt' (by rw [hj2, hk2]; exact ha.symm)
    by_cases hle : j ≤ k
    · rw [if_pos hle] at hs
      exact huniq ((flip_alike _ _).1 ((same_iff _ _ (flip_nodup _ hn1) (flip_nodup _ hn2)).1 hs))
    · rw [if_neg hle] at hs
      have ha := (same_iff _ _ hn1 (flip_nodup _ hn2)).1 hs
      have c1 := alike_of_core e1
      by_cases he : c.first = c.second
      · exfalso
        refine hopp j d (by omega) hj he ⟨?_, ?_, ?_⟩
        · rw [(alike_of_core h2).1, flip_first, ha.1, ← c1.1, he]
        · rw [(alike_of_core h2).2.1, flip_second, ha.2.1, ← c1.2.1, he]
        · intro a b
          have hed : d'.first = d'.second := by rw [ha.1, ha.2.1, ← c1.1, ← c1.2.1, he]
          rw [(alike_of_core h2).2.2, flip_port, if_pos hed, ha.2.2, ← c1.2.2]
      · refine huniq (ha.trans ?_)
        refine ⟨flip_first r, flip_second r, ?_⟩
        rintro ⟨a, b⟩
        rw [flip_port, if_neg]
        rw [← flip_first r, ← flip_second r, ← c1.1, ← c1.2.1]
        exact he

/-- C92: the number of exclusive ports of a candidate is the number of its data ports that no other candidate has, provided no later candidate of the list is opposite to it, which can only happen when its two labels are equal. The full
statement has no such proviso; `exclusive_too_large` refutes it. The number is never smaller. -/
theorem exclusive_ports_partial (g : DGraph σ) (rows : List (Row σ)) (hrows : ∀ r ∈ rows, RowOk g r) (m : Marks σ) (nm : Names σ) (hnm : nm.Ok)
    (r : Marks σ × List (Row σ) × List (Piece σ)) (hcov : cover g rows m = .ok r) (env : GenEnv σ) (henv : env.Ok) (cs : List (GCand σ)) (hr : generate env (rewriteGraph nm r.2.2) = .ok cs)
    (k : ℕ) (c : GCand σ) (hk : cs[k]? = some c) (S : Finset ℕ) (hS : ∀ p, p ∈ S ↔ p ∈ c.dataPort ∧ ∀ (j : ℕ) (d : GCand σ), cs[j]? = some d → p ∈ d.dataPort → j = k) :
    S.card ≤ c.exclusive ∧ ((∀ j d, k < j → cs[j]? = some d → c.first = c.second → ¬ c.Opposite d) → c.exclusive = S.card) := by
  have hok := rewrite_graph_ok hnm r.2.2 (cover_ports g rows hrows m r hcov)
  obtain ⟨cs0, hres⟩ := result_of henv hok cs hr
  obtain ⟨T, h1, h2, h3, h4⟩ := hres.exclusive k c hk
  have hsub : S ⊆ T := fun p hp => h3 p ((hS p).1 hp).1 ((hS p).1 hp).2
  refine ⟨by rw [h1]; exact Finset.card_le_card hsub, ?_⟩
  intro hopp
  rw [h1]
  congr 1
  refine Finset.Subset.antisymm ?_ hsub
  intro p hp
  exact (hS p).2 ⟨h2 hp, h4 hopp p hp⟩

end Verif.Graph
