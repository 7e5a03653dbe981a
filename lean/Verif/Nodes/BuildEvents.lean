import Verif.Nodes.BuildProps
import Verif.PTree.Fact

/-!
# The events of a pattern built step by step (C93)
-/

set_option autoImplicit false
set_option linter.unusedSectionVars false

namespace Verif.Nodes

open Verif.PTree

variable {α β : Type}

theorem NForest.snoc_plain (d : ℤ) (s : NTree α) {S : PTree.Tree α} (hS : s.plain = some S) : ∀ (F : NForest α) (G : Forest α), F.plain = some G →
    ∃ G', (F.snoc d s).plain = some G' ∧ ∀ time, genF G' time = genF G time ++ gen S (time + F.span + d)
  | .nil, G, h => by
    simp only [NForest.plain, Option.some.injEq] at h
    subst h
    refine ⟨.cons d S .nil, by simp [NForest.snoc, NForest.plain, hS], ?_⟩
    intro time
    simp [genF, NForest.span]
  | .cons e t rest, G, h => by
    simp only [NForest.plain, Option.bind_eq_some_iff, Option.map_eq_some_iff] at h
    obtain ⟨T, hT, R, hR, rfl⟩ := h
    obtain ⟨R', h1, h2⟩ := rest.snoc_plain d s hS R hR
    refine ⟨.cons e T R', by simp [NForest.snoc, NForest.plain, hT, h1], ?_⟩
    intro time
    simp only [genF, h2, NForest.span, List.append_assoc]
    congr 3
    omega

mutual
theorem NTree.addLast_events (a : ℕ) (d : ℤ) (s : NTree α) {S : PTree.Tree α} (hS : s.plain = some S) : ∀ (t : NTree α) (T : PTree.Tree α), t.ids.Nodup → t.plain = some T →
    ∃ T', (t.addLast a d s).plain = some T' ∧ ∀ time, (gen T' time).Perm (gen T time ++ (t.slots a time).flatMap (fun x => gen S (x + d)))
  | .leaf id ev, T, _, hT => ⟨T, hT, fun time => by simp [NTree.slots]⟩
  | .node id none ch, T, _, hT => by simp [NTree.plain] at hT
  | .node id (some rp) ch, T, hn, hT => by
    simp only [NTree.ids, List.nodup_cons] at hn
    simp only [NTree.plain, Option.map_eq_some_iff] at hT
    obtain ⟨F, hF, rfl⟩ := hT
    by_cases he : id = a
    · obtain ⟨G', h1, h2⟩ := NForest.snoc_plain d s hS ch F hF
      refine ⟨.node rp.1 rp.2 G', by simp [NTree.addLast, he, NTree.plain, h1], ?_⟩
      intro time
      simp only [gen, h2, NTree.slots, if_pos he, List.flatMap_map]
      exact (flatMap_append_perm' _ _ _).symm
    · obtain ⟨G', h1, h2⟩ := NForest.addLast_events a d s hS ch F hn.2 hF
      refine ⟨.node rp.1 rp.2 G', by simp [NTree.addLast, he, NTree.plain, h1], ?_⟩
      intro time
      simp only [gen, NTree.slots, if_neg he, List.flatMap_assoc]
      exact (List.Perm.flatMap_left _ (fun i _ => h2 _)).trans (flatMap_append_perm' _ _ _).symm
theorem NForest.addLast_events (a : ℕ) (d : ℤ) (s : NTree α) {S : PTree.Tree α} (hS : s.plain = some S) : ∀ (F : NForest α) (G : Forest α), F.ids.Nodup → F.plain = some G →
    ∃ G', (F.addLast a d s).plain = some G' ∧ ∀ time, (genF G' time).Perm (genF G time ++ (F.slots a time).flatMap (fun x => gen S (x + d)))
  | .nil, G, _, h => ⟨G, h, fun time => by simp [NForest.slots]⟩
  | .cons e t rest, G, hn, h => by
    simp only [NForest.ids, List.nodup_append] at hn
    simp only [NForest.plain, Option.bind_eq_some_iff, Option.map_eq_some_iff] at h
    obtain ⟨T, hT, R, hR, rfl⟩ := h
    obtain ⟨T', h1, h2⟩ := NTree.addLast_events a d s hS t T hn.1 hT
    obtain ⟨R', h3, h4⟩ := NForest.addLast_events a d s hS rest R hn.2.1 hR
    refine ⟨.cons e T' R', by simp [NForest.addLast, NForest.plain, h1, h3], ?_⟩
    intro time
    simp only [genF, NForest.slots, List.flatMap_append]
    refine ((h2 _).append (h4 _)).trans ?_
    simp only [List.append_assoc]
    refine List.Perm.append_left _ ?_
    rw [← List.append_assoc, ← List.append_assoc]
    exact List.perm_append_comm.append_right _
end

/-- The pattern has the given tree: the functions that read the dictionary find it, and they never see another one, whatever the depth they may descend to. -/
def PatObj.Reads (P : PatObj α) (T : PTree.Tree α) : Prop := ∃ f, ∀ n, f ≤ n → treeOf n P.nodes 0 = some T

/-- Appending an event: the pattern still has its events and, for every repetition of the anchor, the new event at the given distance from the start of the last child. -/
theorem append_events {P : PatObj α} {t : NTree α} {T : PTree.Tree α} (h : P.Is t) (hT : t.plain = some T) (ev : α) (d : ℤ) (a : ℕ) :
    ∃ P' t' T', append P ev d a = .ok P' ∧ P'.Is t' ∧ t'.plain = some T' ∧ P'.Reads T' ∧
      ∀ time, (gen T' time).Perm (gen T time ++ (t.slots (if a ∈ t.inner then a else 0) time).map (fun x => (x + d, ev))) := by
  obtain ⟨P', h1, h2⟩ := append_is h ev d a
  obtain ⟨T', h3, h4⟩ := NTree.addLast_events (if a ∈ t.inner then a else 0) d (.leaf P.nextId ev) (S := .leaf ev) rfl t T h.nodes.ids hT
  refine ⟨P', _, T', h1, h2, h3, h2.nodes.reads h3, fun time => ?_⟩
  have := h4 time
  simpa [gen, List.flatMap_singleton', ← List.map_eq_flatMap] using this

/-- Merging a pattern: the events of the pattern and, for every repetition of the anchor, those of the other pattern started at the given distance from the start of the last child. -/
theorem merge_events {P Q : PatObj α} {t u : NTree α} {T U : PTree.Tree α} (h : P.Is t) (hT : t.plain = some T) (hQ : Describes Q.nodes u) (hU : u.plain = some U) (d : ℤ) (a : ℕ) :
    ∃ P' t' T', merge P Q d a = .ok P' ∧ P'.Is t' ∧ t'.plain = some T' ∧ P'.Reads T' ∧
      ∀ time, (gen T' time).Perm (gen T time ++ (t.slots (if a ∈ t.inner then a else 0) time).flatMap (fun x => gen U (x + d))) := by
  obtain ⟨P', f, h1, h2⟩ := merge_is h hQ d a
  obtain ⟨T', h3, h4⟩ := NTree.addLast_events (if a ∈ t.inner then a else 0) d (u.rename f) (S := U) (by rw [NTree.rename_plain, hU]) t T h.nodes.ids hT
  exact ⟨P', _, T', h1, h2, h3, h2.nodes.reads h3, h4⟩

/-- Repeating a pattern that has events: they are repeated, shifted by the period. -/
theorem repeat_events {P : PatObj α} {t : NTree α} {T : PTree.Tree α} (h : P.Is t) (hT : t.plain = some T) (r : ℕ) (p : ℤ) :
    ∃ P' t' T', repeatPat P r p = .ok P' ∧ P'.Is t' ∧ t'.plain = some T' ∧ P'.Reads T' ∧
      ∀ time, gen T' time = (List.range r).flatMap (fun i : ℕ => gen T (time + (i : ℤ) * p)) := by
  obtain ⟨rp, ch, e⟩ := h.nodes.root
  subst e
  cases rp with
  | none => simp [NTree.plain] at hT
  | some rp =>
    obtain ⟨P', h1, h2⟩ := repeat_again h r p
    have h3 : (NTree.node 0 (some (r, p)) (.cons 0 (.node P.nextId (some rp) ch) .nil)).plain = some (.node r p (.cons 0 T .nil)) := by
      have hT' : (NTree.node P.nextId (some rp) ch).plain = some T := by simpa only [NTree.plain] using hT
      simp [NTree.plain.eq_3, NForest.plain, hT']
    refine ⟨P', _, _, h1, h2, h3, h2.nodes.reads h3, fun time => ?_⟩
    simp [gen, genF]

/-- Appending a list of events with distances, one after the other, under the root. -/
def appendAll (P : PatObj α) : List (α × ℤ) → Except String (PatObj α)
  | [] => .ok P
  | (ev, d) :: l => (append P ev d 0).bind (fun P' => appendAll P' l)

/-- The events at distances from each other. -/
def spread : ℤ → List (α × ℤ) → List (ℤ × α)
  | _, [] => []
  | time, (ev, d) :: l => (time + d, ev) :: spread (time + d) l

theorem appendAll_is : ∀ (l : List (α × ℤ)) {P : PatObj α} {ch : NForest α} {F : Forest α}, P.Is (.node 0 none ch) → ch.plain = some F →
    ∃ P' ch' F', appendAll P l = .ok P' ∧ P'.Is (.node 0 none ch') ∧ ch'.plain = some F' ∧ ∀ time, genF F' time = genF F time ++ spread (time + ch.span) l := by
  intro l
  induction l with
  | nil =>
    intro P ch F h hF
    exact ⟨P, ch, F, rfl, h, hF, fun time => by simp [spread]⟩
  | cons x l ih =>
    intro P ch F h hF
    obtain ⟨ev, d⟩ := x
    obtain ⟨P1, h1, h2⟩ := append_is h ev d 0
    simp only [ite_self, NTree.addLast, if_true] at h2
    obtain ⟨G, h3, h4⟩ := NForest.snoc_plain d (.leaf P.nextId ev) (S := .leaf ev) rfl ch F hF
    obtain ⟨P2, ch2, F2, h5, h6, h7, h8⟩ := ih h2 h3
    refine ⟨P2, ch2, F2, ?_, h6, h7, fun time => ?_⟩
    · unfold appendAll
      rw [h1]
      exact h5
    · have hs : ∀ (c : NForest α), (c.snoc d (.leaf P.nextId ev)).span = c.span + d := by
        intro c
        induction c using NForest.rec (motive_1 := fun _ => True) with
        | leaf => trivial
        | node => trivial
        | nil => simp [NForest.snoc, NForest.span]
        | cons e t rest _ ihr => simp only [NForest.snoc, NForest.span, ihr]; omega
      rw [h8 time, h4 time, hs]
      simp [gen, spread, add_assoc]

/-- A pattern built from nothing: the events appended, repeated. -/
theorem built_events (l : List (α × ℤ)) (r : ℕ) (p : ℤ) :
    ∃ P P' t T, appendAll PatObj.empty l = .ok P ∧ repeatPat P r p = .ok P' ∧ P'.Is t ∧ t.plain = some T ∧ P'.Reads T ∧
      ∀ time, gen T time = (List.range r).flatMap (fun i : ℕ => spread (time + (i : ℤ) * p) l) := by
  obtain ⟨P, ch, F, h1, h2, h3, h4⟩ := appendAll_is l (P := PatObj.empty) empty_is (F := .nil) rfl
  obtain ⟨P', h5, h6⟩ := repeat_first h2 r p
  have h7 : (NTree.node 0 (some (r, p)) ch).plain = some (.node r p F) := by simp [NTree.plain, h3]
  refine ⟨P, P', _, _, h1, h5, h6, h7, h6.nodes.reads h7, fun time => ?_⟩
  simp [gen, h4, genF, NForest.span]

/-- A concrete case: `a` and, 2 later, `b`, three times every 10; then twice every 100, and `c` 5 after the last `b` of every block of three. -/
example : ∃ P P' P'' : PatObj Char, appendAll PatObj.empty [('a', 0), ('b', 2)] = .ok P ∧ repeatPat P 3 10 = .ok P' ∧ (repeatPat P' 2 100).bind (fun Q => append Q 'c' 5 0) = .ok P'' ∧
    P''.nodes = [(1, .leaf (some 3) 'a'), (2, .leaf (some 3) 'b'), (3, .inner (some 0) (some (3, 10)) [(1, 0), (2, 2)]), (0, .inner none (some (2, 100)) [(3, 0), (4, 5)]), (4, .leaf (some 0) 'c')] :=
  ⟨_, _, _, rfl, rfl, rfl, rfl⟩

example : (PatObj.cycle 'a' 3 10).Is (.node 0 (some (3, 10)) (.cons 0 (.leaf 1 'a') .nil)) ∧ (NTree.node 0 (some (3, 10)) (.cons 0 (.leaf 1 'a') .nil)).plain = some (.node 3 10 (.cons 0 (.leaf 'a') .nil)) ∧
    (NTree.node 0 (some (3, 10)) (.cons 0 (.leaf 1 'a') .nil)).slots 0 7 = [7, 17, 27] := ⟨cycle_is _ _ _, rfl, by decide⟩

end Verif.Nodes
