import Verif.Nest.Lemmas
import Verif.Nest.Spec
import Verif.Concat.Shape
import Verif.Miner.Lemmas
import Mathlib.Data.Finset.Dedup
import Mathlib.Data.Finset.Max

/-!
# Nesting keeps the times and the events (C62)
-/

set_option autoImplicit false
set_option linter.unusedSectionVars false

namespace Verif.Nest

open Verif.PTree Verif.Concat Verif.Text

variable {α : Type}

theorem mapM_get {β γ : Type} {f : β → Option γ} {l : List β} {l' : List γ} (h : l.mapM f = some l') :
    l.length = l'.length ∧ ∀ i (h1 : i < l.length) (h2 : i < l'.length), f l[i] = some l'[i] := by
  have := (Miner.mapM_iff f l l').1 h
  refine ⟨by simpa using congrArg List.length this, fun i h1 h2 => ?_⟩
  have := congrArg (fun l => l[i]?) this
  simpa [h1, h2] using this

theorem mapM_ex {β γ : Type} (f : β → Option γ) (l : List β) (h : ∀ x ∈ l, ∃ y, f x = some y) : ∃ l', l.mapM f = some l' :=
  Miner.mapM_exists f l (fun x hx => Option.isSome_iff_exists.2 (h x hx))

theorem mapM_mem {β γ : Type} {f : β → Option γ} {l : List β} {l' : List γ} (h : l.mapM f = some l') {c : γ} (hc : c ∈ l') : ∃ x ∈ l, f x = some c :=
  (Miner.mem_mapM h c).1 hc

mutual
theorem length_cycle : ∀ t : PTree.Tree α, (cyclePs t).length = (cycleRs t).length
  | .leaf _ => rfl
  | .node _ _ ch => by simp [cyclePs, cycleRs, length_cycleF ch]
theorem length_cycleF : ∀ F : Forest α, (cyclePsF F).length = (cycleRsF F).length
  | .nil => rfl
  | .cons _ t rest => by simp [cyclePsF, cycleRsF, length_cycle t, length_cycleF rest]
end

/-! ### One nested candidate -/

theorem chain_eq (outer : List (ℤ × ℕ)) (p : ℤ) (l : ℕ) (F : Forest α) :
    ∃ y, chain (outer ++ [(p, l)]) F = some y ∧ PTree.Tree.node y.1 y.2.1 y.2.2 = nestT (.node l p F) outer := by
  induction outer with
  | nil => exact ⟨_, rfl, rfl⟩
  | cons pl rest ih =>
    obtain ⟨q, m⟩ := pl
    obtain ⟨y, h1, h2⟩ := ih
    cases rest with
    | nil => exact ⟨_, rfl, rfl⟩
    | cons x rest =>
      refine ⟨(m, q, .cons 0 (.node y.1 y.2.1 y.2.2) .nil), ?_, ?_⟩
      · simp only [List.cons_append, chain] at h1 ⊢
        rw [h1]; rfl
      · rw [h2]; rfl

theorem nestE_eq (cands : List (Cand α)) (hd : ∀ c ∈ cands, Shape c) (kids : List ℕ) (cs : List (Cand α)) (hcs : kids.mapM (fun i => cands[i]?) = some cs)
    (outer : List (ℤ × ℕ)) (hpos : ∀ x ∈ outer, 1 ≤ x.2) (hlen : kids.length = copies outer) (more : List ℤ) :
    nestE cands kids (outer.map Prod.fst ++ more) (outer.map Prod.snd) =
      some (esRec (fun k => ((cs[k]?.map (fun c => c.O)).getD []).headD 0) (fun k => (cs[k]?.map (fun c => c.E)).getD []) outer 0) := by
  obtain ⟨tt, htt⟩ : ∃ tt : ℕ → ℤ, tt = fun k => ((cs[k]?.map (fun c => c.O)).getD []).headD 0 := ⟨_, rfl⟩
  obtain ⟨ee, hee⟩ : ∃ ee : ℕ → List ℤ, ee = fun k => (cs[k]?.map (fun c => c.E)).getD [] := ⟨_, rfl⟩
  have hlen' : cs.length = kids.length := (mapM_get hcs).1.symm
  have hk : ∀ k < copies outer, ∃ c, (kids[k]?).bind (fun i => cands[i]?) = some c ∧ ee k = c.E ∧ t0At cands kids k = some (tt k) := by
    intro k hk
    have hk1 : k < kids.length := by omega
    have hk2 : k < cs.length := by omega
    have hget : cands[kids[k]]? = some cs[k] := (mapM_get hcs).2 k hk1 hk2
    refine ⟨cs[k], by simp [hk1, hget], by simp [hee, hk2], ?_⟩
    obtain ⟨t0, h0⟩ := (hd cs[k] (List.mem_of_getElem? hget)).head
    unfold t0At
    rw [List.getElem?_eq_getElem hk1, Option.bind_some, hget, Option.bind_some, h0, htt]
    simp only [List.getElem?_eq_getElem hk2, Option.map_some, Option.getD_some]
    rw [List.headD_eq_head?_getD, h0]; rfl
  rw [← htt, ← hee, ← flatMap_piece tt ee outer hpos 0]
  unfold nestE
  have key : (reps (outer.map Prod.snd)).zipIdx.mapM (fun x => nestTurn cands kids (outer.map Prod.fst ++ more) (reps (outer.map Prod.snd)) x.1 x.2) =
      some ((reps (outer.map Prod.snd)).zipIdx.map (fun x => piece tt ee outer 0 x.1 x.2)) := by
    apply mapM_some_map
    rintro ⟨q, j⟩ hx
    have hq : (reps (outer.map Prod.snd))[j]? = some q := by
      have := List.mem_zipIdx_iff_getElem?.1 hx
      simpa using this
    have hj : j < copies outer := (List.getElem?_eq_some_iff.1 hq).1
    obtain ⟨c, h1, h2, h3⟩ := hk j hj
    obtain ⟨l1, l2⟩ := lastNonzero_reps _ j q hq
    unfold nestTurn piece
    simp only [h1, h3, Nat.zero_add]
    by_cases hj0 : j = 0
    · simp [hj0, ← h2]
    · simp only [hj0, if_false]
      cases hl : lastNonzero q with
      | none => exact absurd (l1.1 hl) hj0
      | some i =>
        obtain ⟨a, b⟩ := l2 i hl
        have a : i < outer.length := by simpa using a
        obtain ⟨c', -, -, h3'⟩ := hk _ (List.idxOf_lt_length_iff.2 b)
        simp only [h3']
        have hp : (outer.map Prod.fst ++ more)[i]? = some ((outer.map Prod.fst).getD i 0) := by
          rw [List.getElem?_append_left (by simpa using a)]
          simp [a]
        rw [hp, h2]
  rw [key, Option.map_some, List.flatMap_def]

/-- What holds for an element of a group. -/
def Good (I : List (ℤ × ℕ) → Elem → Prop) (cands : List (Cand α)) (key : List Char) (e : Elem) : Prop :=
  ∃ (outer : List (ℤ × ℕ)) (T : PTree.Tree α), (∀ x ∈ outer, 1 ≤ x.2) ∧
    key = keyText (outer.map Prod.fst ++ cyclePs T) (outer.map Prod.snd ++ cycleRs T) ∧ e.2.length = copies outer ∧
    (∀ i ∈ e.2, ∃ c, cands[i]? = some c ∧ c.tree = T) ∧ I outer e

/-- What is preserved by the search: it holds for single candidates, and for what is made of elements found in a group. -/
structure Kept (env : Env) (cands : List (Cand α)) (I : List (ℤ × ℕ) → Elem → Prop) : Prop where
  init : ∀ i c t0, cands[i]? = some c → c.O.head? = some t0 → I [] (t0, [i])
  step : ∀ (outer : List (ℤ × ℕ)) (elems : List Elem) (pos : List ℕ) (p t0 : ℤ) (kids : List ℕ), (∀ e ∈ elems, I outer e) → elems.Pairwise (fun a b => a.1 < b.1) → 3 ≤ pos.length → (∀ k ∈ pos, k < elems.length) →
    pos.Pairwise (· < ·) → combKids elems pos = some kids → (∃ e ∈ elems, t0 = e.1) → (∃ e ∈ elems, t0 < e.1) →
    ((∃ lvl key, (p, pos) ∈ env.triples lvl key (elems.map Prod.fst)) ∨ ∃ l, l.Sublist (elems.map Prod.fst) ∧ 3 ≤ l.length ∧ p = env.period l) → I ((p, pos.length) :: outer) (t0, kids)

theorem copies_ne {outer : List (ℤ × ℕ)} (hpos : ∀ x ∈ outer, 1 ≤ x.2) {kids : List ℕ} (h : kids.length = copies outer) : kids ≠ [] := by
  have := copies_pos outer hpos
  rintro rfl
  simp at h
  omega

theorem prepare_spec {I : List (ℤ × ℕ) → Elem → Prop} (cands : List (Cand α)) (hd : ∀ c ∈ cands, Shape c) (key : List Char) (e : Elem) (hg : Good I cands key e) :
    ∃ c cs, prepareNested cands key e.2 = some c ∧ e.2.mapM (fun i => cands[i]?) = some cs ∧ Shape c ∧ ((∀ c ∈ cs, Describes c) → Describes c) ∧
      c.O = cs.flatMap (fun c => c.O) ∧ c.events = cs.flatMap (fun c => c.events) ∧
      ∃ outer T, (∀ x ∈ outer, 1 ≤ x.2) ∧ c.tree = nestT T outer ∧ (∀ x ∈ cs, x.tree = T) ∧ cs.length = copies outer ∧ I outer e := by
  obtain ⟨outer, T, hpos, rfl, hlen, hk, hIe⟩ := hg
  obtain ⟨cs, hcs⟩ : ∃ cs, e.2.mapM (fun i => cands[i]?) = some cs := by
    apply mapM_ex
    intro i hi
    obtain ⟨c, hc, -⟩ := hk i hi
    exact ⟨c, hc⟩
  have hcsT : ∀ c ∈ cs, c.tree = T ∧ c ∈ cands := by
    intro c hc
    obtain ⟨i, hi, h⟩ := mapM_mem hcs hc
    obtain ⟨c', hc', hT⟩ := hk i hi
    rw [hc'] at h
    simp only [Option.some.injEq] at h
    subst h
    exact ⟨hT, List.mem_of_getElem? hc'⟩
  have hlen' : cs.length = copies outer := by rw [(mapM_get hcs).1.symm, hlen]
  have hcp := copies_pos outer hpos
  obtain ⟨c0, h0, hc0⟩ : ∃ c0, (e.2.head?).bind (fun i => cands[i]?) = some c0 ∧ c0 ∈ cs := by
    have h1 : 0 < e.2.length := by omega
    have h2 : 0 < cs.length := by omega
    have := (mapM_get hcs).2 0 h1 h2
    refine ⟨cs[0], ?_, List.getElem_mem h2⟩
    rw [List.head?_eq_getElem?, List.getElem?_eq_getElem h1, Option.bind_some]
    exact this
  obtain ⟨hT0, hc0'⟩ := hcsT c0 hc0
  have hdT := hd c0 hc0'
  have hnps : cyclePs T ≠ [] := by rw [← hT0]; simp [Cand.tree, cyclePs]
  have hnrs : cycleRs T ≠ [] := by rw [← hT0]; simp [Cand.tree, cycleRs]
  obtain ⟨y, hy1, hy2⟩ := chain_eq outer c0.p c0.r c0.ch
  have htree : nestTree c0 (outer.map Prod.fst ++ cyclePs T) (outer.map Prod.snd ++ cycleRs T) = some y := by
    unfold nestTree
    have hlc := length_cycle T
    have hpl : 0 < (cyclePs T).length := List.length_pos_iff.2 hnps
    have hm : (outer.map Prod.fst ++ cyclePs T).length + 1 - (cyclePs c0.tree).length = outer.length + 1 := by
      rw [hT0]; simp; omega
    simp only [hm]
    rw [if_neg (by simp; omega)]
    have hz : ((outer.map Prod.fst ++ cyclePs T).zip (outer.map Prod.snd ++ cycleRs T)).take (outer.length + 1) = outer ++ [(c0.p, c0.r)] := by
      rw [List.zip_append (by simp), ← List.unzip_fst, ← List.unzip_snd, List.zip_unzip, List.take_length_add_append, ← hT0]
      simp [Cand.tree, cyclePs, cycleRs]
    rw [hz, hy1]
  have hEtake : (outer.map Prod.snd ++ cycleRs T).take ((outer.map Prod.snd ++ cycleRs T).length - (cyclePs c0.tree).length) = outer.map Prod.snd := by
    rw [hT0, length_cycle T]
    simp
  have hE := nestE_eq cands hd e.2 cs hcs outer hpos hlen (cyclePs T)
  obtain ⟨r, p, ch⟩ := y
  obtain ⟨Es, hEs⟩ : ∃ Es, Es = esRec (fun k => ((cs[k]?.map (fun c => c.O)).getD []).headD 0) (fun k => (cs[k]?.map (fun c => c.E)).getD []) outer 0 := ⟨_, rfl⟩
  have hTr : T.Regular := by rw [← hT0]; exact hdT.1
  have hflat : cs.flatMap (fun c => c.O) = (List.range (copies outer)).flatMap (fun j => (cs[0 + j]?.map (fun c => c.O)).getD []) := by
    have : cs = (List.range cs.length).map (fun j => cs[j]?.getD c0) := by
      apply List.ext_getElem?
      intro j
      by_cases hj : j < cs.length
      · simp [hj]
      · simp [hj]
    conv_lhs => rw [this]
    rw [List.flatMap_map, hlen']
    apply List.flatMap_congr
    intro j hj
    have : j < cs.length := by rw [hlen']; exact List.mem_range.1 hj
    simp [this]
  have hcorr : (∀ c ∈ cs, Describes c) → corrT (nestT T outer) (cs.flatMap (fun c => c.O)) 0 0 =
      (((cs[0]?.map (fun c => c.O)).getD []).headD 0 - 0 - 0) :: Es := by
    intro hdes
    have := corrT_nest T hTr (fun k => ((cs[k]?.map (fun c => c.O)).getD []).headD 0) (fun k => (cs[k]?.map (fun c => c.E)).getD [])
      (fun k => (cs[k]?.map (fun c => c.O)).getD []) (copies outer) (by
        intro j hj
        have hj' : j < cs.length := by omega
        obtain ⟨hTj, hcj⟩ := hcsT cs[j] (List.getElem_mem hj')
        obtain ⟨d1, d2, d3, d4⟩ := hdes _ (List.getElem_mem hj')
        have := (describes_iff cs[j] d1 d2 d3).1 d4
        simp only [List.getElem?_eq_getElem hj', Option.map_some, Option.getD_some]
        rw [← hTj]
        exact ⟨d2, by simp, this⟩) outer hpos 0 0 0 (by omega)
    rw [hEs, hflat]
    exact this
  have hOl : (cs.flatMap (fun c => c.O)).length = copies outer * nbOccs T := by
    rw [List.length_flatMap]
    have : cs.map (fun c => c.O.length) = cs.map (fun _ => nbOccs T) := by
      apply List.map_congr_left
      intro c hc
      rw [(hd c (hcsT c hc).2).2.1, (hcsT c hc).1]
    rw [this]
    simp [hlen']
  have hNl : (cs.flatMap (fun c => c.O)).length = nbOccs (nestT T outer) := by rw [hOl, nbOccs_nestT]
  have htree' : (Cand.mk r p ch (cs.flatMap (fun c => c.O)) Es).tree = nestT T outer := by
    simp only at hy2
    rw [Cand.tree]
    simp only
    rw [hy2, ← hT0]; rfl
  have hreg : (nestT T outer).Regular := regular_nestT T hTr outer hpos
  have hEl : Es.length + 1 = (cs.flatMap (fun c => c.O)).length := by
    have := length_esRec (fun k => ((cs[k]?.map (fun c => c.O)).getD []).headD 0) (fun k => (cs[k]?.map (fun c => c.E)).getD []) (nbOccs T) (copies outer) (by
      intro j hj
      have hj' : j < cs.length := by omega
      obtain ⟨hTj, hcj⟩ := hcsT cs[j] (List.getElem_mem hj')
      obtain ⟨d1, d2, d3⟩ := hd _ hcj
      simp only [List.getElem?_eq_getElem hj', Option.map_some, Option.getD_some]
      rw [d3, d2, hTj]) outer hpos 0 (by omega)
    rw [hEs, this, hOl]
  refine ⟨⟨r, p, ch, cs.flatMap (fun c => c.O), Es⟩, cs, ?_, hcs, ⟨by rw [htree']; exact hreg, by rw [htree']; exact hNl, hEl⟩, ?_, rfl, ?_, outer, T, hpos, htree', fun x hx => (hcsT x hx).1, hlen', hIe⟩
  · unfold prepareNested
    rw [parseKey_text _ _ (by simp [hnps]) (by simp [hnrs]), hcs, h0]
    simp only [hEtake, hE, htree, ← hEs]
  · intro hdes
    refine ⟨by rw [htree']; exact hreg, by rw [htree']; exact hNl, hEl, ?_⟩
    refine (describes_iff _ (by rw [htree']; exact hreg) (by rw [htree']; exact hNl) hEl).2 ?_
    rw [htree', hcorr hdes]; rfl
  · unfold Cand.events
    rw [htree', gen_nest, ← hlen']
    have : ∀ l : List (Cand α), (∀ c ∈ l, c.tree = T) → (List.range l.length).flatMap (fun _ => (gen T 0).map Prod.snd) = l.flatMap (fun c => (gen c.tree 0).map Prod.snd) := by
      intro l
      induction l with
      | nil => intro _; rfl
      | cons a l ih =>
        intro h
        rw [List.length_cons, List.range_succ_eq_map, List.flatMap_cons, List.flatMap_map, List.flatMap_cons, h a List.mem_cons_self]
        congr 1
        exact ih (fun c hc => h c (List.mem_cons_of_mem _ hc))
    exact this cs (fun c hc => (hcsT c hc).1)

/-! ### The groups -/

/-- Every element of every group is good. -/
def GoodG (I : List (ℤ × ℕ) → Elem → Prop) (cands : List (Cand α)) (g : Groups) : Prop := ∀ x ∈ g, x.2 ≠ [] ∧ ∀ e ∈ x.2, Good I cands x.1 e

theorem mem_addElem {g : Groups} {key : List Char} {e : Elem} {x : List Char × List Elem} (h : x ∈ addElem g key e) :
    (∀ y ∈ x.2, (x.1 = key ∧ y = e) ∨ ∃ z ∈ g, z.1 = x.1 ∧ y ∈ z.2) ∧ (x.2 ≠ [] ∨ x ∈ g) := by
  unfold addElem at h
  split at h
  · obtain ⟨z, hz, rfl⟩ := List.mem_map.1 h
    split
    · rename_i hk
      refine ⟨fun y hy => ?_, Or.inl (by simp)⟩
      rcases List.mem_append.1 hy with hy | hy
      · exact Or.inr ⟨z, hz, rfl, hy⟩
      · exact Or.inl ⟨hk, by simpa using hy⟩
    · exact ⟨fun y hy => Or.inr ⟨z, hz, rfl, hy⟩, Or.inr hz⟩
  · rcases List.mem_append.1 h with h | h
    · exact ⟨fun y hy => Or.inr ⟨x, h, rfl, hy⟩, Or.inr h⟩
    · simp only [List.mem_singleton] at h
      subst h
      exact ⟨fun y hy => Or.inl ⟨rfl, by simpa using hy⟩, Or.inl (by simp)⟩

theorem goodG_add {I : List (ℤ × ℕ) → Elem → Prop} {cands : List (Cand α)} {g : Groups} {key : List Char} {e : Elem} (hg : GoodG I cands g) (he : Good I cands key e) : GoodG I cands (addElem g key e) := by
  intro x hx
  obtain ⟨h1, h2⟩ := mem_addElem hx
  refine ⟨?_, fun y hy => ?_⟩
  · rcases h2 with h2 | h2
    · exact h2
    · exact (hg x h2).1
  · rcases h1 y hy with ⟨rfl, rfl⟩ | ⟨z, hz, hzk, hyz⟩
    · exact he
    · rw [← hzk]; exact (hg z hz).2 y hyz

/-- All the start times. -/
def times (g : Groups) : List ℤ := g.flatMap (fun x => x.2.map Prod.fst)

theorem times_add {g : Groups} {key : List Char} {e : Elem} {t : ℤ} (h : t ∈ times (addElem g key e)) : t = e.1 ∨ t ∈ times g := by
  unfold times at h ⊢
  obtain ⟨x, hx, ht⟩ := List.mem_flatMap.1 h
  obtain ⟨y, hy, rfl⟩ := List.mem_map.1 ht
  rcases (mem_addElem hx).1 y hy with ⟨-, rfl⟩ | ⟨z, hz, -, hyz⟩
  · exact Or.inl rfl
  · exact Or.inr (List.mem_flatMap.2 ⟨z, hz, List.mem_map_of_mem hyz⟩)

theorem init_spec {I : List (ℤ × ℕ) → Elem → Prop} (cands : List (Cand α)) (hd : ∀ c ∈ cands, Shape c) (hI : ∀ i c t0, cands[i]? = some c → c.O.head? = some t0 → I [] (t0, [i])) :
    ∃ g, initGroups cands = some g ∧ GoodG I cands g ∧ (times g).toFinset.card ≤ cands.length := by
  have key : ∀ (l : List (Cand α × ℕ)) (g : Groups), (∀ x ∈ l, cands[x.2]? = some x.1) → GoodG I cands g →
      ∃ g', l.foldl (fun g x => match g, x.1.O.head? with
        | some g, some t0 => some (addElem g (baseKey x.1) (t0, [x.2]))
        | _, _ => none) (some g) = some g' ∧ GoodG I cands g' ∧ (times g').toFinset.card ≤ (times g).toFinset.card + l.length := by
    intro l
    induction l with
    | nil => intro g _ hg; exact ⟨g, rfl, hg, by simp⟩
    | cons x l ih =>
      intro g hl hg
      have hx := hl x List.mem_cons_self
      obtain ⟨t0, h0⟩ := (hd _ (List.mem_of_getElem? hx)).head
      obtain ⟨g', h1, h2, h3⟩ := ih (addElem g (baseKey x.1) (t0, [x.2])) (fun y hy => hl y (List.mem_cons_of_mem _ hy))
        (goodG_add hg ⟨[], x.1.tree, by simp, by simp [baseKey_text], by simp [copies, reps], by simpa using ⟨x.1, hx, rfl⟩, hI _ _ _ hx h0⟩)
      refine ⟨g', by rw [List.foldl_cons, h0]; exact h1, h2, h3.trans ?_⟩
      have : (times (addElem g (baseKey x.1) (t0, [x.2]))).toFinset ⊆ insert t0 (times g).toFinset := by
        intro t ht
        rw [List.mem_toFinset] at ht
        rw [Finset.mem_insert, List.mem_toFinset]
        exact times_add ht
      have := (Finset.card_le_card this).trans (Finset.card_insert_le _ _)
      simp only [List.length_cons]
      omega
  obtain ⟨g, h1, h2, h3⟩ := key cands.zipIdx [] (by
    rintro ⟨c, i⟩ hx
    have := List.mem_zipIdx_iff_getElem?.1 hx
    simpa using this) (by intro x hx; simp at hx)
  refine ⟨g, h1, h2, ?_⟩
  simpa [times] using h3

theorem mem_dropEqual (cheaper : List ℕ → List ℕ → Bool) : ∀ (ys : List Elem) (x z : Elem), z ∈ dropEqual cheaper x ys → z = x ∨ z ∈ ys := by
  intro ys
  induction ys with
  | nil => intro x z h; simpa [dropEqual] using h
  | cons y ys ih =>
    intro x z h
    rw [dropEqual] at h
    split at h
    · split at h
      · rcases ih y z h with h | h
        · exact Or.inr (by simp [h])
        · exact Or.inr (List.mem_cons_of_mem _ h)
      · rcases ih x z h with h | h
        · exact Or.inl h
        · exact Or.inr (List.mem_cons_of_mem _ h)
    · rcases List.mem_cons.1 h with h | h
      · exact Or.inl h
      · rcases ih y z h with h | h
        · exact Or.inr (by simp [h])
        · exact Or.inr (List.mem_cons_of_mem _ h)

theorem dropEqual_sorted (cheaper : List ℕ → List ℕ → Bool) : ∀ (ys : List Elem) (x : Elem), (x :: ys).Pairwise (fun a b => a.1 ≤ b.1) →
    (dropEqual cheaper x ys).Pairwise (fun a b => a.1 < b.1) ∧ ∀ z ∈ dropEqual cheaper x ys, x.1 ≤ z.1 := by
  intro ys
  induction ys with
  | nil => intro x _; simp [dropEqual]
  | cons y ys ih =>
    intro x h
    rw [List.pairwise_cons] at h
    have hxy := h.1 y List.mem_cons_self
    rw [dropEqual]
    split
    · rename_i heq
      split
      · obtain ⟨a, b⟩ := ih y h.2
        exact ⟨a, fun z hz => heq ▸ b z hz⟩
      · apply ih
        rw [List.pairwise_cons] at h ⊢
        exact ⟨fun z hz => h.1 z (List.mem_cons_of_mem _ hz), h.2.2⟩
    · rename_i hne
      obtain ⟨a, b⟩ := ih y h.2
      refine ⟨List.pairwise_cons.2 ⟨fun z hz => lt_of_lt_of_le (lt_of_le_of_ne hxy (fun e => hne e.symm)) (b z hz), a⟩, ?_⟩
      intro z hz
      rcases List.mem_cons.1 hz with rfl | hz
      · exact le_refl _
      · exact hxy.trans (b z hz)

theorem mem_sortElems {env : Env} {u : List Elem} {z : Elem} (h : z ∈ sortElems env u) : z ∈ u := by
  unfold sortElems at h
  split at h
  · simp at h
  · rename_i x xs hs
    have : z ∈ u.insertionSort elemLE := by
      rw [hs]
      rcases mem_dropEqual _ _ _ _ h with h | h
      · simp [h]
      · exact List.mem_cons_of_mem _ h
    exact (List.perm_insertionSort elemLE u).mem_iff.1 this

theorem sortElems_sorted (env : Env) (u : List Elem) : (sortElems env u).Pairwise (fun a b => a.1 < b.1) := by
  unfold sortElems
  split
  · simp
  · rename_i x xs hs
    have : Std.Total elemLE := ⟨fun a b => by
      unfold elemLE
      rcases lt_trichotomy a.1 b.1 with h | h | h
      · exact Or.inl (Or.inl h)
      · rcases List.le_total a.2 b.2 with h' | h'
        · exact Or.inl (Or.inr ⟨h, h'⟩)
        · exact Or.inr (Or.inr ⟨h.symm, h'⟩)
      · exact Or.inr (Or.inl h)⟩
    have : IsTrans Elem elemLE := ⟨fun a b c h1 h2 => by
      unfold elemLE at *
      rcases h1 with h1 | ⟨h1, h1'⟩ <;> rcases h2 with h2 | ⟨h2, h2'⟩
      · exact Or.inl (h1.trans h2)
      · exact Or.inl (h2 ▸ h1)
      · exact Or.inl (h1 ▸ h2)
      · exact Or.inr ⟨h1.trans h2, List.le_trans h1' h2'⟩⟩
    have h := List.pairwise_insertionSort elemLE u
    rw [hs] at h
    refine (dropEqual_sorted env.cheaper xs x (h.imp ?_)).1
    intro a b hab
    rcases hab with h | h
    · exact le_of_lt h
    · exact le_of_eq h.1

/-- Nesting some elements of a group. -/
theorem good_nest {I : List (ℤ × ℕ) → Elem → Prop} {cands : List (Cand α)} (F : Forest α) (hF : ∀ c ∈ cands, c.ch = F) {key : List Char} {elems : List Elem} (he : ∀ e ∈ elems, Good I cands key e)
    (pos : List ℕ) (hb : ∀ k ∈ pos, k < elems.length) (h1 : pos ≠ []) (p t0 : ℤ) (n : ℕ) (hn : n = pos.length)
    (hstep : ∀ outer kids, (∀ e ∈ elems, I outer e) → combKids elems pos = some kids → I ((p, n) :: outer) (t0, kids)) :
    ∃ kids, combKids elems pos = some kids ∧ Good I cands (nestKey p key n) (t0, kids) := by
  subst hn
  obtain ⟨kss, hks⟩ : ∃ kss, pos.mapM (fun cc => (elems[cc]?).map Prod.snd) = some kss := by
    apply mapM_ex
    intro k hk
    exact ⟨elems[k]'(hb k hk) |>.2, by simp [hb k hk]⟩
  refine ⟨kss.flatten, by rw [combKids, hks]; rfl, ?_⟩
  -- the group of the first element
  obtain ⟨k0, hk0⟩ := List.exists_mem_of_ne_nil _ h1
  obtain ⟨outer, T, hpos, hkey, hlen, hkids, -⟩ := he _ (List.getElem_mem (hb k0 hk0))
  have hTne : ∀ T' : PTree.Tree α, ∀ outer' : List (ℤ × ℕ), (∀ x ∈ outer', 1 ≤ x.2) → ∀ kids : List ℕ, kids.length = copies outer' → (∀ i ∈ kids, ∃ c, cands[i]? = some c ∧ c.tree = T') →
      ∃ r p, T' = .node r p F := by
    intro T' outer' hp kids hl hk
    obtain ⟨i, hi⟩ := List.exists_mem_of_ne_nil _ (copies_ne hp hl)
    obtain ⟨c, hc, rfl⟩ := hk i hi
    exact ⟨c.r, c.p, by rw [Cand.tree, hF c (List.mem_of_getElem? hc)]⟩
  obtain ⟨r, q, hT⟩ := hTne T outer hpos _ hlen hkids
  have hne : ∀ (r' : ℕ) (q' : ℤ) (l : List ℤ) (l' : List ℕ), l ++ cyclePs (.node r' q' F) ≠ [] ∧ l' ++ cycleRs (.node r' q' F) ≠ [] := by
    intro r' q' l l'
    simp [cyclePs, cycleRs]
  -- all the elements have the same outer cycles and the same tree
  have hall : ∀ k, ∀ hk : k < elems.length, (elems[k]).2.length = copies outer ∧ (∀ i ∈ (elems[k]).2, ∃ c, cands[i]? = some c ∧ c.tree = T) ∧ I outer elems[k] := by
    intro k hk'
    obtain ⟨outer', T', hpos', hkey', hlen', hkids', hI'⟩ := he _ (List.getElem_mem hk')
    obtain ⟨r', q', hT'⟩ := hTne T' outer' hpos' _ hlen' hkids'
    rw [hkey, hT, hT'] at hkey'
    obtain ⟨e1, e2⟩ := keyText_inj (hne r q _ (outer.map Prod.snd)).1 (hne r q (outer.map Prod.fst) _).2 (hne r' q' _ (outer'.map Prod.snd)).1
      (hne r' q' (outer'.map Prod.fst) _).2 hkey'
    have hl : outer.length = outer'.length := by
      have := congrArg List.length e1
      simp [cyclePs] at this
      exact this
    obtain ⟨e1a, e1b⟩ := List.append_inj e1 (by simpa using hl)
    obtain ⟨e2a, e2b⟩ := List.append_inj e2 (by simpa using hl)
    have ho : outer = outer' := by
      apply List.ext_getElem hl
      intro i h1 h2
      have a := congrArg (fun l => l[i]?) e1a
      have b := congrArg (fun l => l[i]?) e2a
      simp [h1, h2] at a b
      exact Prod.ext a b
    have hTT : T = T' := by
      rw [hT, hT']
      simp [cyclePs] at e1b
      simp [cycleRs] at e2b
      rw [e1b, e2b]
    rw [ho, hTT]
    exact ⟨hlen', hkids', hI'⟩
  refine ⟨(p, pos.length) :: outer, T, ?_, ?_, ?_, ?_, hstep outer _ (fun e he => by obtain ⟨k, hk, rfl⟩ := List.mem_iff_getElem.1 he; exact (hall k hk).2.2) (by rw [combKids, hks]; rfl)⟩
  · intro x hx
    rcases List.mem_cons.1 hx with rfl | hx
    · exact List.length_pos_iff.2 h1
    · exact hpos x hx
  · rw [hkey, hT, nestKey_text _ _ _ _ (hne r q _ (outer.map Prod.snd)).1 (hne r q (outer.map Prod.fst) _).2]
    rfl
  · rw [copies_cons]
    simp only [List.length_flatten]
    have : kss.map List.length = kss.map (fun _ => copies outer) := by
      apply List.map_congr_left
      intro l hl
      obtain ⟨k, hk, h⟩ := mapM_mem hks hl
      have hk' := hb k hk
      simp only [List.getElem?_eq_getElem hk', Option.map_some, Option.some.injEq] at h
      rw [← h]
      exact (hall k hk').1
    rw [this, (mapM_get hks).1]
    simp
  · intro i hi
    simp only [List.mem_flatten] at hi
    obtain ⟨l, hl, hi⟩ := hi
    obtain ⟨k, hk, h⟩ := mapM_mem hks hl
    have hk' := hb k hk
    simp only [List.getElem?_eq_getElem hk', Option.map_some, Option.some.injEq] at h
    rw [← h] at hi
    exact (hall k hk').2.1 i hi

theorem newElems_spec {I : List (ℤ × ℕ) → Elem → Prop} {cands : List (Cand α)} (F : Forest α) (hF : ∀ c ∈ cands, c.ch = F) (env : Env) (henv : EnvOk env) (hI : Kept env cands I) (lvl : ℕ) (key : List Char) (u : List Elem)
    (hu : ∀ e ∈ u, Good I cands key e) :
    ∃ new taken, newElems env lvl key u = some (new, taken) ∧ (∀ x ∈ new, Good I cands x.1 x.2) ∧
      ∀ x ∈ new, (∃ e ∈ u, x.2.1 = e.1) ∧ ∃ e ∈ u, x.2.1 < e.1 := by
  unfold newElems
  split
  · exact ⟨[], [], rfl, by simp, by simp⟩
  · obtain ⟨elems, hel⟩ : ∃ elems, elems = sortElems env u := ⟨_, rfl⟩
    have hmem : ∀ e ∈ elems, e ∈ u := by intro e he; rw [hel] at he; exact mem_sortElems he
    have hsort : elems.Pairwise (fun a b => a.1 < b.1) := by rw [hel]; exact sortElems_sorted env u
    have hgood : ∀ e ∈ elems, Good I cands key e := fun e he => hu e (hmem e he)
    simp only [← hel]
    have h1 : ∀ t ∈ env.triples lvl key (elems.map Prod.fst), ∃ kids e, combKids elems t.2 = some kids ∧ (t.2.head?).bind (fun k => elems[k]?) = some e ∧
        Good I cands (nestKey t.1 key t.2.length) (e.1, kids) ∧ e ∈ u ∧ ∃ e' ∈ u, e.1 < e'.1 := by
      intro t ht
      obtain ⟨a, b, c⟩ := henv.triples lvl key _ (List.pairwise_map.2 hsort) t ht
      have b : ∀ k ∈ t.2, k < elems.length := by simpa using b
      match htt : t.2, a with
      | i :: j :: rest, _ =>
        rw [htt] at b c
        have hi := b i (by simp)
        have hj := b j (by simp)
        obtain ⟨kids, hk1, hk2⟩ := good_nest F hF hgood t.2 (by rw [htt]; exact b) (by rw [htt]; simp) t.1 (elems[i]).1 t.2.length rfl (fun outer kids ho hc =>
          hI.step outer elems t.2 t.1 _ kids ho hsort a (by rw [htt]; exact b) (by rw [htt]; exact c) hc ⟨_, List.getElem_mem hi, rfl⟩
            ⟨elems[j], List.getElem_mem hj, List.pairwise_iff_getElem.1 hsort i j hi hj ((List.pairwise_cons.1 c).1 j (by simp))⟩ (Or.inl ⟨lvl, key, ht⟩))
        rw [htt] at hk1 hk2
        refine ⟨kids, elems[i], hk1, by simp [hi], hk2, hmem _ (List.getElem_mem hi), elems[j], hmem _ (List.getElem_mem hj), ?_⟩
        exact List.pairwise_iff_getElem.1 hsort i j hi hj ((List.pairwise_cons.1 c).1 j (by simp))
    have h2 : ∀ c ∈ env.chains lvl key (elems.map Prod.fst), ∃ kids t0, combKids elems c.2 = some kids ∧ c.1.head? = some t0 ∧
        Good I cands (nestKey (env.period c.1) key c.1.length) (t0, kids) ∧ (∃ e ∈ u, t0 = e.1) ∧ ∃ e ∈ u, t0 < e.1 := by
      intro c hc
      obtain ⟨a, b, hl, hs, hinc⟩ := henv.chains lvl key _ (List.pairwise_map.2 hsort) c hc
      have b : ∀ k ∈ c.2, k < elems.length := by simpa using b
      have hne : c.2 ≠ [] := by intro h; rw [h] at a; simp at a
      match hcc : c.1, (by omega : 3 ≤ c.1.length) with
      | t0 :: t1 :: rest, _ =>
        have hts : (elems.map Prod.fst).Pairwise (· < ·) := List.pairwise_map.2 hsort
        have hs0 := hs
        rw [hcc] at hs
        have hlt := (List.pairwise_cons.1 (hts.sublist hs)).1 t1 (by simp)
        have m0 := hs.subset (show t0 ∈ t0 :: t1 :: rest by simp)
        have m1 := hs.subset (show t1 ∈ t0 :: t1 :: rest by simp)
        obtain ⟨e0, he0, rfl⟩ := List.mem_map.1 m0
        obtain ⟨e1, he1, rfl⟩ := List.mem_map.1 m1
        obtain ⟨kids, hk1, hk2⟩ := good_nest F hF hgood c.2 b hne (env.period c.1) e0.1 c.1.length hl (fun outer kids ho hc =>
          hl ▸ hI.step outer elems c.2 _ _ kids ho hsort a b hinc hc ⟨e0, he0, rfl⟩ ⟨e1, he1, hlt⟩ (Or.inr ⟨c.1, hs0, by omega, rfl⟩))
        rw [hcc] at hk2
        exact ⟨kids, e0.1, hk1, rfl, hk2, ⟨e0, hmem _ he0, rfl⟩, e1, hmem _ he1, hlt⟩
    obtain ⟨A, hA⟩ : ∃ A, (env.triples lvl key (elems.map Prod.fst)).mapM (tripleElem key elems) = some A := by
      apply mapM_ex
      intro t ht
      obtain ⟨kids, e, a, b, -⟩ := h1 t ht
      exact ⟨(nestKey t.1 key t.2.length, (e.1, kids)), by rw [tripleElem, a, b]⟩
    obtain ⟨B, hB⟩ : ∃ B, (env.chains lvl key (elems.map Prod.fst)).mapM (chainElem env key elems) = some B := by
      apply mapM_ex
      intro c hc
      obtain ⟨kids, t0, a, b, -⟩ := h2 c hc
      exact ⟨(nestKey (env.period c.1) key c.1.length, (t0, kids)), by rw [chainElem, a, b]⟩
    have hmemA : ∀ x ∈ A, Good I cands x.1 x.2 ∧ (∃ e ∈ u, x.2.1 = e.1) ∧ ∃ e ∈ u, x.2.1 < e.1 := by
      intro x hx
      obtain ⟨t, ht, h⟩ := mapM_mem hA hx
      obtain ⟨kids, e, a, b, hg, he, e', he', hlt⟩ := h1 t ht
      rw [tripleElem, a, b] at h
      simp only [Option.some.injEq] at h
      subst h
      exact ⟨hg, ⟨e, he, rfl⟩, e', he', hlt⟩
    have hmemB : ∀ x ∈ B, Good I cands x.1 x.2 ∧ (∃ e ∈ u, x.2.1 = e.1) ∧ ∃ e ∈ u, x.2.1 < e.1 := by
      intro x hx
      obtain ⟨c, hc, h⟩ := mapM_mem hB hx
      obtain ⟨kids, t0, a, b, hg, he, hlt⟩ := h2 c hc
      rw [chainElem, a, b] at h
      simp only [Option.some.injEq] at h
      subst h
      exact ⟨hg, he, hlt⟩
    rw [hA, hB]
    refine ⟨_, _, rfl, ?_, ?_⟩
    · intro x hx
      rcases List.mem_append.1 hx with hx | hx
      · exact (hmemA x hx).1
      · exact (hmemB x hx).1
    · intro x hx
      rcases List.mem_append.1 hx with hx | hx
      · exact (hmemA x hx).2
      · exact (hmemB x hx).2

/-- Entries of `keep`. -/
def GoodK (I : List (ℤ × ℕ) → Elem → Prop) (cands : List (Cand α)) (keep : List (ℤ × List Char × ℤ × List ℕ)) : Prop := ∀ x ∈ keep, Good I cands x.2.1 x.2.2

theorem parse_good {I : List (ℤ × ℕ) → Elem → Prop} {cands : List (Cand α)} {key : List Char} {e : Elem} (h : Good I cands key e) : ∃ s, keySize key = some s := by
  obtain ⟨outer, T, hpos, rfl, hlen, hk, -⟩ := h
  obtain ⟨i, hi⟩ := List.exists_mem_of_ne_nil _ (copies_ne hpos hlen)
  obtain ⟨c, -, rfl⟩ := hk i hi
  unfold keySize
  rw [parseKey_text _ _ (by simp [Cand.tree, cyclePs]) (by simp [Cand.tree, cycleRs])]
  exact ⟨_, rfl⟩

theorem pass_spec {I : List (ℤ × ℕ) → Elem → Prop} {cands : List (Cand α)} (F : Forest α) (hF : ∀ c ∈ cands, c.ch = F) (env : Env) (henv : EnvOk env) (hI : Kept env cands I) (lvl : ℕ) :
    ∀ (gs next : Groups) (keep : List (ℤ × List Char × ℤ × List ℕ)), GoodG I cands gs → GoodG I cands next → GoodK I cands keep →
      ∃ next' keep', passGroups env lvl gs next keep = some (next', keep') ∧ GoodG I cands next' ∧ GoodK I cands keep' ∧
        ∀ t ∈ times next', t ∈ times next ∨ (t ∈ times gs ∧ ∃ t' ∈ times gs, t < t') := by
  intro gs
  induction gs with
  | nil => intro next keep _ hn hk; exact ⟨next, keep, rfl, hn, hk, fun t ht => Or.inl ht⟩
  | cons x rest ih =>
    obtain ⟨key, u⟩ := x
    intro next keep hg hn hk
    have hu := (hg (key, u) List.mem_cons_self)
    obtain ⟨new, taken, h1, h2, h3⟩ := newElems_spec F hF env henv hI lvl key u hu.2
    obtain ⟨s, hs⟩ : ∃ s, keySize key = some s := by
      obtain ⟨e, he⟩ := List.exists_mem_of_ne_nil _ hu.1
      exact parse_good (hu.2 e he)
    have hfold : ∀ (l : List (List Char × Elem)) (g : Groups), (∀ x ∈ l, Good I cands x.1 x.2) → GoodG I cands g →
        GoodG I cands (l.foldl (fun g x => addElem g x.1 x.2) g) ∧
          ∀ t ∈ times (l.foldl (fun g x => addElem g x.1 x.2) g), t ∈ times g ∨ ∃ x ∈ l, t = x.2.1 := by
      intro l
      induction l with
      | nil => intro g _ hg; exact ⟨hg, fun t ht => Or.inl ht⟩
      | cons a l ih =>
        intro g ha hg
        obtain ⟨b, c⟩ := ih (addElem g a.1 a.2) (fun x hx => ha x (List.mem_cons_of_mem _ hx)) (goodG_add hg (ha a List.mem_cons_self))
        refine ⟨b, fun t ht => ?_⟩
        rcases c t ht with h | ⟨x, hx, h⟩
        · rcases times_add h with h | h
          · exact Or.inr ⟨a, List.mem_cons_self, h⟩
          · exact Or.inl h
        · exact Or.inr ⟨x, List.mem_cons_of_mem _ hx, h⟩
    obtain ⟨f1, f2⟩ := hfold new next h2 hn
    have hkept : GoodK I cands ((u.zipIdx.filter (fun x => x.2 ∉ taken)).map (fun x => (s, key, x.1.1, x.1.2))) := by
      intro y hy
      obtain ⟨z, hz, rfl⟩ := List.mem_map.1 hy
      have hz := (List.mem_filter.1 hz).1
      have := List.mem_zipIdx_iff_getElem?.1 hz
      exact hu.2 z.1 (List.mem_of_getElem? this)
    obtain ⟨next', keep', g1, g2, g3, g4⟩ := ih _ (keep ++ (u.zipIdx.filter (fun x => x.2 ∉ taken)).map (fun x => (s, key, x.1.1, x.1.2)))
      (fun y hy => hg y (List.mem_cons_of_mem _ hy)) f1 (fun y hy => by
        rcases List.mem_append.1 hy with hy | hy
        · exact hk y hy
        · exact hkept y hy)
    refine ⟨next', keep', ?_, g2, g3, ?_⟩
    · rw [passGroups, h1]
      simp only [kept, hs, Option.map_some]
      exact g1
    · intro t ht
      have hsub : ∀ e ∈ u, e.1 ∈ times ((key, u) :: rest) := by
        intro e he
        exact List.mem_flatMap.2 ⟨(key, u), List.mem_cons_self, List.mem_map_of_mem he⟩
      have hsub' : ∀ t ∈ times rest, t ∈ times ((key, u) :: rest) := by
        intro t ht
        simp only [times, List.flatMap_cons, List.mem_append] at ht ⊢
        exact Or.inr ht
      rcases g4 t ht with h | ⟨h, t', ht', hlt⟩
      · rcases f2 t h with h | ⟨x, hx, rfl⟩
        · exact Or.inl h
        · obtain ⟨⟨e, he, h⟩, e', he', hlt⟩ := h3 x hx
          exact Or.inr ⟨h ▸ hsub e he, e'.1, hsub e' he', hlt⟩
      · exact Or.inr ⟨hsub' t h, t', hsub' t' ht', hlt⟩

theorem levels_spec {I : List (ℤ × ℕ) → Elem → Prop} {cands : List (Cand α)} (F : Forest α) (hF : ∀ c ∈ cands, c.ch = F) (env : Env) (henv : EnvOk env) (hI : Kept env cands I) :
    ∀ (fuel lvl : ℕ) (g : Groups) (keep : List (ℤ × List Char × ℤ × List ℕ)), GoodG I cands g → GoodK I cands keep → (times g).toFinset.card ≤ fuel →
      ∃ keep', levels env fuel lvl g keep = .ok keep' ∧ GoodK I cands keep' := by
  intro fuel
  induction fuel with
  | zero =>
    intro lvl g keep hg hk hc
    cases g with
    | nil => exact ⟨keep, rfl, hk⟩
    | cons x rest =>
      exfalso
      obtain ⟨e, he⟩ := List.exists_mem_of_ne_nil _ (hg x List.mem_cons_self).1
      have : e.1 ∈ (times (x :: rest)).toFinset := by
        rw [List.mem_toFinset]
        exact List.mem_flatMap.2 ⟨x, List.mem_cons_self, List.mem_map_of_mem he⟩
      have := Finset.card_pos.2 ⟨_, this⟩
      omega
  | succ n ih =>
    intro lvl g keep hg hk hc
    cases g with
    | nil => exact ⟨keep, by rw [levels], hk⟩
    | cons x rest =>
      obtain ⟨next, keep', h1, h2, h3, h4⟩ := pass_spec F hF env henv hI lvl (x :: rest) [] keep hg (by intro y hy; simp at hy) hk
      obtain ⟨e, he⟩ := List.exists_mem_of_ne_nil _ (hg x List.mem_cons_self).1
      have hne : (times (x :: rest)).toFinset.Nonempty := ⟨e.1, by
        rw [List.mem_toFinset]
        exact List.mem_flatMap.2 ⟨x, List.mem_cons_self, List.mem_map_of_mem he⟩⟩
      have hlt : (times next).toFinset ⊂ (times (x :: rest)).toFinset := by
        rw [Finset.ssubset_iff_of_subset]
        · refine ⟨(times (x :: rest)).toFinset.max' hne, Finset.max'_mem _ _, fun hin => ?_⟩
          rw [List.mem_toFinset] at hin
          rcases h4 _ hin with h | ⟨-, t', ht', hlt⟩
          · simp [times] at h
          · have := Finset.le_max' _ t' (List.mem_toFinset.2 ht')
            omega
        · intro t ht
          rw [List.mem_toFinset] at ht ⊢
          rcases h4 _ ht with h | ⟨h, -⟩
          · simp [times] at h
          · exact h
      have := Finset.card_lt_card hlt
      obtain ⟨keep'', k1, k2⟩ := ih (lvl + 1) next keep' h2 h3 (by omega)
      exact ⟨keep'', by rw [levels, h1]; exact k1, k2⟩

theorem select_spec {I : List (ℤ × ℕ) → Elem → Prop} (cands : List (Cand α)) (hd : ∀ c ∈ cands, Shape c) : ∀ (keep : List (ℤ × List Char × ℤ × List ℕ)) (cov : Finset ℕ) (prev : ℤ), GoodK I cands keep →
    ∃ r cov', selectNested cands keep cov prev = some (r, cov') ∧ cov ⊆ cov' ∧ (∀ i ∈ cov', i ∈ cov ∨ i < cands.length) ∧
      ∀ c ∈ r, Shape c ∧ ∃ idxs cs, idxs ≠ [] ∧ idxs.mapM (fun i => cands[i]?) = some cs ∧ ((∀ c ∈ cs, Describes c) → Describes c) ∧
        c.O = cs.flatMap (fun c => c.O) ∧ c.events = cs.flatMap (fun c => c.events) ∧ (∀ i ∈ idxs, i ∈ cov') ∧
        ∃ outer T t, (∀ x ∈ outer, 1 ≤ x.2) ∧ c.tree = nestT T outer ∧ (∀ x ∈ cs, x.tree = T) ∧ cs.length = copies outer ∧ I outer (t, idxs) := by
  intro keep
  induction keep with
  | nil => intro cov prev _; exact ⟨[], cov, rfl, Finset.Subset.refl _, fun i hi => Or.inl hi, by simp⟩
  | cons x rest ih =>
    intro cov prev hk
    have hk' : GoodK I cands rest := fun y hy => hk y (List.mem_cons_of_mem _ hy)
    rw [selectNested]
    split
    · obtain ⟨r, cov', h1, h2, h3, h4⟩ := ih (cov ∪ x.2.2.2.toFinset) x.1 hk'
      obtain ⟨c, cs, p1, p2, p3, p3', p4, p5, outer, T, p6, p7, p8, p9, p10⟩ := prepare_spec cands hd x.2.1 x.2.2 (hk x List.mem_cons_self)
      have hidx : ∀ i ∈ x.2.2.2, i < cands.length := by
        intro i hi
        obtain ⟨_, _, _, _, _, h, _⟩ := hk x List.mem_cons_self
        obtain ⟨c, hc, -⟩ := h i hi
        exact (List.getElem?_eq_some_iff.1 hc).1
      have hne : x.2.2.2 ≠ [] := by
        obtain ⟨outer, _, hpos, _, hl, _⟩ := hk x List.mem_cons_self
        exact copies_ne hpos hl
      rw [p1, h1]
      refine ⟨c :: r, cov', rfl, Finset.union_subset_left h2, ?_, ?_⟩
      · intro i hi
        rcases h3 i hi with h | h
        · rcases Finset.mem_union.1 h with h | h
          · exact Or.inl h
          · exact Or.inr (hidx i (List.mem_toFinset.1 h))
        · exact Or.inr h
      · intro c' hc'
        rcases List.mem_cons.1 hc' with rfl | hc'
        · exact ⟨p3, _, cs, hne, p2, p3', p4, p5, fun i hi => h2 (Finset.mem_union_right _ (List.mem_toFinset.2 hi)), outer, T, _, p6, p7, p8, p9, p10⟩
        · exact h4 c' hc'
    · exact ih cov prev hk'

/-! ### The theorem -/

/-- Nesting candidates of the right shape which have the same children under the root terminates without exception in at most as many rounds as there are candidates. Every new candidate has the right
shape; its occurrences and its events are those of some of the given candidates, one after the other; it describes its occurrences if these do; its tree is the common tree of these candidates under the
outer cycles, and what is kept by the search holds. -/
theorem nest_kept (cands : List (Cand α)) (hd : ∀ c ∈ cands, Shape c) (F : Forest α) (hF : ∀ c ∈ cands, c.ch = F) (env : Env) (henv : EnvOk env)
    (I : List (ℤ × ℕ) → Elem → Prop) (hI : Kept env cands I) (fuel : ℕ) (hfuel : cands.length ≤ fuel) :
    ∃ r cov, nestCmplx fuel env cands = .ok (r, cov) ∧ (∀ i ∈ cov, i < cands.length) ∧
      ∀ c ∈ r, Shape c ∧ ∃ idxs cs, idxs ≠ [] ∧ idxs.mapM (fun i => cands[i]?) = some cs ∧ ((∀ c ∈ cs, Describes c) → Describes c) ∧
        c.O = cs.flatMap (fun c => c.O) ∧ c.events = cs.flatMap (fun c => c.events) ∧ (∀ i ∈ idxs, i ∈ cov) ∧
        ∃ outer T t, (∀ x ∈ outer, 1 ≤ x.2) ∧ c.tree = nestT T outer ∧ (∀ x ∈ cs, x.tree = T) ∧ cs.length = copies outer ∧ I outer (t, idxs) := by
  obtain ⟨g, h1, h2, h3⟩ := init_spec cands hd hI.init
  obtain ⟨keep, k1, k2⟩ := levels_spec F hF env henv hI fuel 0 g [] h2 (by intro x hx; simp at hx) (h3.trans hfuel)
  obtain ⟨r, cov, s1, -, s3, s4⟩ := select_spec cands hd (env.order keep).reverse ∅ (-1) (fun x hx =>
    k2 x ((henv.order keep).mem_iff.1 (List.mem_reverse.1 hx)))
  refine ⟨r, cov, ?_, fun i hi => ?_, s4⟩
  · unfold nestCmplx
    simp only [h1, k1, s1]
  · rcases s3 i hi with h | h
    · simp at h
    · exact h

/-- Nesting candidates of the right shape which have the same children under the root terminates without exception in at most as many rounds as there are candidates. Every new candidate has the right
shape; its occurrences and its events are those of some of the given candidates, one after the other; it describes its occurrences if these do. -/
theorem nest_shape (cands : List (Cand α)) (hd : ∀ c ∈ cands, Shape c) (F : Forest α) (hF : ∀ c ∈ cands, c.ch = F) (env : Env) (henv : EnvOk env)
    (fuel : ℕ) (hfuel : cands.length ≤ fuel) :
    ∃ r cov, nestCmplx fuel env cands = .ok (r, cov) ∧ (∀ i ∈ cov, i < cands.length) ∧
      ∀ c ∈ r, Shape c ∧ ∃ idxs cs, idxs ≠ [] ∧ idxs.mapM (fun i => cands[i]?) = some cs ∧ ((∀ c ∈ cs, Describes c) → Describes c) ∧
        c.O = cs.flatMap (fun c => c.O) ∧ c.events = cs.flatMap (fun c => c.events) ∧ ∀ i ∈ idxs, i ∈ cov := by
  obtain ⟨r, cov, h1, h2, h3⟩ := nest_kept cands hd F hF env henv (fun _ _ => True) ⟨fun _ _ _ _ _ => trivial, fun _ _ _ _ _ _ _ _ _ _ _ _ _ _ _ => trivial⟩ fuel hfuel
  refine ⟨r, cov, h1, h2, fun c hc => ?_⟩
  obtain ⟨k0, idxs, cs, k1, k2, k3, k4, k5, k6, -⟩ := h3 c hc
  exact ⟨k0, idxs, cs, k1, k2, k3, k4, k5, k6⟩

/-- C62. On candidates which describe their occurrences and have the same children under the root (same minor key, C64), nesting terminates without exception in at most as many rounds as there are
candidates, and every new candidate describes its own occurrences; these, and its events, are those of some of the given candidates, one after the other; these candidates are reported as
covered, and only existing candidates are. -/
theorem nest_describes (cands : List (Cand α)) (hd : ∀ c ∈ cands, Describes c) (F : Forest α) (hF : ∀ c ∈ cands, c.ch = F) (env : Env) (henv : EnvOk env)
    (fuel : ℕ) (hfuel : cands.length ≤ fuel) :
    ∃ r cov, nestCmplx fuel env cands = .ok (r, cov) ∧ (∀ i ∈ cov, i < cands.length) ∧
      ∀ c ∈ r, Describes c ∧ ∃ idxs cs, idxs ≠ [] ∧ idxs.mapM (fun i => cands[i]?) = some cs ∧ c.O = cs.flatMap (fun c => c.O) ∧ c.events = cs.flatMap (fun c => c.events) ∧
        ∀ i ∈ idxs, i ∈ cov := by
  obtain ⟨r, cov, h1, h2, h3⟩ := nest_shape cands (fun c hc => (hd c hc).shape) F hF env henv fuel hfuel
  refine ⟨r, cov, h1, h2, fun c hc => ?_⟩
  obtain ⟨-, idxs, cs, k1, k2, k3, k4, k5, k6⟩ := h3 c hc
  refine ⟨k3 (fun c' hc' => ?_), idxs, cs, k1, k2, k4, k5, k6⟩
  obtain ⟨i, -, hi⟩ := mapM_mem k2 hc'
  exact hd c' (List.mem_of_getElem? hi)

/-! ### A concrete case -/

/-- A cycle of three events from `t` on, with period 1. -/
def exC (t : ℤ) : Cand ℕ := ⟨3, 1, .cons 0 (.leaf 7) .nil, [t, t + 1, t + 2], [0, 0]⟩

/-- Start times of cycles. -/
def exT : List ℤ := [40, 50, 100, 110, 160, 161, 1050, 1100, 1150, 2050, 2100, 2150]

/-- The triples found: 50, 100, 160 and 40, 110, 161 and 1050, 1100, 1150 and 2050, 2100, 2150, then 50, 1050, 2050. -/
def exEnv : Env where
  cheaper _ _ := false
  triples lvl _ ts := if lvl = 0 ∧ ts.length = 12 then [(50, [1, 2, 4]), (50, [0, 3, 5]), (50, [6, 7, 8]), (50, [9, 10, 11])]
    else if lvl = 1 ∧ ts.length = 4 then [(1000, [1, 2, 3])] else []
  chains _ _ _ := []
  period _ := 0
  order l := l

theorem exC_describes (t : ℤ) : Describes (exC t) := by
  refine ⟨by simp [exC, Cand.tree, Tree.Regular, Forest.Regular, Forest.NonEmpty, Forest.firstDist], rfl, rfl, t, rfl, ?_⟩
  have := getOccs_iff (exC t).tree (by simp [exC, Cand.tree, Tree.Regular, Forest.Regular, Forest.NonEmpty, Forest.firstDist]) t [t + 1, t + 2] [0, 0] rfl rfl
  refine this.2 ?_
  simp [exC, Cand.tree, corrT, corrF, nbOccs, nbOccsF, List.range_succ]

theorem exEnv_ok : EnvOk exEnv where
  triples lvl key ts _ t ht := by
    unfold exEnv at ht
    simp only at ht
    split at ht
    · rename_i h
      rw [h.2]
      have : ∀ t ∈ [((50 : ℤ), [1, 2, 4]), (50, [0, 3, 5]), (50, [6, 7, 8]), (50, [9, 10, 11])], 3 ≤ t.2.length ∧ (∀ k ∈ t.2, k < 12) ∧ t.2.Pairwise (· < ·) := by decide
      exact this t ht
    · split at ht
      · rename_i h
        rw [h.2]
        have : ∀ t ∈ [((1000 : ℤ), [1, 2, 3])], 3 ≤ t.2.length ∧ (∀ k ∈ t.2, k < 4) ∧ t.2.Pairwise (· < ·) := by decide
        exact this t ht
      · simp at ht
  chains lvl key ts _ c hc := by simp [exEnv] at hc
  order l := List.Perm.refl l

example : (∀ c ∈ exT.map exC, Describes c) ∧ (∀ c ∈ exT.map exC, c.ch = .cons 0 (.leaf 7) .nil) ∧ EnvOk exEnv ∧ (exT.map exC).length ≤ 12 := by
  refine ⟨?_, ?_, exEnv_ok, by decide⟩
  · intro c hc
    obtain ⟨t, -, rfl⟩ := List.mem_map.1 hc
    exact exC_describes t
  · intro c hc
    obtain ⟨t, -, rfl⟩ := List.mem_map.1 hc
    rfl

/-! ### What is lost -/

theorem sortElems_id (env : Env) (u : List Elem) (hu : u.Pairwise (fun a b => a.1 < b.1)) : sortElems env u = u := by
  have hle : u.Pairwise elemLE := hu.imp (fun h => Or.inl h)
  unfold sortElems
  rw [hle.insertionSort_eq]
  cases u with
  | nil => rfl
  | cons x xs =>
    simp only
    have : ∀ (ys : List Elem) (y : Elem), (y :: ys).Pairwise (fun a b => a.1 < b.1) → dropEqual env.cheaper y ys = y :: ys := by
      intro ys
      induction ys with
      | nil => intro y _; rfl
      | cons z zs ih =>
        intro y h
        rw [List.pairwise_cons] at h
        rw [dropEqual, if_neg (by have := h.1 z List.mem_cons_self; omega), ih z h.2]
    exact this xs x hu

/-- C63: in a group of three or more elements with increasing start times, every triple and every chain found by the search becomes an element, which starts with its first member and has the kids of all members in order. -/
theorem found_is_nested (env : Env) (lvl : ℕ) (key : List Char) (u : List Elem) (h3 : 3 ≤ u.length) (hu : u.Pairwise (fun a b => a.1 < b.1)) (new : List (List Char × Elem)) (taken : List ℕ)
    (hn : newElems env lvl key u = some (new, taken)) :
    (∀ t ∈ env.triples lvl key (u.map Prod.fst), ∃ x ∈ new, ∃ mem, t.2.mapM (fun k => u[k]?) = some mem ∧ some x.2.1 = mem.head?.map Prod.fst ∧ x.2.2 = mem.flatMap Prod.snd) ∧
    ∀ c ∈ env.chains lvl key (u.map Prod.fst), ∃ x ∈ new, ∃ mem, c.2.mapM (fun k => u[k]?) = some mem ∧ some x.2.1 = c.1.head? ∧ x.2.2 = mem.flatMap Prod.snd := by
  have hkids : ∀ pos kids, combKids u pos = some kids → ∃ mem, pos.mapM (fun k => u[k]?) = some mem ∧ kids = mem.flatMap Prod.snd := by
    intro pos kids h
    unfold combKids at h
    obtain ⟨ks, h1, rfl⟩ := Option.map_eq_some_iff.1 h
    obtain ⟨mem, hm⟩ := mapM_ex (fun k => u[k]?) pos (by
      intro k hk
      obtain ⟨i, hi, rfl⟩ := List.mem_iff_getElem.1 hk
      have := (mapM_get h1).2 i hi (by have := (mapM_get h1).1; omega)
      obtain ⟨y, hy, -⟩ := Option.map_eq_some_iff.1 this
      exact ⟨y, hy⟩)
    refine ⟨mem, hm, ?_⟩
    rw [Miner.mapM_iff] at hm h1
    have e1 : pos.map (fun cc => (u[cc]?).map Prod.snd) = (pos.map (fun k => u[k]?)).map (Option.map Prod.snd) := by rw [List.map_map]; rfl
    rw [e1, hm, List.map_map] at h1
    have : mem.map Prod.snd = ks := by
      apply List.map_injective_iff.2 (Option.some_injective _)
      rw [← h1, List.map_map]
      rfl
    rw [← this, List.flatMap_def]
  unfold newElems at hn
  rw [if_neg (by omega)] at hn
  simp only [sortElems_id env u hu] at hn
  split at hn
  · rename_i A B hA hB
    simp only [Option.some.injEq, Prod.mk.injEq] at hn
    obtain ⟨rfl, -⟩ := hn
    constructor
    · intro t ht
      obtain ⟨i, hi, rfl⟩ := List.mem_iff_getElem.1 ht
      have hl := (mapM_get hA).1
      have := (mapM_get hA).2 i hi (by omega)
      rw [tripleElem] at this
      split at this
      · rename_i kids e hc he
        simp only [Option.some.injEq] at this
        obtain ⟨mem, h1, h2⟩ := hkids _ _ hc
        refine ⟨A[i], List.mem_append_left _ (List.getElem_mem (by omega)), mem, h1, ?_, ?_⟩
        · rw [← this]
          cases hp : (env.triples lvl key (u.map Prod.fst))[i].2 with
          | nil => rw [hp] at he; simp at he
          | cons k ks =>
            rw [hp] at he h1
            have e2 := congrArg List.head? ((Miner.mapM_iff _ _ _).1 h1)
            simp only [List.map_cons, List.head?_cons, List.head?_map] at e2
            simp only [List.head?_cons, Option.bind_some] at he
            rw [he] at e2
            obtain ⟨y, hy, hye⟩ := Option.map_eq_some_iff.1 e2.symm
            rw [hy, Option.map_some, Option.some.inj hye]
        · rw [← this]; exact h2
      · cases this
    · intro c hc
      obtain ⟨i, hi, rfl⟩ := List.mem_iff_getElem.1 hc
      have hl := (mapM_get hB).1
      have := (mapM_get hB).2 i hi (by omega)
      rw [chainElem] at this
      split at this
      · rename_i kids t0 hc' ht
        simp only [Option.some.injEq] at this
        obtain ⟨mem, h1, h2⟩ := hkids _ _ hc'
        refine ⟨B[i], List.mem_append_right _ (List.getElem_mem (by omega)), mem, h1, ?_, ?_⟩
        · rw [← this]; exact ht.symm
        · rw [← this]; exact h2
      · cases this
  · cases hn

/-- C63, in part: when the elements of a group are met in the order of their start times, without equal start times, every element either stays or is nested in a new element. -/
theorem group_kept_partial (env : Env) (lvl : ℕ) (key : List Char) (u : List Elem) (hu : u.Pairwise (fun a b => a.1 < b.1)) (new : List (List Char × Elem)) (taken : List ℕ)
    (hn : newElems env lvl key u = some (new, taken)) (ks : List (ℤ × List Char × ℤ × List ℕ)) (hk : kept key u taken = some ks) (e : Elem) (he : e ∈ u) :
    (∃ s, (s, key, e) ∈ ks) ∨ ∃ x ∈ new, ∃ a b, x.2.2 = a ++ e.2 ++ b := by
  obtain ⟨k, hk1⟩ := List.mem_iff_getElem?.1 he
  obtain ⟨hkl, hke⟩ := List.getElem?_eq_some_iff.1 hk1
  unfold kept at hk
  obtain ⟨s, hs, rfl⟩ := Option.map_eq_some_iff.1 hk
  by_cases ht : k ∈ taken
  · right
    unfold newElems at hn
    split at hn
    · simp only [Option.some.injEq, Prod.mk.injEq] at hn
      rw [← hn.2] at ht
      simp at ht
    · have hel : sortElems env u = u := sortElems_id env u hu
      simp only [hel] at hn
      split at hn
      · rename_i A B hA hB
        simp only [Option.some.injEq, Prod.mk.injEq] at hn
        obtain ⟨rfl, rfl⟩ := hn
        have hcomb : ∀ pos kids, combKids u pos = some kids → k ∈ pos → ∃ a b, kids = a ++ e.2 ++ b := by
          intro pos kids hc hkp
          unfold combKids at hc
          obtain ⟨kss, h1, rfl⟩ := Option.map_eq_some_iff.1 hc
          obtain ⟨l1, l2, rfl⟩ := List.append_of_mem hkp
          have h1 := (Miner.mapM_iff _ _ _).1 h1
          obtain ⟨i, hi⟩ : ∃ i, i = l1.length := ⟨_, rfl⟩
          have h3 := congrArg (fun l => l[i]?) h1
          have h4 : (l1 ++ k :: l2)[i]? = some k := by simp [hi]
          simp only [List.getElem?_map, h4, Option.map_some, hk1] at h3
          obtain ⟨v, hv, hve⟩ := Option.map_eq_some_iff.1 h3.symm
          simp only [Option.some.injEq] at hve
          subst hve
          obtain ⟨m1, m2, hm⟩ := List.append_of_mem (List.mem_of_getElem? hv)
          rw [hm]
          exact ⟨m1.flatten, m2.flatten, by simp⟩
        rcases List.mem_append.1 ht with ht | ht
        · obtain ⟨t, htm, hkt⟩ := List.mem_flatMap.1 ht
          obtain ⟨i, hi, hti⟩ := List.mem_iff_getElem.1 htm
          have hl := (mapM_get hA).1
          have := (mapM_get hA).2 i hi (by omega)
          rw [hti, tripleElem] at this
          split at this
          · rename_i kids e' hc _
            simp only [Option.some.injEq] at this
            refine ⟨_, List.mem_append_left _ (List.getElem_mem (by omega : i < A.length)), ?_⟩
            rw [← this]
            exact hcomb _ _ hc hkt
          · cases this
        · obtain ⟨t, htm, hkt⟩ := List.mem_flatMap.1 ht
          obtain ⟨i, hi, hti⟩ := List.mem_iff_getElem.1 htm
          have hl := (mapM_get hB).1
          have := (mapM_get hB).2 i hi (by omega)
          rw [hti, chainElem] at this
          split at this
          · rename_i kids t0 hc _
            simp only [Option.some.injEq] at this
            refine ⟨_, List.mem_append_right _ (List.getElem_mem (by omega : i < B.length)), ?_⟩
            rw [← this]
            exact hcomb _ _ hc hkt
          · cases this
      · cases hn
  · left
    refine ⟨s, List.mem_map.2 ⟨(e, k), List.mem_filter.2 ⟨?_, by simpa using ht⟩, rfl⟩⟩
    rw [List.mem_zipIdx_iff_getElem?]
    simpa using hk1

example : ([(50, [1, 2, 4]), (1050, [6, 7, 8]), (2050, [9, 10, 11])] : List Elem).Pairwise (fun a b => a.1 < b.1) := by decide

set_option maxRecDepth 100000 in
/-- C63 fails in general: the search finds the cycle 40, 110, 161, which is part of no larger one and whose candidates are covered by no returned candidate, but it is not returned: its position in the
sorted list is confused with its position in the group. -/
theorem nest_loses : EnvOk exEnv ∧ (50, [0, 3, 5]) ∈ exEnv.triples 0 ['1', '_', '3'] exT ∧
    (∀ lvl key ts, ∀ t ∈ exEnv.triples (lvl + 1) key ts, 0 ∉ t.2) ∧
    ((nestCmplx 12 exEnv (exT.map exC)).toOption.map (fun x => (x.1.map (fun c => c.O), x.2))) =
      some ([[50, 51, 52, 100, 101, 102, 160, 161, 162, 1050, 1051, 1052, 1100, 1101, 1102, 1150, 1151, 1152, 2050, 2051, 2052, 2100, 2101, 2102, 2150, 2151, 2152]],
        {1, 2, 4, 6, 7, 8, 9, 10, 11}) := by
  refine ⟨exEnv_ok, by decide, ?_, by decide +kernel⟩
  intro lvl key ts t ht
  unfold exEnv at ht
  simp only at ht
  rw [if_neg (by omega)] at ht
  split at ht
  · simp only [List.mem_singleton] at ht
    rw [ht]; decide
  · simp at ht

end Verif.Nest
