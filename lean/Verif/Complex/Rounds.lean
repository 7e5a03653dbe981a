import Verif.Complex.Horizontal
import Verif.Nest.Props
import Verif.Mine.Fit

/-!
# Rounds of combinations
-/

set_option autoImplicit false
set_option linter.unusedSectionVars false

namespace Verif.Complex

open Verif.PTree Verif.Concat Verif.PattKey Verif.CandPool

variable {K : Type} [Field K] [LinearOrder K]

theorem topK_mem (l : List (PC K)) : ∀ c ∈ topK l, c ∈ l := by
  intro c hc
  obtain ⟨i, -, hi⟩ := List.mem_filterMap.1 hc
  exact List.mem_of_getElem? hi

/-! ### Rows -/

theorem mem_upTo {β : Type} {l : List β} {m : ℤ} {b : ℕ} (hb : m ≤ (l.length : ℤ) - b ∧ (0 ≤ m ∨ m = -b)) : (upTo l m).length + b ≤ l.length ∨ upTo l m = [] := by
  unfold upTo
  rcases hb.2 with h | h
  · rw [if_pos h, List.length_take]
    left; omega
  · by_cases hb0 : b = 0
    · subst hb0
      left
      split <;> simp
    · rw [if_neg (by omega)]
      by_cases hl : l.length ≤ b
      · right
        rw [List.take_eq_nil_iff]
        left; omega
      · left
        rw [List.length_take]; omega

theorem getProps_spec {c : AnyCand} (h : Shape c.toCand) {m : ℤ} (hm : m = -2 ∨ (0 ≤ m ∧ m + 2 ≤ c.toCand.r)) (new cid : ℕ) :
    (∀ row ∈ getProps c m new cid, row.cid = cid ∧ row.new = new ∧ row.r = c.toCand.r ∧ row.p = c.toCand.p ∧ row.off + 3 ≤ row.r) ∧ (3 ≤ c.toCand.r → m ≠ 0 → getProps c m new cid ≠ []) := by
  obtain ⟨O, o1, o2, -⟩ := Kinds.major_first c.toCand.r c.toCand.p c.toCand.ch h.1 c.toCand.O h.2.1
  obtain ⟨E, e1, e2, -⟩ := Kinds.major_first c.toCand.r c.toCand.p c.toCand.ch h.1 (0 :: c.toCand.E) (by rw [List.length_cons, h.2.2]; exact h.2.1)
  have hmaj : c.toCand.majorR = c.toCand.r := h.majorR
  have hlen : (upTo O m).length + 2 ≤ O.length ∨ upTo O m = [] := mem_upTo (by omega)
  unfold getProps
  rw [Cand.tree, o1, e1]
  simp only
  constructor
  · intro row hr
    obtain ⟨⟨x, i⟩, hx, rfl⟩ := List.mem_map.1 hr
    have hi := (List.mem_zipIdx hx).2.1
    simp only at hi ⊢
    refine ⟨trivial, trivial, hmaj, trivial, ?_⟩
    rcases hlen with hl | hl
    · omega
    · rw [hl] at hi; simp at hi
  · intro h3 h0 he
    rw [List.map_eq_nil_iff] at he
    have : (upTo O m).length = 0 := by
      have := congrArg List.length he
      simpa using this
    unfold upTo at this
    split at this
    · rw [List.length_take] at this; omega
    · rw [List.length_take] at this; omega

/-- The bound on rows used when candidates are added: `-2`, or for simple cycles the smaller of the two numbers. -/
theorem ops_rows (W : World K) (c : PC K) (cid n : ℕ) (h : Shape c.cand.toCand) (b : Bool) (hb : b = true → 1 ≤ W.floor c ∧ nbOccsA c.cand = c.cand.toCand.r ∧ 3 ≤ c.cand.toCand.r) :
    (∀ row ∈ (ops W).rows c cid n b, row.cid = cid ∧ row.new = n ∧ row.r = c.cand.toCand.r ∧ row.p = c.cand.toCand.p ∧ row.off + 3 ≤ row.r) ∧ (3 ≤ c.cand.toCand.r → (ops W).rows c cid n b ≠ []) := by
  have hm : (if b = true then min (W.floor c) ((nbOccsA c.cand : ℤ) - 2) else -2) = -2 ∨ (1 ≤ (if b = true then min (W.floor c) ((nbOccsA c.cand : ℤ) - 2) else -2) ∧
      (if b = true then min (W.floor c) ((nbOccsA c.cand : ℤ) - 2) else -2) + 2 ≤ c.cand.toCand.r) := by
    cases b with
    | false => left; rfl
    | true =>
      right
      obtain ⟨h1, h2, h3⟩ := hb rfl
      rw [if_pos rfl, h2]
      omega
  obtain ⟨g1, g2⟩ := getProps_spec h (hm.imp id (fun x => ⟨by omega, x.2⟩)) n cid
  exact ⟨g1, fun h3 => g2 h3 (by omega)⟩

/-! ### The pool -/

/-- What is known of the pool. -/
structure PoolInv (W : World K) (P : Cand ℤ → Prop) (s : CPool K) : Prop where
  inv : Inv (ops W) s
  pids : PidsOk rowKey s
  cands : ∀ e ∈ s.candidates, P e.2.cand.toCand
  rows : ∀ row ∈ s.props.getD [], RowOk P s.candidates row

theorem PoolInv.lookup {W : World K} {P : Cand ℤ → Prop} {s : CPool K} (h : PoolInv W P s) {i : ℕ} {c : PC K} (hm : (i, c) ∈ s.candidates) : s.candidates.lookup i = some c :=
  DataSeq.lookup_of_mem s.candidates (by rw [h.inv.ids]; exact List.nodup_range) i c hm

theorem PoolInv.reset {W : World K} {P : Cand ℤ → Prop} {s : CPool K} (h : PoolInv W P s) : PoolInv W P (resetNew s) :=
  ⟨⟨h.inv.ids, h.inv.keys, h.inv.nodup⟩, h.pids, h.cands, h.rows⟩

/-- Additions keep what is known. -/
theorem addCands_inv {W : World K} {P : Cand ℤ → Prop} (hS : ∀ c, P c → Shape c) (s : CPool K) (h : PoolInv W P s) (cs : List (PC K)) (n : NKey) (b : Bool) (hcs : ∀ c ∈ cs, P c.cand.toCand)
    (hb : b = true → ∀ c ∈ cs, 1 ≤ W.floor c ∧ nbOccsA c.cand = c.cand.toCand.r ∧ 3 ≤ c.cand.toCand.r) (hok : b = true → (addCands (ops W) rowKey s cs n b).2 = none) :
    ∃ s' added, addCands (ops W) rowKey s cs n b = (s', none) ∧ PoolInv W P s' ∧ s'.candidates = s.candidates ++ added ∧ (added.map Prod.snd).Sublist cs ∧
      (∀ c ∈ cs, ((ops W).minor c, (ops W).major c) ∈ s'.candidates.map (fun e => ((ops W).minor e.2, (ops W).major e.2))) ∧
      s'.newCids = s.newCids ++ added.map (fun e => (n, e.1)) ∧ (∀ x, x ∈ s'.newMinor ↔ x ∈ s.newMinor ∨ ∃ e ∈ added, x = (n, (ops W).minor e.2)) ∧
      (s.props.isSome → s'.props.isSome) ∧ ((∃ e ∈ added, 3 ≤ e.2.cand.toCand.r) → s'.props.isSome) := by
  obtain ⟨f1, f2, f3, f4, f5, f6, f7, f8, f9⟩ := recordKey_fields s n
  have hI : Inv (ops W) (recordKey s n) := ⟨by rw [f1, f2]; exact h.inv.ids, by rw [f1, f3]; exact h.inv.keys, by rw [f1]; exact h.inv.nodup⟩
  have hP : PidsOk rowKey (recordKey s n) := by
    have := h.pids
    unfold PidsOk at this ⊢
    rw [f6, f7]; exact this
  obtain ⟨added, a1, a2, a3, a4, a5, a6, a7, a8⟩ := addLoop_spec (ops W) rowKey n b cs (recordKey s n) [] hI f8
  obtain ⟨p1, p2⟩ := a8 hP
  have hnone : (addLoop (ops W) rowKey n b (recordKey s n) [] cs).2 = none := by
    cases b with
    | true => exact hok rfl
    | false => exact p2 rfl
  obtain ⟨k1, k2⟩ := a7 hnone
  rw [f1] at a1 k1
  rw [f6, List.append_nil] at k2
  obtain ⟨s', hs'⟩ : ∃ s', s' = (addLoop (ops W) rowKey n b (recordKey s n) [] cs).1 := ⟨_, rfl⟩
  rw [← hs'] at a1 a2 a4 a6 k2 p1
  have hmem : ∀ e ∈ added, e.2 ∈ cs := fun e he => a3.subset (List.mem_map.2 ⟨e, he, rfl⟩)
  have hlk : ∀ i c, (i, c) ∈ s'.candidates → s'.candidates.lookup i = some c := DataSeq.lookup_of_mem s'.candidates (by rw [a2.ids]; exact List.nodup_range)
  refine ⟨s', added, by rw [addCands, hs', ← hnone], ⟨a2, p1, ?_, ?_⟩, a1, a3, ?_, ?_, ?_, ?_, ?_⟩
  · intro e he
    rw [a1, List.mem_append] at he
    rcases he with he | he
    · exact h.cands e he
    · exact hcs _ (hmem e he)
  · intro row hr
    rw [k2, List.mem_append] at hr
    rcases hr with hr | hr
    · obtain ⟨c, c1, c2⟩ := h.rows row hr
      exact ⟨c, hlk _ _ (by rw [a1]; exact List.mem_append_left _ (Mine.lookup_mem' c1)), c2⟩
    · obtain ⟨⟨i, c⟩, he, hr⟩ := List.mem_flatMap.1 hr
      have hc := hmem _ he
      obtain ⟨r1, -, r3, r4, r5⟩ := (ops_rows W c i _ (hS _ (hcs c hc)) b (fun e => hb e c hc)).1 row hr
      exact ⟨c, by rw [r1]; exact hlk _ _ (by rw [a1]; exact List.mem_append_right _ he), hcs c hc, r3, r4, r5⟩
  · rw [a1]; exact k1
  · rw [a4, f5]
  · intro x
    rw [a6, f4]
  · intro hs
    rcases p1 with ⟨q1, -⟩ | ⟨rows, A, q1, -⟩
    · rcases h.pids with ⟨z1, -⟩ | ⟨rows', A', z1, -, z3, -⟩
      · rw [z1] at hs; simp at hs
      · -- props cannot go back to `none`
        exact props_persist W s n b cs hs s' hs'
    · rw [q1]; rfl
  · rintro ⟨⟨i, c⟩, he, h3⟩
    have hc := hmem _ he
    rcases p1 with ⟨q1, -⟩ | ⟨rows, A, q1, -⟩
    · exfalso
      rw [q1] at k2
      exact (ops_rows W c i _ (hS _ (hcs c hc)) b (fun e => hb e c hc)).2 h3 (List.flatMap_eq_nil_iff.1 (List.append_eq_nil_iff.1 k2.symm).2 _ he)
    · rw [q1]; rfl
where
  props_persist (W : World K) (s : CPool K) (n : NKey) (b : Bool) (cs : List (PC K)) (hs : s.props.isSome) (s' : CPool K)
      (hs' : s' = (addLoop (ops W) rowKey n b (recordKey s n) [] cs).1) : s'.props.isSome := by
    have key : ∀ (cs : List (PC K)) (s : CPool K) (rows : List Row), s.props.isSome → (addLoop (ops W) rowKey n b s rows cs).1.props.isSome := by
      intro cs
      induction cs with
      | nil =>
        intro s rows hs
        rw [addLoop]
        unfold finish
        split
        · exact hs
        · split
          · rfl
          · split <;> rfl
      | cons c cs ih =>
        intro s rows hs
        have hq : (addCandQuiet (ops W) s c n).1.props = s.props := by
          unfold addCandQuiet register
          split
          · rfl
          · rename_i hr
            split at hr
            · cases hr
            · cases hr
              simp only
              exact (recordKey_fields _ n).2.2.2.2.2.1
        rw [addLoop]
        split
        · rename_i s1 he
          have : s1.props.isSome := by
            have : s1 = (addCandQuiet (ops W) s c n).1 := by rw [he]
            rw [this, hq]; exact hs
          split
          · exact this
          · exact ih _ _ this
        · rename_i s1 he
          have : s1.props.isSome := by
            have : s1 = (addCandQuiet (ops W) s c n).1 := by rw [he]
            rw [this, hq]; exact hs
          exact ih _ _ this
    rw [hs']
    exact key cs _ [] (by rw [(recordKey_fields s n).2.2.2.2.2.1]; exact hs)

/-! ### Vertical -/

theorem verticalCands_spec {W : World K} {P H V : Cand ℤ → Prop} (hC : Closed W P H V) (henv : ∀ l, Nest.EnvOk (W.env l)) (s : CPool K) (h : PoolInv W P s) (mk : ℤ ⊕ List Char) :
    ∃ out, verticalCands W s mk = some out ∧ ∀ c ∈ out, V c.cand.toCand := by
  have hlook : ∀ cid ∈ cidsForMinorK s mk, ∃ c, s.candidates.lookup cid = some c ∧ P c.cand.toCand ∧ c.cand.minorKey = mk := by
    intro cid hcid
    unfold cidsForMinorK at hcid
    obtain ⟨e, he, rfl⟩ := List.mem_map.1 hcid
    obtain ⟨he, hk⟩ := List.mem_filter.1 he
    rw [h.inv.keys] at he
    obtain ⟨⟨i, c⟩, hi, rfl⟩ := List.mem_map.1 he
    rw [decide_eq_true_eq] at hk
    exact ⟨c, h.lookup hi, h.cands _ hi, hk⟩
  obtain ⟨cs, hcs⟩ := Miner.mapM_exists (fun cid => s.candidates.lookup cid) (cidsForMinorK s mk) (fun cid hcid => by
    obtain ⟨c, hc, -⟩ := hlook cid hcid
    rw [hc]; rfl)
  have hmem : ∀ c ∈ cs, P c.cand.toCand ∧ c.cand.minorKey = mk := by
    intro c hc
    obtain ⟨cid, hcid, e⟩ := (Miner.mem_mapM hcs c).1 hc
    obtain ⟨c', e', hp, hk⟩ := hlook cid hcid
    rw [e] at e'
    cases e'
    exact ⟨hp, hk⟩
  obtain ⟨F, hF⟩ : ∃ F, ∀ c ∈ cs, c.cand.toCand.ch = F := by
    cases cs with
    | nil => exact ⟨.nil, by simp⟩
    | cons a l =>
      refine ⟨a.cand.toCand.ch, fun c hc => ?_⟩
      have ha := hmem a List.mem_cons_self
      have hc := hmem c hc
      exact minorKey_children _ _ (hC.shape _ hc.1).1 (hC.shape _ ha.1).1 (by rw [hc.2, ha.2])
  obtain ⟨r, cov, h1, -, -⟩ := Nest.nest_shape (cs.map (fun c => c.cand.toCand)) (by
    intro c hc
    obtain ⟨x, hx, rfl⟩ := List.mem_map.1 hc
    exact hC.shape _ (hmem x hx).1) F (by
    intro c hc
    obtain ⟨x, hx, rfl⟩ := List.mem_map.1 hc
    exact hF x hx) (W.env cs) (henv cs) cs.length (by simp)
  refine ⟨topK (r.map W.mk'), by rw [verticalCands, hcs, Option.bind_some]; simp only [h1], ?_⟩
  intro c hc
  obtain ⟨x, hx, rfl⟩ := List.mem_map.1 (topK_mem _ c hc)
  exact hC.nest cs F (r, cov) (fun c hc => ⟨(hmem c hc).1, hF c hc⟩) h1 x hx

theorem vertical_spec {W : World K} {P H V : Cand ℤ → Prop} (hC : Closed W P H V) (henv : ∀ l, Nest.EnvOk (W.env l)) (Q : Orders) (s : CPool K) (h : PoolInv W P s) (nkey : NKey) :
    ∃ out, vertical W Q s nkey = some out ∧ ∀ c ∈ out, V c.cand.toCand := by
  obtain ⟨ls, hls⟩ := Miner.mapM_exists (verticalCands W s) (((Q.keys ((s.newMinor.filter (fun e => e.1 = nkey)).map Prod.snd)).filter (fun mk => decide (3 ≤ (CandPool.cidsForMinorK s mk).length)))) (fun mk _ => by
    obtain ⟨o, ho, -⟩ := verticalCands_spec hC henv s h mk
    rw [ho]; rfl)
  refine ⟨_, by rw [vertical, hls]; rfl, ?_⟩
  intro c hc
  obtain ⟨l, hl, hc⟩ := List.mem_flatten.1 (topK_mem _ c hc)
  obtain ⟨mk, -, e⟩ := (Miner.mem_mapM hls l).1 hl
  obtain ⟨o, ho, hp⟩ := verticalCands_spec hC henv s h mk
  rw [e] at ho
  cases ho
  exact hp c hc

/-! ### Horizontal -/

/-- There is nothing to join, or the loop is run from a good state. -/
theorem horizontal_start {W : World K} {P : Cand ℤ → Prop} (H : Cand ℤ → Prop) (Q : Orders) (s : CPool K) (h : PoolInv W P s) (hs : s.props.isSome) (nkey : NKey) :
    horizontal W Q s nkey = some [] ∨ ∃ props n s0, (∀ row ∈ props, RowOk P s.candidates row) ∧ HInv H s.candidates props (s.nkeys.idxOf nkey) s0 ∧ s0.keep = [] ∧ s0.last = none ∧ s0.pids.length ≤ n ∧
      horizontal W Q s nkey = (hLoop W s.candidates (s.nkeys.idxOf nkey) n s0).bind (hFinish W Q s.candidates props) := by
  unfold horizontal
  split
  · exact Or.inl rfl
  · rcases h.pids with ⟨z1, -⟩ | ⟨props, A, z1, z2, z3, z4⟩
    · rw [z1] at hs; simp at hs
    · have hrows := h.rows
      rw [z1] at hrows
      simp only [Option.getD_some] at hrows
      obtain ⟨prs, hprs⟩ := Miner.mapM_exists (fun i : ℕ => (props[i]?).map (fun row : Row => (i, row))) A (by
        intro i hi
        have := List.mem_range.1 (z3.mem_iff.1 hi)
        rw [List.getElem?_eq_getElem this]; rfl)
      have hval : ∀ q ∈ prs, props[q.1]? = some q.2 := by
        intro q hq
        obtain ⟨i, -, e⟩ := (Miner.mem_mapM hprs q).1 hq
        rw [Option.map_eq_some_iff] at e
        obtain ⟨row, e, rfl⟩ := e
        exact e
      have hfst : prs.map Prod.fst = A := by
        have := (Miner.mapM_iff _ A prs).1 hprs
        have h2 := congrArg (fun l => l.map (Option.map Prod.fst)) this
        simp only [List.map_map] at h2
        have h3 : A.map (Option.map Prod.fst ∘ fun i : ℕ => (props[i]?).map (fun row : Row => (i, row))) = A.map some := by
          apply List.map_congr_left
          intro i hi
          have := List.mem_range.1 (z3.mem_iff.1 hi)
          simp [List.getElem?_eq_getElem this]
        rw [h3] at h2
        have h4 : prs.map (Option.map Prod.fst ∘ some) = (prs.map Prod.fst).map some := by rw [List.map_map]; rfl
        rw [h4] at h2
        exact (List.map_injective_iff.2 (Option.some_injective _) h2).symm
      have hsort : prs.Pairwise (fun a b => a.2.t0 ≤ b.2.t0) := by
        rw [← hfst, List.pairwise_map] at z4
        refine z4.imp_of_mem ?_
        intro a b ha hb hab
        have ha := hval a ha
        have hb := hval b hb
        unfold pidKey at hab
        rw [ha, hb] at hab
        simp only [Option.map_some, Option.elim_some, WithBot.coe_le_coe, rowKey] at hab
        rw [Prod.Lex.le_iff] at hab
        rcases hab with hab | hab
        · exact le_of_lt hab
        · exact le_of_eq hab.1
      rw [z1, z2]
      simp only [hprs, Option.bind_some]
      split
      · exact Or.inl rfl
      · rename_i hnew
        refine Or.inr ⟨props, prs.length,
          ⟨prs, if (prs.filter (fun q : PR => decide (q.2.new = s.nkeys.idxOf nkey))).length < 500 then some (prs.filter (fun q : PR => decide (q.2.new = s.nkeys.idxOf nkey))) else none, [], none⟩, hrows, ?_, rfl, rfl, le_refl _, rfl⟩
        refine ⟨hval, hsort, ?_, ?_, by simp, by simp⟩
        · intro ns e
          simp only at e
          split at e
          · cases e; rfl
          · cases e
        · intro e
          simp only at e
          split at e
          · exact absurd (Option.some.inj e) hnew
          · cases e

theorem horizontal_spec {W : World K} {P H V : Cand ℤ → Prop} (hC : Closed W P H V) (Q : Orders) (hQ : OrdersOk Q) (s : CPool K) (h : PoolInv W P s) (hs : s.props.isSome) (nkey : NKey) :
    ∃ out, horizontal W Q s nkey = some out ∧ ∀ c ∈ out, H c.cand.toCand := by
  rcases horizontal_start H Q s h hs nkey with e | ⟨props, n, s0, hrows, hI, -, -, hn, e⟩
  · exact ⟨[], e, by simp⟩
  · obtain ⟨st, l1, l2⟩ := hLoop_spec hC s.candidates props hrows _ n s0 hn hI
    rw [e, l1, Option.bind_some]
    exact hFinish_spec hC Q hQ s.candidates props hrows _ st l2

/-! ### Rounds -/

/-- Something weaker is known. -/
theorem PoolInv.imp {W : World K} {P P' : Cand ℤ → Prop} {s : CPool K} (h : PoolInv W P s) (hp : ∀ c, P c → P' c) : PoolInv W P' s :=
  ⟨h.inv, h.pids, fun e he => hp _ (h.cands e he), fun row hr => by
    obtain ⟨c, h1, h2, h3⟩ := h.rows row hr
    exact ⟨c, h1, hp _ h2, h3⟩⟩

theorem round_spec {W : World K} {P H V P' : Cand ℤ → Prop} (hC : Closed W P H V) (hP : ∀ c, P c → P' c) (hH : ∀ c, H c → P' c) (hV : ∀ c, V c → P' c) (hS : ∀ c, P' c → Shape c)
    (henv : ∀ l, Nest.EnvOk (W.env l)) (Q : Orders) (hQ : OrdersOk Q) (s : RState K) (h : PoolInv W P s.pool) (hs : s.pool.props.isSome) :
    ∃ s' added, round W Q s = some s' ∧ PoolInv W P' s'.pool ∧ s'.pool.props.isSome ∧ s'.i = s.i + 1 ∧ s'.pool.candidates = s.pool.candidates ++ added ∧
      s'.pool.newCids.map Prod.snd = added.map Prod.fst := by
  obtain ⟨VV, v1, v2⟩ := vertical_spec hC henv Q s.pool h s.nkeyH
  obtain ⟨HH, h1, h2⟩ := horizontal_spec hC Q hQ s.pool h hs s.nkeyV
  obtain ⟨p, ad, a1, a2, a3, -, -, a6, -, a8, -⟩ := addCands_inv hS (resetNew s.pool) (h.imp hP).reset VV (some (true, s.i + 1)) false (fun c hc => hV _ (v2 c hc)) (by simp) (by simp)
  obtain ⟨p', ad', b1, b2, b3, -, -, b6, -, b8, -⟩ := addCands_inv hS p a2 HH (some (false, s.i + 1)) false (fun c hc => hH _ (h2 c hc)) (by simp) (by simp)
  refine ⟨⟨p', s.i + 1, some (true, s.i + 1), some (false, s.i + 1)⟩, ad ++ ad', ?_, b2, b8 (a8 hs), rfl, ?_, ?_⟩
  · unfold round
    rw [v1, h1]
    simp only [a1, b1]
  · rw [b3, a3]
    simp [resetNew]
  · simp only
    rw [b6, a6]
    simp [resetNew, Function.comp_def]

theorem rounds_spec {W : World K} {P H V : Cand ℤ → Prop} (hC : Closed W P H V) (hH : ∀ c, H c → P c) (hV : ∀ c, V c → P c) (henv : ∀ l, Nest.EnvOk (W.env l)) (Q : ℕ → Orders)
    (hQ : ∀ i, OrdersOk (Q i)) : ∀ (n : ℕ) (s : RState K), PoolInv W P s.pool → (s.pool.newCids ≠ [] → s.pool.props.isSome) →
    ∃ s', rounds W Q n s = some s' ∧ PoolInv W P s'.pool ∧ s.pool.candidates <+: s'.pool.candidates ∧ (s'.pool.newCids ≠ [] → n + s.pool.candidates.length ≤ s'.pool.candidates.length)
  | 0, s, h, _ => ⟨s, rfl, h, List.prefix_refl _, fun _ => by omega⟩
  | n + 1, s, h, hs => by
    rw [rounds]
    split
    · rename_i he
      exact ⟨s, rfl, h, List.prefix_refl _, fun h => absurd he h⟩
    · rename_i hne
      obtain ⟨s1, ad, r1, r2, r3, -, r5, r6⟩ := round_spec hC (fun _ h => h) hH hV hC.shape henv (Q s.i) (hQ _) s h (hs hne)
      obtain ⟨s2, q1, q2, q3, q4⟩ := rounds_spec hC hH hV henv Q hQ n s1 r2 (fun _ => r3)
      rw [r1, Option.bind_some]
      refine ⟨s2, q1, q2, List.IsPrefix.trans (by rw [r5]; exact List.prefix_append _ _) q3, fun h2 => ?_⟩
      have hlen := congrArg List.length r5
      rw [List.length_append] at hlen
      by_cases hn : n = 0
      · subst hn
        simp only [rounds, Option.some.injEq] at q1
        subst q1
        have : ad ≠ [] := by
          rintro rfl
          simp at r6
          exact h2 r6
        have := List.length_pos_iff.2 this
        omega
      · by_cases hn1 : s1.pool.newCids = []
        · have : s2 = s1 := by
            obtain ⟨m, rfl⟩ := Nat.exists_eq_succ_of_ne_zero hn
            rw [Nat.succ_eq_add_one, rounds, if_pos hn1] at q1
            exact (Option.some.inj q1).symm
          subst this
          exact absurd hn1 h2
        · have : ad ≠ [] := by
            rintro rfl
            simp at r6
            exact hn1 r6
          have := List.length_pos_iff.2 this
          have := q4 h2
          omega

end Verif.Complex
