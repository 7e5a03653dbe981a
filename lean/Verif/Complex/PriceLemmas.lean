import Verif.Complex.Rounds
import Verif.Complex.Init

/-!
# The costs recorded for the candidates of the complex miner
-/

set_option autoImplicit false
set_option linter.unusedSectionVars false

namespace Verif.Complex

open Verif.PTree Verif.Concat Verif.PattKey Verif.CandPool Verif.DataSeq

variable {K : Type} [Field K] [LinearOrder K] {ε : Type} [LinearOrder ε]

/-- A pattern with the cost computed for it. -/
def Rated (W : World K) (c : PC K) : Prop := ∃ d, c = W.mk' d

theorem verticalCands_rated {W : World K} {s : CPool K} {mk : ℤ ⊕ List Char} {out : List (PC K)} (h : verticalCands W s mk = some out) : ∀ c ∈ out, Rated W c := by
  unfold verticalCands at h
  rw [Option.bind_eq_some_iff] at h
  obtain ⟨cs, -, h⟩ := h
  split at h
  · obtain rfl := Option.some.inj h
    intro c hc
    obtain ⟨d, -, rfl⟩ := List.mem_map.1 (topK_mem _ c hc)
    exact ⟨d, rfl⟩
  · cases h

theorem vertical_rated {W : World K} {Q : Orders} {s : CPool K} {nkey : NKey} {out : List (PC K)} (h : vertical W Q s nkey = some out) : ∀ c ∈ out, Rated W c := by
  unfold vertical at h
  rw [Option.map_eq_some_iff] at h
  obtain ⟨ls, h1, rfl⟩ := h
  intro c hc
  obtain ⟨l, hl, hc⟩ := List.mem_flatten.1 (topK_mem _ c hc)
  obtain ⟨mk, -, e⟩ := (Miner.mem_mapM h1 l).1 hl
  exact verticalCands_rated e c hc

theorem makePair_rated {W : World K} {ci cj : PC K} {i j : PR} {e : List ℕ × PC K} (h : makePair W ci cj i j = some e) : Rated W e.2 := by
  unfold makePair at h
  split at h
  · cases h
  · rename_i c _
    split at h
    · split at h
      · cases h
      · rename_i x _
        split at h <;> cases h
        · exact ⟨x, rfl⟩
        · exact ⟨c, rfl⟩
    · cases h
      exact ⟨c, rfl⟩

theorem tryPair_rated {W : World K} {cs : List (ℕ × PC K)} {i j : PR} {l : PC K × PC K} {e : List ℕ × PC K} (h : tryPair W cs i j = some (l, some e)) : Rated W e.2 := by
  unfold tryPair at h
  split at h
  · split at h
    · cases h
    · split at h
      · cases h
      · rw [Option.bind_eq_some_iff] at h
        obtain ⟨x, h1, h2⟩ := h
        rw [Option.map_eq_some_iff] at h2
        obtain ⟨b, -, h2⟩ := h2
        cases b with
        | false => cases h2
        | true =>
          cases h2
          exact makePair_rated h1
  · cases h

theorem pairLoop_rated {W : World K} {cs : List (ℕ × PC K)} {i : PR} : ∀ (js : List PR) (s s' : HState K), (∀ e ∈ s.keep, Rated W e.2) → pairLoop W cs i js s = some s' → ∀ e ∈ s'.keep, Rated W e.2
  | [], s, s', h, he => by
    rw [pairLoop] at he
    rwa [← Option.some.inj he]
  | j :: js, s, s', h, he => by
    rw [pairLoop] at he
    split at he
    · cases he
    · rename_i l ht
      exact pairLoop_rated js { s with last := some l } s' h he
    · rename_i l k c ht
      refine pairLoop_rated js _ s' ?_ he
      intro e he'
      rcases mem_dset he' with rfl | he'
      · exact tryPair_rated ht
      · exact h e he'

theorem hLoop_rated {W : World K} {cs : List (ℕ × PC K)} {num : ℕ} : ∀ (n : ℕ) (s s' : HState K), (∀ e ∈ s.keep, Rated W e.2) → hLoop W cs num n s = some s' → ∀ e ∈ s'.keep, Rated W e.2
  | 0, s, s', h, he => by
    rw [hLoop] at he
    split at he
    · rwa [← Option.some.inj he]
    · cases he
  | n + 1, s, s', h, he => by
    rw [hLoop] at he
    split at he
    · rwa [← Option.some.inj he]
    · split at he
      · cases he
      · cases he
      · rename_i i pids news _
        split at he
        · exact hLoop_rated n _ s' (by exact h) he
        · split at he
          · cases he
          · rename_i js _
            split at he
            · cases he
            · rename_i s1 hs1
              exact hLoop_rated n s1 s' (pairLoop_rated js _ s1 (by exact h) hs1) he

theorem makeOn_rated {W : World K} {l : List (Item K)} {c : PC K} (h : makeOn W l = some c) : Rated W c := by
  cases l with
  | nil => cases h
  | cons x l =>
    simp only [makeOn, Option.map_eq_some_iff] at h
    obtain ⟨d, -, rfl⟩ := h
    exact ⟨d, rfl⟩

theorem better_rated {W : World K} {l : List (Item K)} {cur x : List ℕ × PC K} (hc : Rated W cur.2) (h : better W l cur = some x) : Rated W x.2 := by
  unfold better at h
  split at h
  · rwa [← Option.some.inj h]
  · rw [Option.map_eq_some_iff] at h
    obtain ⟨y, h1, rfl⟩ := h
    split
    · exact makeOn_rated h1
    · exact hc

theorem cliqueCand_rated {W : World K} {Q : Orders} {cs : List (ℕ × PC K)} {props : List Row} {sel : List (List ℕ)} {R : Finset ℕ} {x : List ℕ × PC K} (h : cliqueCand W Q cs props sel R = some x) : Rated W x.2 := by
  unfold cliqueCand at h
  rw [Option.bind_eq_some_iff] at h
  obtain ⟨l, -, h⟩ := h
  rw [Option.bind_eq_some_iff] at h
  obtain ⟨c, hc, h⟩ := h
  simp only at h
  rw [Option.bind_eq_some_iff] at h
  obtain ⟨y, h1, h2⟩ := h
  refine better_rated ?_ h2
  split at h1
  · cases h1
    exact makeOn_rated hc
  · exact better_rated (by exact makeOn_rated hc) h1

theorem cliqueLoop_rated {W : World K} {Q : Orders} {cs : List (ℕ × PC K)} {props : List Row} {sel : List (List ℕ)} {last : Option (PC K × PC K)} : ∀ (Rs : List (Finset ℕ)) (keep keep' : List (List ℕ × PC K)),
    (∀ e ∈ keep, Rated W e.2) → cliqueLoop W Q cs props sel last Rs keep = some keep' → ∀ e ∈ keep', Rated W e.2
  | [], keep, keep', h, he => by
    rw [cliqueLoop] at he
    rwa [← Option.some.inj he]
  | R :: Rs, keep, keep', h, he => by
    rw [cliqueLoop.eq_def] at he
    simp only at he
    split at he
    · rename_i x l hx
      refine cliqueLoop_rated Rs _ keep' ?_ he
      intro e he'
      split at he'
      · rcases mem_dset he' with rfl | he'
        · exact cliqueCand_rated hx
        · exact h e he'
      · exact h e he'
    · cases he

theorem substitute_rated {W : World K} {c c' : PC K} (hc : Rated W c) (h : substitute W c = some c') : Rated W c' := by
  obtain ⟨d, rfl⟩ := hc
  simp only [substitute, World.mk', Option.map_eq_some_iff] at h
  obtain ⟨ext, -, rfl⟩ := h
  have hfold : ∀ (l : List (PC K)) (b : PC K), (∀ x ∈ l, Rated W x) → Rated W b → Rated W (l.foldl (fun best e => if e.cost < best.cost then e else best) b) := by
    intro l
    induction l with
    | nil => intro b _ hb; exact hb
    | cons x l ih =>
      intro b hl hb
      rw [List.foldl_cons]
      apply ih _ (fun y hy => hl y (List.mem_cons_of_mem _ hy))
      split
      · exact hl x List.mem_cons_self
      · exact hb
  refine hfold _ _ ?_ ⟨d, rfl⟩
  intro x hx
  obtain ⟨f, -, rfl⟩ := List.mem_map.1 hx
  exact ⟨f, rfl⟩

theorem hFinish_rated {W : World K} {Q : Orders} {cs : List (ℕ × PC K)} {props : List Row} {s : HState K} {out : List (PC K)} (hk : ∀ e ∈ s.keep, Rated W e.2) (h : hFinish W Q cs props s = some out) : ∀ c ∈ out, Rated W c := by
  unfold hFinish at h
  simp only at h
  rw [Option.bind_eq_some_iff] at h
  obtain ⟨collect, -, h⟩ := h
  rw [Option.bind_eq_some_iff] at h
  obtain ⟨keep, h1, h2⟩ := h
  have hkeep := cliqueLoop_rated collect _ keep (by
    intro e he
    obtain ⟨k, -, he⟩ := List.mem_filterMap.1 he
    rw [Option.map_eq_some_iff] at he
    obtain ⟨c, hc, rfl⟩ := he
    exact hk (k, c) (Mine.lookup_mem' hc)) h1
  intro c hc
  obtain ⟨c0, hc0, e⟩ := (Miner.mem_mapM h2 c).1 hc
  obtain ⟨x, hx, rfl⟩ := List.mem_map.1 hc0
  exact substitute_rated (hkeep x hx) e

theorem horizontal_rated {W : World K} {Q : Orders} {s : CPool K} {nkey : NKey} {out : List (PC K)} (h : horizontal W Q s nkey = some out) : ∀ c ∈ out, Rated W c := by
  unfold horizontal at h
  split at h
  · cases h; simp
  · split at h
    · rw [Option.bind_eq_some_iff] at h
      obtain ⟨prs, -, h⟩ := h
      simp only at h
      split at h
      · cases h; simp
      · rw [Option.bind_eq_some_iff] at h
        obtain ⟨st, h1, h2⟩ := h
        exact hFinish_rated (hLoop_rated _ _ st (by simp) h1) h2
    · cases h

/-- Candidates after an addition: those before, and some of those given. -/
theorem addCands_from {W : World K} {s s' : CPool K} {cs : List (PC K)} {n : NKey} {b : Bool} {err : Option String} (hI : Inv (ops W) s) (h : addCands (ops W) rowKey s cs n b = (s', err)) :
    Inv (ops W) s' ∧ ∀ e ∈ s'.candidates, e ∈ s.candidates ∨ e.2 ∈ cs := by
  obtain ⟨f1, f2, f3, f4, f5, f6, f7, f8, f9⟩ := recordKey_fields s n
  obtain ⟨added, a1, a2, a3, -⟩ := addLoop_spec (ops W) rowKey n b cs (recordKey s n) [] ⟨by rw [f1, f2]; exact hI.ids, by rw [f1, f3]; exact hI.keys, by rw [f1]; exact hI.nodup⟩ f8
  rw [addCands] at h
  rw [h] at a1 a2
  refine ⟨a2, ?_⟩
  intro e he
  rw [a1, f1, List.mem_append] at he
  exact he.imp id (fun he => a3.subset (List.mem_map.2 ⟨e, he, rfl⟩))

theorem round_rated {W : World K} {Q : Orders} {s s' : RState K} (hI : Inv (ops W) s.pool) (h : round W Q s = some s') : Inv (ops W) s'.pool ∧ ∀ e ∈ s'.pool.candidates, e ∈ s.pool.candidates ∨ Rated W e.2 := by
  unfold round at h
  split at h
  · rename_i V H hV hH
    split at h
    · rename_i p hp
      split at h
      · rename_i p' hp'
        cases h
        obtain ⟨i1, c1⟩ := addCands_from (s := resetNew s.pool) ⟨hI.ids, hI.keys, hI.nodup⟩ hp
        obtain ⟨i2, c2⟩ := addCands_from i1 hp'
        refine ⟨i2, ?_⟩
        intro e he
        rcases c2 e he with he | he
        · rcases c1 e he with he | he
          · exact Or.inl he
          · exact Or.inr (vertical_rated hV _ he)
        · exact Or.inr (horizontal_rated hH _ he)
      · cases h
    · cases h
  · cases h

theorem rounds_rated {W : World K} {Q : ℕ → Orders} : ∀ (n : ℕ) (s s' : RState K), Inv (ops W) s.pool → rounds W Q n s = some s' → Inv (ops W) s'.pool ∧ ∀ e ∈ s'.pool.candidates, e ∈ s.pool.candidates ∨ Rated W e.2
  | 0, s, s', hI, h => by
    rw [rounds] at h
    cases h
    exact ⟨hI, fun e he => Or.inl he⟩
  | n + 1, s, s', hI, h => by
    rw [rounds] at h
    split at h
    · cases h
      exact ⟨hI, fun e he => Or.inl he⟩
    · rw [Option.bind_eq_some_iff] at h
      obtain ⟨s1, h1, h2⟩ := h
      obtain ⟨i1, c1⟩ := round_rated hI h1
      obtain ⟨i2, c2⟩ := rounds_rated n s1 s' i1 h2
      refine ⟨i2, fun e he => ?_⟩
      rcases c2 e he with he | he
      · exact c1 e he
      · exact Or.inr he

theorem initPool_from {W : World K} {A : ℕ → Mine.Costs K} {fuel : ℕ} {ds : Built ε} {s : CPool K} (h : initPool W A fuel ds = some s) :
    Inv (ops W) s ∧ ∀ e ∈ s.candidates, ∃ a < ds.listEv.length, ∃ out, Mine.mineAlpha (A a) fuel a (getSequence ds a) = some out ∧ ∃ c ∈ out, e.2 = ofCyc a c := by
  unfold initPool at h
  have main : ∀ (n : ℕ) (s : CPool K), (List.range n).foldlM (initLoop W A fuel ds) CandPool.empty = some s →
      Inv (ops W) s ∧ ∀ e ∈ s.candidates, ∃ a < n, ∃ out, Mine.mineAlpha (A a) fuel a (getSequence ds a) = some out ∧ ∃ c ∈ out, e.2 = ofCyc a c := by
    intro n
    induction n with
    | zero =>
      intro s h
      cases h
      exact ⟨empty_inv _, by simp [CandPool.empty]⟩
    | succ n ih =>
      intro s h
      rw [List.range_succ, List.foldlM_append] at h
      simp only [Option.bind_eq_bind, List.foldlM_cons, List.foldlM_nil, Option.pure_def, Option.bind_fun_some] at h
      rw [Option.bind_eq_some_iff] at h
      obtain ⟨s0, h1, h2⟩ := h
      obtain ⟨i0, c0⟩ := ih s0 h1
      unfold initLoop at h2
      rw [Option.bind_eq_some_iff] at h2
      obtain ⟨out, ho, h2⟩ := h2
      split at h2
      · rename_i s1 hs1
        cases h2
        obtain ⟨i1, c1⟩ := addCands_from i0 hs1
        refine ⟨i1, fun e he => ?_⟩
        rcases c1 e he with he | he
        · obtain ⟨a, ha, r⟩ := c0 e he
          exact ⟨a, by omega, r⟩
        · obtain ⟨c, hc, e1⟩ := List.mem_map.1 he
          exact ⟨n, by omega, out, ho, c, hc, e1.symm⟩
      · cases h2
  exact main _ s h

/-- The costs recorded for the candidates: that of the cycle found, or the one computed for the pattern. -/
theorem mineComplex_rated {W : World K} {A : ℕ → Mine.Costs K} {Q : ℕ → Orders} {fuel n : ℕ} {ds : Built ε} {s : RState K} {ps : List Miner.Patt} (h : mineComplex W A Q fuel n ds = some (s, ps)) :
    Inv (ops W) s.pool ∧ choose W s.pool = some ps ∧ ∀ e ∈ s.pool.candidates, (∃ a < ds.listEv.length, ∃ out, Mine.mineAlpha (A a) fuel a (getSequence ds a) = some out ∧ ∃ c ∈ out, e.2 = ofCyc a c) ∨ ∃ d, e.2 = W.mk' d := by
  unfold mineComplex at h
  rw [Option.bind_eq_some_iff] at h
  obtain ⟨s0, h0, h⟩ := h
  rw [Option.bind_eq_some_iff] at h
  obtain ⟨s1, h1, h⟩ := h
  rw [Option.map_eq_some_iff] at h
  obtain ⟨ps', h2, h⟩ := h
  cases h
  obtain ⟨i0, c0⟩ := initPool_from h0
  obtain ⟨i1, c1⟩ := rounds_rated n ⟨s0, 0, none, none⟩ s i0 h1
  refine ⟨i1, h2, fun e he => ?_⟩
  rcases c1 e he with he | he
  · exact Or.inl (c0 e he)
  · exact Or.inr he

end Verif.Complex
