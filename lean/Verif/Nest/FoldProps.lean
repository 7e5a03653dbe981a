import Verif.Nest.Props
import Verif.Fold.Props

/-!
# Nesting with the search for chains and triples of the code (C62, C65)
-/

set_option autoImplicit false
set_option linter.unusedSectionVars false

namespace Verif.Nest

open Verif.PTree Verif.Concat

variable {α : Type}

/-- The search on an increasing list of times always gives an answer. -/
theorem fold_total (P : Fold.Par) (ts : List ℤ) (hs : ts.Pairwise (· < ·)) : ∃ r, Fold.extractFold P (ts.length + 1502) ts = some r := by
  by_cases h : ts.length < 2000
  · obtain ⟨c, t, e, -⟩ := Fold.fold_sound P (ts.length + 1502) ts hs h (by omega)
    exact ⟨_, e⟩
  · obtain ⟨parts, e, -⟩ := Fold.fold_blocks_partial P (ts.length + 1502) ts hs (by omega) (by omega)
    exact ⟨_, e⟩

/-- The environment in which chains and triples are those of `extract_cycles_fold`, called at `/repo/skmine/periodic/run_mine.py:416`; comparisons of costs, `computePeriod` and the order of equal keys in
`list.sort` are left open. By `fold_total` the search always gives an answer where it is called. -/
def foldEnv (cheaper : List ℕ → List ℕ → Bool) (par : ℕ → List Char → Fold.Par) (period : List ℤ → ℤ)
    (order : List (ℤ × List Char × ℤ × List ℕ) → List (ℤ × List Char × ℤ × List ℕ)) : Env where
  cheaper := cheaper
  triples lvl key ts := ((Fold.extractFold (par lvl key) (ts.length + 1502) ts).getD ([], [])).2.map (fun t => (t.2.1, t.2.2))
  chains lvl key ts := ((Fold.extractFold (par lvl key) (ts.length + 1502) ts).getD ([], [])).1
  period := period
  order := order

theorem sublist_of_positions {l : List ℤ} : ∀ {pos : List ℕ} {vals : List ℤ} {n : ℕ}, pos.Pairwise (· < ·) → (∀ k ∈ pos, n ≤ k) → vals.map some = pos.map (fun k => l[k]?) → vals.Sublist (l.drop n) := by
  intro pos
  induction pos with
  | nil => intro vals n _ _ h; simp at h; rw [h]; exact List.nil_sublist _
  | cons k pos ih =>
    intro vals n hp hn h
    match vals, h with
    | v :: vals, h =>
      simp only [List.map_cons, List.cons.injEq] at h
      rw [List.pairwise_cons] at hp
      have h1 := ih (n := k + 1) hp.2 (fun x hx => hp.1 x hx) h.2
      obtain ⟨hk, hv⟩ := List.getElem?_eq_some_iff.1 h.1.symm
      have h2 : (v :: vals).Sublist (l.drop k) := by
        rw [List.drop_eq_getElem_cons hk, hv]
        exact h1.cons_cons v
      have : l.drop k = (l.drop n).drop (k - n) := by rw [List.drop_drop]; congr 1; have := hn k (by simp); omega
      rw [this] at h2
      exact h2.trans (List.drop_sublist _ _)
    | [], h => simp at h

/-- C65 gives what nesting needs. -/
theorem foldEnv_ok (cheaper : List ℕ → List ℕ → Bool) (par : ℕ → List Char → Fold.Par) (period : List ℤ → ℤ)
    (order : List (ℤ × List Char × ℤ × List ℕ) → List (ℤ × List Char × ℤ × List ℕ)) (ho : ∀ l, (order l).Perm l) : EnvOk (foldEnv cheaper par period order) where
  order := ho
  triples lvl key ts hs t ht := by
    have key' : ∀ (t : ℤ × ℤ × List ℕ), (∃ a b c x y z, t.2.2 = [a, b, c] ∧ Fold.Near (par lvl key).small (par lvl key).maxP ts a b c ∧ ts[a]? = some x ∧ ts[b]? = some y ∧ ts[c]? = some z) →
        3 ≤ t.2.2.length ∧ (∀ k ∈ t.2.2, k < ts.length) ∧ t.2.2.Pairwise (· < ·) := by
      rintro t ⟨a, b, c, x, y, z, e, hn, hx, hy, hz⟩
      rw [e]
      have h1 := hn.1
      have h2 := hn.2.1
      have h3 := (List.getElem?_eq_some_iff.1 hz).1
      refine ⟨by simp, ?_, ?_⟩
      · intro k hk
        simp only [List.mem_cons, List.not_mem_nil, or_false] at hk
        omega
      · simp only [List.pairwise_cons, List.mem_cons, List.not_mem_nil, or_false, forall_eq_or_imp, forall_eq, List.Pairwise.nil, and_true, false_implies, implies_true]
        omega
    by_cases h : ts.length < 2000
    · obtain ⟨cs, tr, e, -, h2⟩ := Fold.fold_sound (par lvl key) (ts.length + 1502) ts hs h (by omega)
      simp only [foldEnv, e, Option.getD_some, List.mem_map] at ht
      obtain ⟨t', ht', rfl⟩ := ht
      obtain ⟨a, b, c, x, y, z, e1, hn, hx, hy, hz, -⟩ := h2 t' ht'
      exact key' t' ⟨a, b, c, x, y, z, e1, hn, hx, hy, hz⟩
    · obtain ⟨parts, e, -, h2⟩ := Fold.fold_blocks_partial (par lvl key) (ts.length + 1502) ts hs (by omega) (by omega)
      simp only [foldEnv, e, Option.getD_some, List.mem_map] at ht
      obtain ⟨t', ht', rfl⟩ := ht
      obtain ⟨part, hp, ht'⟩ := List.mem_flatMap.1 ht'
      obtain ⟨j, hj⟩ := List.mem_iff_getElem?.1 hp
      obtain ⟨a, b, c, x, y, z, e1, hn, -, hx, hy, hz, -⟩ := (h2 j part hj).2 t' ht'
      exact key' t' ⟨a, b, c, x, y, z, e1, hn, hx, hy, hz⟩
  chains lvl key ts hs c hc := by
    by_cases h : ts.length < 2000
    · obtain ⟨cs, tr, e, h1, -⟩ := Fold.fold_sound (par lvl key) (ts.length + 1502) ts hs h (by omega)
      simp only [foldEnv, e, Option.getD_some] at hc
      obtain ⟨a1, a2, a3, -, -⟩ := h1 c hc
      have hl : c.1.length = c.2.length := by simpa using congrArg List.length a3
      refine ⟨by omega, ?_, hl, by simpa using sublist_of_positions (n := 0) a2 (by simp) a3, a2⟩
      intro k hk
      obtain ⟨i, hi⟩ := List.mem_iff_getElem?.1 hk
      have e' := congrArg (fun l => l[i]?) a3
      simp only [List.getElem?_map, hi, Option.map_some] at e'
      obtain ⟨v, -, hv⟩ := Option.map_eq_some_iff.1 e'
      exact (List.getElem?_eq_some_iff.1 hv.symm).1
    · obtain ⟨parts, e, hpl, h2⟩ := Fold.fold_blocks_partial (par lvl key) (ts.length + 1502) ts hs (by omega) (by omega)
      simp only [foldEnv, e, Option.getD_some] at hc
      obtain ⟨part, hp, hc⟩ := List.mem_flatMap.1 hc
      obtain ⟨j, hj⟩ := List.mem_iff_getElem?.1 hp
      obtain ⟨a1, a2, a3, a4, -, -⟩ := (h2 j part hj).1 c hc
      have hl : c.1.length = c.2.length := by simpa using congrArg List.length a4
      refine ⟨by omega, fun k hk => by have := a3 k hk; omega, hl, ?_, a2⟩
      have := sublist_of_positions (l := ts) (n := 0) (pos := c.2.map (fun k => j * 1500 + k)) (vals := c.1) (List.pairwise_map.2 (a2.imp (fun h => by omega))) (by simp)
        (by rw [a4, List.map_map]; rfl)
      simpa using this

/-- C62, with the search of the code: nesting always ends, and every candidate returned describes its occurrences, which are those of candidates taken in order. -/
theorem nest_describes_fold (cands : List (Cand α)) (hd : ∀ c ∈ cands, Describes c) (F : Forest α) (hF : ∀ c ∈ cands, c.ch = F)
    (cheaper : List ℕ → List ℕ → Bool) (par : ℕ → List Char → Fold.Par) (period : List ℤ → ℤ)
    (order : List (ℤ × List Char × ℤ × List ℕ) → List (ℤ × List Char × ℤ × List ℕ)) (ho : ∀ l, (order l).Perm l) :
    ∃ r cov, nestCmplx cands.length (foldEnv cheaper par period order) cands = .ok (r, cov) ∧ (∀ i ∈ cov, i < cands.length) ∧
      ∀ c ∈ r, Describes c ∧ ∃ idxs cs, idxs ≠ [] ∧ idxs.mapM (fun i => cands[i]?) = some cs ∧ c.O = cs.flatMap (fun c => c.O) ∧ c.events = cs.flatMap (fun c => c.events) ∧
        ∀ i ∈ idxs, i ∈ cov :=
  nest_describes cands hd F hF _ (foldEnv_ok cheaper par period order ho) cands.length (Nat.le_refl _)

set_option maxRecDepth 100000 in
/-- Three cycles of three events are nested in one pattern. -/
example : (nestCmplx 3 (foldEnv (fun _ _ => false) (fun _ _ => Fold.exPar) (fun l => (l.getLastD 0 - l.headD 0) / (l.length - 1)) id) [exC 0, exC 100, exC 200]).toOption.map
    (fun x => x.1.map (fun c => (c.r, c.p, c.O, c.E))) = some [(3, 100, [0, 1, 2, 100, 101, 102, 200, 201, 202], [0, 0, 0, 0, 0, 0, 0, 0])] := by decide +kernel

end Verif.Nest
