import Verif.Slim.Props
import Mathlib.Algebra.BigOperators.Group.List.Basic
import Mathlib.Algebra.Order.Monoid.Unbundled.WithTop

/-!
# Code lengths of new transactions (C53, C54)

Source: `/repo/skmine/itemsets/slim.py:195-242` (`get_code_length`).
-/

set_option autoImplicit false
set_option linter.unusedSectionVars false

namespace Verif.Slim

variable {α κ V R : Type*} [LinearOrder α] [LinearOrder κ] [LinearOrder V] [LinearOrder R] [AddCommMonoid R]

/-- Specification: the greedy cover of a set of items by a list of itemsets: take each itemset included in what remains. -/
def greedy : List (Finset α) → Finset α → List (Finset α)
  | [], _ => []
  | X :: L, rem => if X ⊆ rem then X :: greedy L (rem \ X) else greedy L rem

/-- The usages with the Laplace correction and their sum, `/repo/skmine/itemsets/slim.py:233-237`. `code u total` is
`-log2(u / total)`. The mapping of itemsets to codes. -/
def codeOf (code : ℕ → ℕ → R) (st : State α V) (X : Finset α) : R :=
  code ((lookup st.ct X).card + 1) ((st.ct.map (fun e => e.2.card + 1)).sum)

/-- `get_code_length` on transactions, `/repo/skmine/itemsets/slim.py:231-242`: one value per transaction, `⊤` being `+inf`. -/
def getCodeLength (code : ℕ → ℕ → R) (st : State α V) (D : List (List α)) : Except Err (List (WithTop R)) :=
  match slimCover st D with
  | .error e => .error e
  | .ok (cols, mat) => .ok (mat.map (fun row =>
      let s := ((marked cols row).map (codeOf code st)).sum
      if s = 0 then ⊤ else (s : WithTop R)))

theorem coverMap_greedy (s : α → Finset ℕ) (L : List (Finset α)) (hne : ∀ X ∈ L, X.Nonempty) (t : ℕ) (rem : Finset α)
    (hrem : ∀ X ∈ L, ∀ a ∈ X, a ∈ rem ↔ t ∈ s a) :
    ((coverMap s L).filter (fun e => t ∈ e.2)).map Prod.fst = greedy L rem := by
  induction L generalizing s rem with
  | nil => rfl
  | cons X L ih =>
    have hX : t ∈ interTids s X ↔ X ⊆ rem := by
      rw [mem_interTids]
      constructor
      · exact fun h a ha => (hrem X List.mem_cons_self a ha).2 (h.2 a ha)
      · exact fun h => ⟨hne X List.mem_cons_self, fun a ha => (hrem X List.mem_cons_self a ha).1 (h ha)⟩
    rw [coverMap, greedy]
    by_cases h : X ⊆ rem
    · rw [if_pos h, List.filter_cons_of_pos (by simpa using hX.2 h), List.map_cons,
        ih (residue s X) (fun Y hY => hne Y (List.mem_cons_of_mem _ hY)) (rem \ X)]
      intro Y hY a ha
      rw [mem_residue, Finset.mem_sdiff, hrem Y (List.mem_cons_of_mem _ hY) a ha]
      exact ⟨fun h2 => ⟨h2.1, fun h3 => absurd h3 h2.2⟩, fun h2 => ⟨h2.1, fun h3 => h2.2 h3 (hX.2 h)⟩⟩
    · rw [if_neg h, List.filter_cons_of_neg (by simpa using fun h2 => h (hX.1 h2)),
        ih (residue s X) (fun Y hY => hne Y (List.mem_cons_of_mem _ hY)) rem]
      intro Y hY a ha
      rw [mem_residue, hrem Y (List.mem_cons_of_mem _ hY) a ha]
      exact ⟨fun h2 => ⟨h2, fun _ h3 => h (hX.1 h3)⟩, fun h2 => h2.1⟩

theorem greedy_filter (L : List (Finset α)) (rem : Finset α) (p : Finset α → Bool) (h : ∀ X ∈ L, X ⊆ rem → p X = true) :
    greedy (L.filter p) rem = greedy L rem := by
  induction L generalizing rem with
  | nil => rfl
  | cons X L ih =>
    by_cases hX : X ⊆ rem
    · rw [List.filter_cons_of_pos (h X List.mem_cons_self hX), greedy, greedy, if_pos hX, if_pos hX, ih]
      exact fun Y hY hsub => h Y (List.mem_cons_of_mem _ hY) (hsub.trans Finset.sdiff_subset)
    · rw [greedy, if_neg hX]
      by_cases hp : p X = true
      · rw [List.filter_cons_of_pos hp, greedy, if_neg hX, ih]
        exact fun Y hY hsub => h Y (List.mem_cons_of_mem _ hY) hsub
      · rw [List.filter_cons_of_neg hp, ih]
        exact fun Y hY hsub => h Y (List.mem_cons_of_mem _ hY) hsub

theorem slimCover_eq (st : State α V) (hg : Good st.sct st.ct) (D' : List (List α)) :
    ∃ covers : Table α, slimCover st D' = .ok (covers.map Prod.fst,
      (List.range D'.length).map (fun t => covers.map (fun e => decide (t ∈ e.2)))) ∧
      covers = coverMap (lookup (toVertical ∅ D')) (knownItemsets st (toVertical ∅ D')) := by
  have hK := knownItemsets_eq st (toVertical ∅ D') hg.keys.nonempty
  have hnd : (knownItemsets st (toVertical ∅ D')).Nodup := by rw [hK]; exact hg.keys.nodup.filter _
  have hcov : cover (toVertical ∅ D') (knownItemsets st (toVertical ∅ D')) =
      .ok (coverMap (lookup (toVertical ∅ D')) (knownItemsets st (toVertical ∅ D'))) := by
    unfold cover
    rw [if_pos, coverLoop_eq _ _ _ hnd (by simp), List.nil_append]
    rw [List.all_eq_true]
    intro X hX
    rw [hK, List.mem_filter] at hX
    exact hX.2
  refine ⟨_, ?_, rfl⟩
  unfold slimCover coverMatrix
  rw [hcov]

theorem cover_row_greedy_good (st : State α V) (hg : Good st.sct st.ct) (D' : List (List α)) :
    ∃ cols mat, slimCover st D' = .ok (cols, mat) ∧ mat.length = D'.length ∧
      ∀ (t : ℕ) (tr : List α), D'[t]? = some tr →
        ∃ row, mat[t]? = some row ∧ marked cols row = greedy (st.ct.map Prod.fst) tr.toFinset := by
  obtain ⟨covers, h1, h2⟩ := slimCover_eq st hg D'
  refine ⟨_, _, h1, by simp, fun t tr htr => ?_⟩
  have hlt : t < D'.length := (List.getElem?_eq_some_iff.1 htr).1
  refine ⟨covers.map (fun e => decide (t ∈ e.2)), by simp [hlt], ?_⟩
  rw [marked_map, h2]
  have hocc : ∀ a, a ∈ tr.toFinset ↔ t ∈ lookup (toVertical ∅ D') a := by
    intro a
    rw [mem_lookup_toVertical, List.mem_toFinset]
    constructor
    · exact fun ha => ⟨⟨tr, htr, ha⟩, by simp⟩
    · rintro ⟨⟨tr', htr', ha⟩, _⟩
      rw [htr, Option.some.injEq] at htr'
      rw [htr']
      exact ha
  have hK := knownItemsets_eq st (toVertical ∅ D') hg.keys.nonempty
  rw [coverMap_greedy _ _ (fun X hX => by rw [hK, List.mem_filter] at hX; exact hg.keys.nonempty X hX.1) t tr.toFinset
    (fun _ _ a _ => hocc a), hK, greedy_filter]
  intro X _ hsub
  apply decide_eq_true
  intro x hx
  exact mem_keys_of_lookup ((hocc x).1 (hsub hx))

/-- C53. Each row of `SLIM.cover(D')` marks, in the order of the code table, the greedy cover of its own transaction by the itemsets of the
code table. It does not depend on the other transactions of `D'`. -/
theorem cover_row_greedy (items : List α) (D : List (List α)) (st : State α V) (h : Reach (κ := κ) items D st)
    (D' : List (List α)) :
    ∃ cols mat, slimCover st D' = .ok (cols, mat) ∧ mat.length = D'.length ∧
      ∀ (t : ℕ) (tr : List α), D'[t]? = some tr →
        ∃ row, mat[t]? = some row ∧ marked cols row = greedy (st.ct.map Prod.fst) tr.toFinset :=
  cover_row_greedy_good st (reach_inv items D st h).1 D'

/-- The code length of one transaction: the sum of the codes of its greedy cover, `+inf` instead of `0`. -/
def lengthOf (code : ℕ → ℕ → R) (st : State α V) (tr : List α) : WithTop R :=
  let s := ((greedy (st.ct.map Prod.fst) tr.toFinset).map (codeOf code st)).sum
  if s = 0 then ⊤ else (s : WithTop R)

theorem getCodeLength_good (st : State α V) (hg : Good st.sct st.ct)
    (code : ℕ → ℕ → R) (D' : List (List α)) : getCodeLength code st D' = .ok (D'.map (lengthOf code st)) := by
  obtain ⟨cols, mat, h1, h2, h3⟩ := cover_row_greedy_good st hg D'
  unfold getCodeLength
  rw [h1]
  simp only [Except.ok.injEq]
  apply List.ext_getElem?
  intro t
  rw [List.getElem?_map, List.getElem?_map]
  cases ht : D'[t]? with
  | none =>
    rw [List.getElem?_eq_none_iff] at ht
    rw [List.getElem?_eq_none (by omega)]
    rfl
  | some tr =>
    obtain ⟨row, hr, hm⟩ := h3 t tr ht
    rw [hr, Option.map_some, Option.map_some, hm]
    rfl

theorem getCodeLength_eq (items : List α) (D : List (List α)) (st : State α V) (h : Reach (κ := κ) items D st)
    (code : ℕ → ℕ → R) (D' : List (List α)) : getCodeLength code st D' = .ok (D'.map (lengthOf code st)) :=
  getCodeLength_good st (reach_inv items D st h).1 code D'

/-- C53. The code length of a transaction does not depend on the other transactions of the query: querying transactions together or
one by one gives the same values. -/
theorem code_length_independent (items : List α) (D : List (List α)) (st : State α V) (h : Reach (κ := κ) items D st)
    (code : ℕ → ℕ → R) (D1 D2 : List (List α)) :
    ∃ l1 l2, getCodeLength code st D1 = .ok l1 ∧ getCodeLength code st D2 = .ok l2 ∧ getCodeLength code st (D1 ++ D2) = .ok (l1 ++ l2) ∧
      l1.length = D1.length ∧ l2.length = D2.length :=
  ⟨_, _, getCodeLength_eq items D st h code D1, getCodeLength_eq items D st h code D2,
    by rw [getCodeLength_eq items D st h code, List.map_append], by simp, by simp⟩

theorem greedy_mem (L : List (Finset α)) (rem : Finset α) : ∀ X ∈ greedy L rem, X ∈ L := by
  induction L generalizing rem with
  | nil => exact fun X h => by cases h
  | cons Y L ih =>
    intro X hX
    rw [greedy] at hX
    split at hX
    · rcases List.mem_cons.1 hX with rfl | hX
      · exact List.mem_cons_self
      · exact List.mem_cons_of_mem _ (ih _ X hX)
    · exact List.mem_cons_of_mem _ (ih _ X hX)

theorem sum_pos_of_list [IsOrderedCancelAddMonoid R] (l : List R) (hl : l ≠ []) (h : ∀ x ∈ l, 0 < x) : 0 < l.sum := by
  induction l with
  | nil => exact absurd rfl hl
  | cons x l ih =>
    rw [List.sum_cons]
    have hx := h x List.mem_cons_self
    cases l with
    | nil => simpa using hx
    | cons y l => exact add_pos hx (ih (by simp) (fun z hz => h z (List.mem_cons_of_mem _ hz)))

/-- C54, what holds. When the code table has at least two itemsets, a transaction with a known item gets a finite code
length, and one without gets `+inf`. `code` is positive on proper fractions as `-log2` is. Missing: a code table with one itemset. -/
theorem code_length_finite_partial [IsOrderedCancelAddMonoid R] (items : List α) (D : List (List α)) (st : State α V)
    (h : Reach (κ := κ) items D st) (code : ℕ → ℕ → R) (hcode : ∀ u total, 0 < u → u < total → 0 < code u total)
    (htwo : 2 ≤ st.ct.length) (tr : List α) :
    (∃ r, getCodeLength code st [tr] = .ok [r] ∧ (r ≠ ⊤ ↔ ∃ a ∈ tr, (∃ t, Occurs D a t) ∨ a ∈ items)) := by
  refine ⟨_, by rw [getCodeLength_eq items D st h code]; rfl, ?_⟩
  obtain ⟨hg, hk, _⟩ := reach_inv items D st h
  have hpos : ∀ X ∈ greedy (st.ct.map Prod.fst) tr.toFinset, 0 < codeOf code st X := by
    intro X hX
    have hXk := greedy_mem _ _ X hX
    have hmem := mem_of_key hg.keys.nodup hXk
    apply hcode _ _ (Nat.succ_pos _)
    obtain ⟨A, B, hAB⟩ := List.append_of_mem hmem
    have hlen : A.length + B.length + 1 = st.ct.length := by rw [hAB]; simp; omega
    have hge : ∀ l : Table α, l.length ≤ (l.map (fun e => e.2.card + 1)).sum := by
      intro l
      induction l with
      | nil => simp
      | cons e l ih => rw [List.length_cons, List.map_cons, List.sum_cons]; omega
    have hA := hge A
    have hB := hge B
    have hsum : (st.ct.map (fun e => e.2.card + 1)).sum =
        (A.map (fun e => e.2.card + 1)).sum + ((lookup st.ct X).card + 1 + (B.map (fun e => e.2.card + 1)).sum) := by
      conv_lhs => rw [hAB]
      rw [List.map_append, List.sum_append, List.map_cons, List.sum_cons]
    omega
  have hcov : greedy (st.ct.map Prod.fst) tr.toFinset ≠ [] ↔ ∃ a ∈ tr, (∃ t, Occurs D a t) ∨ a ∈ items := by
    obtain ⟨cols, mat, h1, h2, h3⟩ := cover_row_greedy items D st h [tr]
    obtain ⟨cols', mat', g1, g2, g3, g4, g5⟩ := cover_rows items D st h [tr]
    rw [h1] at g1
    simp only [Except.ok.injEq, Prod.mk.injEq] at g1
    obtain ⟨rfl, rfl⟩ := g1
    obtain ⟨row, hr, hm⟩ := h3 0 tr rfl
    obtain ⟨_, _, _, g6⟩ := g5 0 row tr hr rfl
    rw [← hm]
    constructor
    · intro hne
      obtain ⟨X, hX⟩ := List.exists_mem_of_ne_nil _ hne
      have hX2 : X ∈ st.ct.map Prod.fst := greedy_mem _ _ X (hm ▸ hX)
      obtain ⟨a, ha⟩ := hg.keys.nonempty X hX2
      obtain ⟨q1, q2⟩ := (g6 a).1 ⟨X, hX, ha⟩
      exact ⟨a, q1, q2⟩
    · rintro ⟨a, q1, q2⟩ hnil
      obtain ⟨X, hX, _⟩ := (g6 a).2 ⟨q1, q2⟩
      rw [hnil] at hX
      cases hX
  rw [← hcov]
  unfold lengthOf
  simp only
  constructor
  · intro hne hnil
    rw [hnil] at hne
    simp at hne
  · intro hne
    have := sum_pos_of_list _ (by simpa using hne) (fun x hx => by
      obtain ⟨X, hX, rfl⟩ := List.mem_map.1 hx
      exact hpos X hX : ∀ x ∈ (greedy (st.ct.map Prod.fst) tr.toFinset).map (codeOf code st), 0 < x)
    rw [if_neg this.ne']
    exact WithTop.coe_ne_top

/-- C54 fails. A model fitted on `[[1]]` gives the transaction `[1]` an infinite code length, the same as an unknown
transaction: its only itemset has a code of length zero (`-log2(1)`). Here `code` is any function that is zero when the two arguments agree. -/
theorem code_length_single (code : ℕ → ℕ → R) (hcode : ∀ n, code n n = 0) :
    getCodeLength code (prefit (exP false) [] [[1], [1]]) [[1], [2]] = .ok [⊤, ⊤] := by
  have h := getCodeLength_eq [] [[1], [1]] (prefit (exP false) [] [[1], [1]]) (Reach.prefit (κ := ℕ) (exP false)) code [[1], [2]]
  rw [h]
  have h1 : (greedy ((prefit (exP false) [] [[1], [1]]).ct.map Prod.fst) [1].toFinset) = [{1}] := by decide
  have h2 : (greedy ((prefit (exP false) [] [[1], [1]]).ct.map Prod.fst) [2].toFinset) = [] := by decide
  have h3 : codeOf code (prefit (exP false) [] [[1], [1]]) {1} = 0 := by
    have e1 : (lookup (prefit (exP false) [] [[1], [1]]).ct {1}).card = 2 := by decide
    have e2 : ((prefit (exP false) [] [[1], [1]]).ct.map (fun e => e.2.card + 1)).sum = 3 := by decide
    unfold codeOf
    rw [e1, e2]
    exact hcode 3
  unfold lengthOf
  simp only [List.map_cons, List.map_nil, h1, h2, h3, List.sum_cons, List.sum_nil, add_zero, if_true]

/-- Lengths with `code u total = total - u`: `[1, 2]` is covered by `{1, 2}`, `[1, 3]` by two singletons. -/
example : (((update (exP false) exChoose (prefit (exP false) [] [[1, 2], [1, 2, 3]]) {1, 2}).bind Except.toOption).bind
      (fun st => (getCodeLength (fun u total => total - u) st [[2, 1, 9], [9], [1, 3]]).toOption)) =
    some ([((4 : ℕ) : WithTop ℕ), ⊤, ((6 + 5 : ℕ) : WithTop ℕ)] : List (WithTop ℕ)) := by decide

end Verif.Slim
