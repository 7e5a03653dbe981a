import Verif.Fold.Model
import Verif.Fold.Spec
import Mathlib.Tactic.Common
import Mathlib.Tactic.Ring
import Mathlib.Data.List.Basic

/-!
# Lemmas for chains and triples
-/

set_option autoImplicit false
set_option linter.unusedSectionVars false

namespace Verif.Fold

/-! ### The periods already seen -/

theorem seenLoop_ok (dp alt : ℤ) (hdp : 0 < dp) (halt : 0 < alt) : ∀ (f : ℕ) (seen : List ℤ) (ipp : ℕ), (∀ v ∈ seen, 0 < v) → seen.length + 2 ≤ f + ipp → ipp ≤ seen.length →
    ∃ seen' ipp', seenLoop dp alt f seen ipp = some (seen', ipp') ∧ (∀ v ∈ seen', 0 < v) ∧ ((0 ≤ ipp' ∧ seen' = seen) ∨ (ipp' < 0 ∧ seen'.length = seen.length + 1)) := by
  intro f
  induction f with
  | zero => intro seen ipp _ h h'; omega
  | succ f ih =>
    intro seen ipp hpos hf hi
    rw [seenLoop, if_pos (by omega)]
    simp only [Int.toNat_natCast]
    have hneg : ∀ (w v : ℤ), 0 < v → 0 < w → v ∈ seen → ∃ seen' ipp', seenLoop dp alt f (seen ++ [w]) (-v) = some (seen', ipp') ∧ (∀ v ∈ seen', 0 < v) ∧
        ((0 ≤ ipp' ∧ seen' = seen) ∨ (ipp' < 0 ∧ seen'.length = seen.length + 1)) := by
      intro w v hv hw hm
      have : 0 < seen.length := List.length_pos_of_mem hm
      obtain ⟨f', rfl⟩ : ∃ f', f = f' + 1 := ⟨f - 1, by omega⟩
      refine ⟨seen ++ [w], -v, ?_, ?_, Or.inr ⟨by omega, by simp⟩⟩
      · rw [seenLoop, if_neg (by omega)]
      · intro u hu
        rcases List.mem_append.1 hu with h | h
        · exact hpos u h
        · rw [List.mem_singleton.1 h]; exact hw
    cases hg : seen[ipp]? with
    | none => exact ⟨seen, ipp, by simp, hpos, Or.inl ⟨by omega, rfl⟩⟩
    | some v =>
      have hm : v ∈ seen := List.mem_of_getElem? hg
      have hl : ipp < seen.length := (List.getElem?_eq_some_iff.1 hg).1
      simp only
      split
      · exact hneg dp v (hpos v hm) hdp hm
      · split
        · by_cases h1 : f = 0
          · omega
          · exact hneg alt v (hpos v hm) halt hm
        · have := ih seen (ipp + 1) hpos (by omega) (by omega)
          simpa using this

/-! ### The two sides of a center -/

theorem filter_prefix {α : Type} (p : α → Bool) : ∀ (l : List α), l.Pairwise (fun x y => p y = true → p x = true) → l.filter p <+: l := by
  intro l
  induction l with
  | nil => intro _; simp
  | cons a l ih =>
    intro h
    rw [List.pairwise_cons] at h
    by_cases ha : p a = true
    · rw [List.filter_cons_of_pos ha]
      exact (List.prefix_cons_inj a).2 (ih h.2)
    · have : l.filter p = [] := by
        rw [List.filter_eq_nil_iff]
        intro b hb hpb
        exact ha (h.1 b hb hpb)
      rw [List.filter_cons_of_neg ha, this]
      exact List.nil_prefix

theorem prefix_get {α : Type} {l l' : List α} (h : l <+: l') {k : ℕ} {a : α} (hk : l[k]? = some a) : l'[k]? = some a := by
  obtain ⟨t, rfl⟩ := h
  rw [List.getElem?_append_left (List.getElem?_eq_some_iff.1 hk).1]
  exact hk

theorem getD_of {α : Type} {l : List α} {k : ℕ} {a d : α} (h : l[k]? = some a) : l.getD k d = a := by
  rw [List.getD_eq_getElem?_getD, h]; rfl

theorem aft_get (P : Par) (occs : List ℤ) (hs : occs.Pairwise (· < ·)) (i : ℕ) (y : ℤ) (hy : occs[i]? = some y) (k : ℕ) (a : ℤ) (h : (aft P occs i)[k]? = some a) :
    0 < a ∧ occs[i + k + 1]? = some (y + a) ∧ ∀ m, P.maxP = some m → a < m := by
  have hyD : occs.getD i 0 = y := getD_of hy
  have key : ((occs.drop (i + 1)).map (fun o => o - occs.getD i 0))[k]? = some a → 0 < a ∧ occs[i + k + 1]? = some (y + a) := by
    intro h
    rw [List.getElem?_map, Option.map_eq_some_iff] at h
    obtain ⟨z, hz, rfl⟩ := h
    rw [List.getElem?_drop] at hz
    rw [hyD]
    have e : i + 1 + k = i + k + 1 := by omega
    rw [e] at hz
    refine ⟨?_, by rw [hz]; congr 1; omega⟩
    obtain ⟨h1, e1⟩ := List.getElem?_eq_some_iff.1 hy
    obtain ⟨h2, e2⟩ := List.getElem?_eq_some_iff.1 hz
    have := List.pairwise_iff_getElem.1 hs i (i + k + 1) h1 h2 (by omega)
    omega
  unfold aft at h
  split at h
  · rename_i hm
    exact ⟨(key h).1, (key h).2, by intro m hm'; rw [hm] at hm'; cases hm'⟩
  · rename_i m hm
    have hp : ((occs.drop (i + 1)).map (fun o => o - occs.getD i 0)).filter (fun x => decide (x < m)) <+: ((occs.drop (i + 1)).map (fun o => o - occs.getD i 0)) := by
      refine filter_prefix _ _ ?_
      rw [List.pairwise_map]
      refine (hs.sublist (List.drop_sublist _ _)).imp ?_
      intro u v huv
      simp only [decide_eq_true_eq]
      omega
    have := key (prefix_get hp h)
    refine ⟨this.1, this.2, ?_⟩
    intro m' hm'
    rw [hm] at hm'
    cases hm'
    have := (List.mem_filter.1 (List.mem_of_getElem? h)).2
    simpa using this

theorem bef_get (P : Par) (occs : List ℤ) (hs : occs.Pairwise (· < ·)) (i : ℕ) (y : ℤ) (hy : occs[i]? = some y) (k : ℕ) (b : ℤ) (h : (bef P occs i)[k]? = some b) :
    b < 0 ∧ k < i ∧ occs[i - k - 1]? = some (y + b) ∧ ∀ m, P.maxP = some m → -b < m := by
  have hyD : occs.getD i 0 = y := getD_of hy
  obtain ⟨h1, e1⟩ := List.getElem?_eq_some_iff.1 hy
  have key : ((occs.take i).reverse.map (fun o => o - occs.getD i 0))[k]? = some b → b < 0 ∧ k < i ∧ occs[i - k - 1]? = some (y + b) := by
    intro h
    rw [List.getElem?_map, Option.map_eq_some_iff] at h
    obtain ⟨z, hz, rfl⟩ := h
    have hk : k < i := by
      have := (List.getElem?_eq_some_iff.1 hz).1
      simp only [List.length_reverse, List.length_take] at this
      omega
    rw [List.getElem?_reverse (by simp only [List.length_take]; omega), List.getElem?_take] at hz
    have e : (List.take i occs).length - 1 - k = i - k - 1 := by simp only [List.length_take]; omega
    rw [e, if_pos (by omega)] at hz
    rw [hyD]
    refine ⟨?_, hk, by rw [hz]; congr 1; omega⟩
    obtain ⟨h2, e2⟩ := List.getElem?_eq_some_iff.1 hz
    have := List.pairwise_iff_getElem.1 hs (i - k - 1) i h2 h1 (by omega)
    omega
  unfold bef at h
  split at h
  · rename_i hm
    exact ⟨(key h).1, (key h).2.1, (key h).2.2, by intro m hm'; rw [hm] at hm'; cases hm'⟩
  · rename_i m hm
    have hp : ((occs.take i).reverse.map (fun o => o - occs.getD i 0)).filter (fun x => decide (-m < x)) <+: ((occs.take i).reverse.map (fun o => o - occs.getD i 0)) := by
      refine filter_prefix _ _ ?_
      rw [List.pairwise_map, List.pairwise_reverse]
      refine (hs.sublist (List.take_sublist _ _)).imp ?_
      intro u v huv
      simp only [decide_eq_true_eq]
      omega
    have := key (prefix_get hp h)
    refine ⟨this.1, this.2.1, this.2.2, ?_⟩
    intro m' hm'
    rw [hm] at hm'
    cases hm'
    have := (List.mem_filter.1 (List.mem_of_getElem? h)).2
    simp only [decide_eq_true_eq] at this
    omega

/-! ### The loop over the two sides -/

theorem scan_ok (P : Par) (fuel : ℕ) (aft bef : List ℤ) (ha : ∀ a ∈ aft, 0 < a) (hb : ∀ b ∈ bef, b < 0) (hf : aft.length + 2 ≤ fuel) :
    ∀ (g ia ib : ℕ) (seen : List ℤ), (∀ v ∈ seen, 0 < v) → seen.length ≤ ia → ia ≤ aft.length → ib ≤ bef.length → aft.length + bef.length + 1 ≤ g + ia + ib →
      ∃ l, scan P fuel aft bef g ia ib seen = some l ∧ ∀ x ∈ l, ∃ a b, aft[x.1]? = some a ∧ bef[x.2]? = some b ∧ P.small |a + b| = true := by
  intro g
  induction g with
  | zero => intro ia ib seen _ _ h1 h2 h3; omega
  | succ g ih =>
    intro ia ib seen hpos hlen h1 h2 h3
    rw [scan]
    cases hA : aft[ia]? with
    | none => exact ⟨[], rfl, by simp⟩
    | some a =>
      cases hB : bef[ib]? with
      | none => exact ⟨[], rfl, by simp⟩
      | some b =>
        have hal := (List.getElem?_eq_some_iff.1 hA).1
        have hbl := (List.getElem?_eq_some_iff.1 hB).1
        have hap := ha a (List.mem_of_getElem? hA)
        have hbp := hb b (List.mem_of_getElem? hB)
        simp only
        split
        · exact ih ia (ib + 1) seen hpos hlen h1 (by omega) (by omega)
        · split
          · exact ih (ia + 1) ib seen hpos (by omega) (by omega) h2 (by omega)
          · split
            · rename_i hsm
              obtain ⟨seen', ipp', e, hp', hc⟩ := seenLoop_ok (min a (-b)) (max a (-b)) (by omega) (by omega) fuel seen 0 hpos (by omega) (by omega)
              simp only [Nat.cast_zero] at e
              rw [e]
              simp only
              split
              · rename_i h0
                rcases hc with ⟨-, rfl⟩ | ⟨hc, -⟩
                · obtain ⟨l, hl, hl'⟩ := ih (ia + 1) (ib + 1) (seen' ++ [min a (-b)]) (by
                    intro v hv
                    rcases List.mem_append.1 hv with h | h
                    · exact hp' v h
                    · rw [List.mem_singleton.1 h]; omega) (by simp; omega) (by omega) (by omega) (by omega)
                  refine ⟨(ia, ib) :: l, by rw [hl]; rfl, ?_⟩
                  intro x hx
                  rcases List.mem_cons.1 hx with rfl | hx
                  · exact ⟨a, b, hA, hB, hsm⟩
                  · exact hl' x hx
                · omega
              · rename_i h0
                rcases hc with ⟨hc, -⟩ | ⟨-, hc⟩
                · omega
                · exact ih (ia + 1) (ib + 1) seen' hp' (by omega) (by omega) (by omega) (by omega)
            · exact ih (ia + 1) (ib + 1) seen hpos (by omega) (by omega) (by omega) (by omega)

/-! ### Dictionaries -/

theorem lookup_mem {k : ℕ × ℕ} {v : ℤ × ℤ × ℕ} : ∀ {d : Dict}, d.lookup k = some v → (k, v) ∈ d := by
  intro d
  induction d with
  | nil => intro h; simp at h
  | cons x d ih =>
    intro h
    obtain ⟨k', v'⟩ := x
    rw [List.lookup_cons] at h
    split at h
    · rename_i hk
      simp only [Option.some.injEq] at h
      rw [h]
      have := eq_of_beq hk
      rw [this]
      exact List.mem_cons_self
    · exact List.mem_cons_of_mem _ (ih h)

theorem lookup_some {k : ℕ × ℕ} : ∀ {d : Dict}, k ∈ d.map Prod.fst → ∃ v, d.lookup k = some v := by
  intro d
  induction d with
  | nil => intro h; simp at h
  | cons x d ih =>
    intro h
    obtain ⟨k', v'⟩ := x
    rw [List.lookup_cons]
    split
    · exact ⟨v', rfl⟩
    · rename_i hk
      rw [List.map_cons, List.mem_cons] at h
      rcases h with h | h
      · simp only at h; subst h; simp at hk
      · exact ih h

theorem mem_set {k : ℕ × ℕ} {v : ℤ × ℤ × ℕ} {x : (ℕ × ℕ) × (ℤ × ℤ × ℕ)} : ∀ {d : Dict}, x ∈ Dict.set k v d → x = (k, v) ∨ x ∈ d := by
  intro d
  induction d with
  | nil => intro h; left; simpa [Dict.set] using h
  | cons y d ih =>
    intro h
    rw [Dict.set] at h
    split at h
    · rcases List.mem_cons.1 h with h | h
      · exact Or.inl h
      · exact Or.inr (List.mem_cons_of_mem _ h)
    · rcases List.mem_cons.1 h with h | h
      · exact Or.inr (h ▸ List.mem_cons_self)
      · rcases ih h with h | h
        · exact Or.inl h
        · exact Or.inr (List.mem_cons_of_mem _ h)

theorem key_set {k : ℕ × ℕ} {v : ℤ × ℤ × ℕ} {k' : ℕ × ℕ} : ∀ {d : Dict}, k' ∈ (Dict.set k v d).map Prod.fst ↔ k' = k ∨ k' ∈ d.map Prod.fst := by
  intro d
  induction d with
  | nil => simp [Dict.set]
  | cons y d ih =>
    rw [Dict.set]
    split
    · rename_i h
      simp only [List.map_cons, List.mem_cons, h]
      tauto
    · simp only [List.map_cons, List.mem_cons, ih]
      tauto

theorem mem_del {k : ℕ × ℕ} {x : (ℕ × ℕ) × (ℤ × ℤ × ℕ)} {d : Dict} : x ∈ Dict.del k d ↔ x ∈ d ∧ x.1 ≠ k := by
  simp [Dict.del]

theorem key_del {k k' : ℕ × ℕ} {d : Dict} : k' ∈ (Dict.del k d).map Prod.fst ↔ k' ∈ d.map Prod.fst ∧ k' ≠ k := by
  constructor
  · intro h
    obtain ⟨x, hx, rfl⟩ := List.mem_map.1 h
    have := mem_del.1 hx
    exact ⟨List.mem_map_of_mem this.1, this.2⟩
  · rintro ⟨h, hne⟩
    obtain ⟨x, hx, rfl⟩ := List.mem_map.1 h
    exact List.mem_map_of_mem (mem_del.2 ⟨hx, hne⟩)

theorem mem_update {x : (ℕ × ℕ) × (ℤ × ℤ × ℕ)} : ∀ {e d : Dict}, x ∈ Dict.update d e → x ∈ d ∨ x ∈ e := by
  intro e
  induction e with
  | nil => intro d h; exact Or.inl h
  | cons y e ih =>
    intro d h
    rw [Dict.update, List.foldl_cons] at h
    rcases ih h with h | h
    · rcases mem_set h with h | h
      · right; rw [h]; exact List.mem_cons_self
      · exact Or.inl h
    · exact Or.inr (List.mem_cons_of_mem _ h)

end Verif.Fold
