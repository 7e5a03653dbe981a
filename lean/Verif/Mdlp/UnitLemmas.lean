import Verif.Mdlp.Shuffle
import Mathlib.Tactic.LinearCombination

/-! # Lemmas for the units of the discretizer (C117) -/

set_option autoImplicit false
set_option linter.unusedSectionVars false

namespace Verif.Mdlp

open FI

/-! ### Counting the values of a function -/

theorem card_image_le_of {A : Finset ℕ} {φ φ' : ℕ → ℚ} (h : ∀ k ∈ A, ∀ l ∈ A, φ' k = φ' l → φ k = φ l) : (A.image φ).card ≤ (A.image φ').card := by
  classical
  obtain ⟨g, hg⟩ : ∃ g : ℚ → ℚ, ∀ k ∈ A, g (φ' k) = φ k := by
    refine ⟨fun q => if hq : ∃ k ∈ A, φ' k = q then φ hq.choose else 0, ?_⟩
    intro k hk
    have hq : ∃ l ∈ A, φ' l = φ' k := ⟨k, hk, rfl⟩
    simp only [dif_pos hq]
    exact h _ hq.choose_spec.1 k hk hq.choose_spec.2
  have e : A.image φ = (A.image φ').image g := by
    rw [Finset.image_image]
    refine Finset.image_congr ?_
    intro k hk
    exact (hg k hk).symm
  rw [e]
  exact Finset.card_image_le

theorem card_image_eq_of {A : Finset ℕ} {φ φ' : ℕ → ℚ} (h : ∀ k ∈ A, ∀ l ∈ A, φ k = φ l ↔ φ' k = φ' l) : (A.image φ).card = (A.image φ').card :=
  le_antisymm (card_image_le_of (fun k hk l hl => (h k hk l hl).2)) (card_image_le_of (fun k hk l hl => (h k hk l hl).1))

/-! ### Midpoints of sorted values -/

theorem mid_lt_iff {a b v : ℚ} (hab : a ≤ b) (hv : b ≤ v ∨ v ≤ a) : (a + b) / 2 < v ↔ a < v := by
  constructor
  · intro h
    rcases hv with hv | hv
    · by_contra hn; linarith
    · linarith
  · intro h
    rcases hv with hv | hv
    · linarith
    · linarith

theorem mid_eq_iff {a b c d : ℚ} (h1 : a ≤ b) (h2 : b ≤ c) (h3 : c ≤ d) : (a + b) / 2 = (c + d) / 2 ↔ a = d := by
  constructor
  · intro h; linarith
  · intro h; have : a = b := by linarith
    have : c = d := by linarith
    linarith

/-- The samples with their values changed by `f`. -/
def revalue (f : ℚ → ℚ) (s : List (ℚ × ℕ)) : List (ℚ × ℕ) := s.map (fun x => (f x.1, x.2))

theorem revalue_labels (f : ℚ → ℚ) (s : List (ℚ × ℕ)) : (revalue f s).map Prod.snd = s.map Prod.snd := by
  unfold revalue; rw [List.map_map]; rfl

theorem revalue_get (f : ℚ → ℚ) (s : List (ℚ × ℕ)) (k : ℕ) (a : ℚ × ℕ) : (revalue f s)[k]? = some a ↔ ∃ b, s[k]? = some b ∧ a = (f b.1, b.2) := by
  unfold revalue
  rw [List.getElem?_map, Option.map_eq_some_iff]
  simp only [eq_comm]

theorem revalue_sorted {f : ℚ → ℚ} (hf : Monotone f) {s : List (ℚ × ℕ)} (h : s.Pairwise (fun a b => a.1 ≤ b.1)) : (revalue f s).Pairwise (fun a b => a.1 ≤ b.1) := by
  unfold revalue
  rw [List.pairwise_map]
  exact h.imp (fun h => hf h)

theorem sorted_get {s : List (ℚ × ℕ)} (h : s.Pairwise (fun a b => a.1 ≤ b.1)) {i j : ℕ} {a b : ℚ × ℕ} (hij : i ≤ j) (ha : s[i]? = some a) (hb : s[j]? = some b) : a.1 ≤ b.1 := by
  obtain ⟨hi, rfl⟩ := List.getElem?_eq_some_iff.1 ha
  obtain ⟨hj, rfl⟩ := List.getElem?_eq_some_iff.1 hb
  rcases Nat.eq_or_lt_of_le hij with rfl | hlt
  · exact le_refl _
  · exact List.pairwise_iff_getElem.1 h i j hi hj hlt

theorem cutAt_pos {E : Type*} [LinearOrder E] {y : List ℕ} {score : ℕ → ℕ → ℕ → E} {better : ℕ → ℕ → ℕ → Bool} {k : ℕ} (h : CutAt y score better k) : 0 < k ∧ k < y.length := by
  obtain ⟨_, _, _, _, _, hb, _⟩ := h
  exact ⟨hb.1, hb.2.1⟩

/-- The cut points of one column before and after an increasing change of its values: the same number below each sample. -/
theorem column_revalue (f : ℚ → ℚ) (hf : StrictMono f) (s : List (ℚ × ℕ)) (hne : s ≠ []) (hs : s.Pairwise (fun a b => a.1 ≤ b.1)) (fuel : ℕ) (hfuel : 2 * s.length ≤ fuel) :
    ∃ cuts cuts', fitColumn fuel s = some (.ok cuts) ∧ fitColumn fuel (revalue f s) = some (.ok cuts') ∧ cuts.Pairwise (· < ·) ∧ cuts'.Pairwise (· < ·) ∧
      (∀ x ∈ s, cuts'.countP (· < f x.1) = cuts.countP (· < x.1)) ∧
      (∀ a b : ℚ, (∀ x, f x = a * x + b) → cuts' = cuts.map f) := by
  classical
  have hs' : (revalue f s).Pairwise (fun a b => a.1 ≤ b.1) := revalue_sorted hf.monotone hs
  have hlen : (revalue f s).length = s.length := by unfold revalue; rw [List.length_map]
  obtain ⟨cuts, h1, h2, h3⟩ := fit_cuts (scoreOf (s.map Prod.snd)) (betterOf (s.map Prod.snd)) s s hne (List.Perm.refl s) hs fuel hfuel
  obtain ⟨cuts', h1', h2', h3'⟩ := fit_cuts (scoreOf (s.map Prod.snd)) (betterOf (s.map Prod.snd)) (revalue f s) (revalue f s) (by unfold revalue; simpa using hne) (List.Perm.refl _) hs' fuel (by rw [hlen]; exact hfuel)
  rw [revalue_labels] at h3'
  refine ⟨cuts, cuts', h1, by unfold fitColumn; rw [revalue_labels]; exact h1', h2, h2', ?_, ?_⟩
  · obtain ⟨X, hX⟩ : ∃ X : ℕ → ℚ, ∀ k a, s[k]? = some a → X k = a.1 := ⟨fun k => (s.map Prod.fst).getD k 0, fun k a h => by simp [List.getD_eq_getElem?_getD, h]⟩
    obtain ⟨J, hJ⟩ : ∃ J : Finset ℕ, ∀ k, k ∈ J ↔ CutAt (s.map Prod.snd) (scoreOf (s.map Prod.snd)) (betterOf (s.map Prod.snd)) k :=
      ⟨(Finset.range s.length).filter (fun k => CutAt (s.map Prod.snd) (scoreOf (s.map Prod.snd)) (betterOf (s.map Prod.snd)) k), fun k => by
        rw [Finset.mem_filter, Finset.mem_range]
        exact ⟨fun h => h.2, fun h => ⟨by simpa using (cutAt_pos h).2, h⟩⟩⟩
    have hJr : ∀ k ∈ J, 0 < k ∧ ∃ a b, s[k - 1]? = some a ∧ s[k]? = some b := by
      intro k hk
      obtain ⟨p1, p2⟩ := cutAt_pos ((hJ k).1 hk)
      rw [List.length_map] at p2
      exact ⟨p1, _, _, List.getElem?_eq_getElem (by omega), List.getElem?_eq_getElem p2⟩
    have e1 : cuts.toFinset = J.image (fun k => (X (k - 1) + X k) / 2) := by
      ext c
      rw [List.mem_toFinset, h3, Finset.mem_image]
      constructor
      · rintro ⟨k, a, b, hk, ha, hb, rfl⟩
        exact ⟨k, (hJ k).2 hk, by rw [hX _ _ ha, hX _ _ hb]⟩
      · rintro ⟨k, hk, rfl⟩
        obtain ⟨-, a, b, ha, hb⟩ := hJr k hk
        exact ⟨k, a, b, (hJ k).1 hk, ha, hb, by rw [hX _ _ ha, hX _ _ hb]⟩
    have e2 : cuts'.toFinset = J.image (fun k => (f (X (k - 1)) + f (X k)) / 2) := by
      ext c
      rw [List.mem_toFinset, h3', Finset.mem_image]
      constructor
      · rintro ⟨k, a, b, hk, ha, hb, rfl⟩
        obtain ⟨a1, ha1, rfl⟩ := (revalue_get f s _ _).1 ha
        obtain ⟨b1, hb1, rfl⟩ := (revalue_get f s _ _).1 hb
        exact ⟨k, (hJ k).2 hk, by rw [hX _ _ ha1, hX _ _ hb1]⟩
      · rintro ⟨k, hk, rfl⟩
        obtain ⟨-, a, b, ha, hb⟩ := hJr k hk
        exact ⟨k, _, _, (hJ k).1 hk, (revalue_get f s _ _).2 ⟨a, ha, rfl⟩, (revalue_get f s _ _).2 ⟨b, hb, rfl⟩, by rw [hX _ _ ha, hX _ _ hb]⟩
    have hcount : ∀ (l : List ℚ), l.Pairwise (· < ·) → ∀ v, l.countP (· < v) = (l.toFinset.filter (· < v)).card := by
      intro l hl v
      have hn : l.Nodup := hl.imp (fun h => ne_of_lt h)
      rw [List.countP_eq_length_filter, ← List.toFinset_card_of_nodup (hn.filter _), List.toFinset_filter]
      simp
    intro x hx
    obtain ⟨i, hi⟩ := List.getElem?_of_mem hx
    have hmid : ∀ k ∈ J, ((X (k - 1) + X k) / 2 < x.1 ↔ X (k - 1) < x.1) ∧ ((f (X (k - 1)) + f (X k)) / 2 < f x.1 ↔ X (k - 1) < x.1) := by
      intro k hk
      obtain ⟨hk0, a, b, ha, hb⟩ := hJr k hk
      have hab := sorted_get hs (Nat.sub_le k 1) ha hb
      rw [hX _ _ ha, hX _ _ hb]
      have hv : b.1 ≤ x.1 ∨ x.1 ≤ a.1 := by
        rcases Nat.lt_or_ge i k with h | h
        · exact Or.inr (sorted_get hs (by omega) hi ha)
        · exact Or.inl (sorted_get hs h hb hi)
      refine ⟨mid_lt_iff hab hv, ?_⟩
      rw [mid_lt_iff (hf.monotone hab) (hv.imp (fun h => hf.monotone h) (fun h => hf.monotone h)), hf.lt_iff_lt]
    rw [hcount _ h2', hcount _ h2, e1, e2, Finset.filter_image, Finset.filter_image]
    have ea : J.filter (fun k => (f (X (k - 1)) + f (X k)) / 2 < f x.1) = J.filter (fun k => (X (k - 1) + X k) / 2 < x.1) := by
      refine Finset.filter_congr ?_
      intro k hk
      rw [(hmid k hk).1, (hmid k hk).2]
    rw [ea]
    refine card_image_eq_of ?_
    have hlt : ∀ k ∈ J, ∀ l ∈ J, k < l → ((f (X (k - 1)) + f (X k)) / 2 = (f (X (l - 1)) + f (X l)) / 2 ↔ (X (k - 1) + X k) / 2 = (X (l - 1) + X l) / 2) := by
      intro k hk l hl hkl
      obtain ⟨-, a, b, ha, hb⟩ := hJr k hk
      obtain ⟨-, c, d, hc, hd⟩ := hJr l hl
      have q1 := sorted_get hs (Nat.sub_le k 1) ha hb
      have q2 := sorted_get hs (show k ≤ l - 1 by omega) hb hc
      have q3 := sorted_get hs (Nat.sub_le l 1) hc hd
      rw [hX _ _ ha, hX _ _ hb, hX _ _ hc, hX _ _ hd, mid_eq_iff q1 q2 q3, mid_eq_iff (hf.monotone q1) (hf.monotone q2) (hf.monotone q3), hf.injective.eq_iff]
    intro k hk l hl
    have hk := (Finset.mem_filter.1 hk).1
    have hl := (Finset.mem_filter.1 hl).1
    rcases Nat.lt_trichotomy k l with h | h | h
    · exact hlt k hk l hl h
    · subst h; simp
    · rw [eq_comm, hlt l hl k hk h, eq_comm]
  · intro a b hab
    have hmap : (cuts.map f).Pairwise (· < ·) := by
      rw [List.pairwise_map]; exact h2.imp (fun h => hf h)
    refine List.Perm.eq_of_pairwise (le := (· < ·)) (fun x y _ _ h h' => absurd h' (not_lt.2 h.le)) h2' hmap ?_
    rw [List.perm_ext_iff_of_nodup (h2'.imp (fun h => ne_of_lt h)) (hmap.imp (fun h => ne_of_lt h))]
    intro c
    rw [h3', List.mem_map]
    constructor
    · rintro ⟨k, p, q, hk, hp, hq, rfl⟩
      obtain ⟨p1, hp1, rfl⟩ := (revalue_get f s _ _).1 hp
      obtain ⟨q1, hq1, rfl⟩ := (revalue_get f s _ _).1 hq
      exact ⟨_, (h3 _).2 ⟨k, p1, q1, hk, hp1, hq1, rfl⟩, by simp only [hab]; ring⟩
    · rintro ⟨c, hc, rfl⟩
      obtain ⟨k, p, q, hk, hp, hq, rfl⟩ := (h3 _).1 hc
      exact ⟨k, _, _, hk, (revalue_get f s _ _).2 ⟨p, hp, rfl⟩, (revalue_get f s _ _).2 ⟨q, hq, rfl⟩, by simp only [hab]; ring⟩

/-! ### Labels -/

theorem count_map_inj {g : ℕ → ℕ} (hg : Function.Injective g) (y : List ℕ) (c : ℕ) : (y.map g).count (g c) = y.count c := List.count_map_of_injective y g hg c

theorem Ent_map {g : ℕ → ℕ} (hg : Function.Injective g) (y : List ℕ) : Ent (y.map g) = Ent y := by
  unfold Ent
  have e : (y.map g).toFinset = y.toFinset.image g := by ext a; simp
  rw [e, Finset.sum_image (fun a _ b _ h => hg h)]
  refine Finset.sum_congr rfl ?_
  intro c _
  rw [count_map_inj hg, List.length_map]

theorem classes_map {g : ℕ → ℕ} (hg : Function.Injective g) (y : List ℕ) : classes (y.map g) = classes y := by
  unfold classes
  have e : (y.map g).toFinset = y.toFinset.image g := by ext a; simp
  rw [e, Finset.card_image_of_injective _ hg]

theorem slice_map (g : ℕ → ℕ) (y : List ℕ) (s e : ℕ) : slice (y.map g) s e = (slice y s e).map g := by
  unfold slice; rw [List.map_take, List.map_drop]

theorem scoreOf_map {g : ℕ → ℕ} (hg : Function.Injective g) (y : List ℕ) : scoreOf (y.map g) = scoreOf y := by
  funext s e k
  unfold scoreOf
  simp only [slice_map, entropyOf_eq, Ent_map hg]

theorem betterOf_map {g : ℕ → ℕ} (hg : Function.Injective g) (y : List ℕ) : betterOf (y.map g) = betterOf y := by
  funext s e k
  unfold betterOf
  simp only [slice_map, entropyOf_eq, nbOnes_eq, Ent_map hg, classes_map hg]

theorem loop_map_labels {E : Type*} [LinearOrder E] {g : ℕ → ℕ} (hg : Function.Injective g) (y : List ℕ) (score : ℕ → ℕ → ℕ → E) (better : ℕ → ℕ → ℕ → Bool) (X : List ℚ) :
    loop (y.map g) score better X = loop y score better X := by
  have hstep : ∀ sc : ℕ → E, cutStep (y.map g) sc = cutStep y sc := by
    intro sc
    funext b i
    unfold cutStep
    simp only [List.getElem?_map, (Option.map_injective hg).eq_iff]
  have hgen : ∀ s e, generateCut (y.map g) score s e = generateCut y score s e := by
    intro s e; unfold generateCut; rw [hstep]
  funext fuel
  induction fuel with
  | zero => funext st acc; cases st <;> rfl
  | succ n ih =>
    funext st acc
    cases st with
    | nil => rfl
    | cons iv st =>
      obtain ⟨a, b⟩ := iv
      rw [loop, loop, hgen, ih]

/-- Renaming the classes changes nothing. -/
theorem fitColumn_labels {g : ℕ → ℕ} (hg : Function.Injective g) (fuel : ℕ) (s : List (ℚ × ℕ)) : fitColumn fuel (s.map (fun x => (x.1, g x.2))) = fitColumn fuel s := by
  have e1 : (s.map (fun x => (x.1, g x.2))).map Prod.snd = (s.map Prod.snd).map g := by rw [List.map_map, List.map_map]; rfl
  have e2 : (s.map (fun x => (x.1, g x.2))).map Prod.fst = s.map Prod.fst := by rw [List.map_map]; rfl
  unfold fitColumn fitSorted
  rw [e1, e2, scoreOf_map hg, betterOf_map hg, loop_map_labels hg, List.length_map]

end Verif.Mdlp
