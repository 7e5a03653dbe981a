import Verif.Fold.Lemmas

/-!
# Invariant of the centers, and of following chains
-/

set_option autoImplicit false
set_option linter.unusedSectionVars false

namespace Verif.Fold

/-- An entry with positions `a < b < c`. -/
def Good (P : Par) (occs : List ℤ) (a b c : ℕ) (dE dp : ℤ) : Prop :=
  a < b ∧ b < c ∧ ∃ x y z, occs[a]? = some x ∧ occs[b]? = some y ∧ occs[c]? = some z ∧ dE = |(z - y) - (y - x)| ∧ dp = min (z - y) (y - x) ∧ P.small dE = true ∧
    ∀ m, P.maxP = some m → y - x < m ∧ z - y < m

theorem Good.near {P : Par} {occs : List ℤ} {a b c : ℕ} {dE dp : ℤ} (h : Good P occs a b c dE dp) : Near P.small P.maxP occs a b c := by
  obtain ⟨h1, h2, x, y, z, hx, hy, hz, rfl, -, h3, h4⟩ := h
  exact ⟨h1, h2, x, y, z, hx, hy, hz, h3, h4⟩

/-- The invariant after center `i`. -/
structure Inv (P : Par) (occs : List ℤ) (i : ℕ) (s : St) : Prop where
  test : ∀ x ∈ s.test, Good P occs x.2.2.2 x.1.1 x.1.2 x.2.1 x.2.2.1
  trip : ∀ x ∈ s.trip, Good P occs x.2.2.2 x.1.1 x.1.2 x.2.1 x.2.2.1
  fwd : ∀ x ∈ s.fwd, Good P occs x.1.1 x.1.2 x.2.2.2 x.2.1 x.2.2.1
  bck : ∀ x ∈ s.bck, Good P occs x.2.2.2 x.1.1 x.1.2 x.2.1 x.2.2.1
  keys : ∀ k ∈ s.fwd.map Prod.fst, k ∈ s.bck.map Prod.fst
  fwdLe : ∀ k ∈ s.fwd.map Prod.fst, k.2 ≤ i
  tripLt : ∀ k ∈ s.trip.map Prod.fst, k.2 < i
  disjTest : ∀ k ∈ s.fwd.map Prod.fst, k ∉ s.test.map Prod.fst
  disjTrip : ∀ k ∈ s.fwd.map Prod.fst, k ∉ s.trip.map Prod.fst

theorem updFwd_inv {P : Par} {occs : List ℤ} {a i c : ℕ} {dE dp : ℤ} {s : St} (h : Inv P occs i s) (hg : Good P occs a i c dE dp) : Inv P occs i (updFwd a i c dE dp s) := by
  unfold updFwd
  split
  · split
    · exact h
    · rename_i v hv
      have hv := lookup_mem hv
      refine ⟨fun x hx => h.test x (mem_del.1 hx).1, h.trip, ?_, ?_, ?_, ?_, h.tripLt, ?_, ?_⟩
      · intro x hx
        rcases mem_set hx with rfl | hx
        · exact hg
        · exact h.fwd x hx
      · intro x hx
        rcases mem_set hx with rfl | hx
        · exact h.test _ hv
        · exact h.bck x hx
      · intro k hk
        rw [key_set] at hk ⊢
        rcases hk with hk | hk
        · exact Or.inl hk
        · exact Or.inr (h.keys k hk)
      · intro k hk
        rw [key_set] at hk
        rcases hk with rfl | hk
        · exact Nat.le_refl _
        · exact h.fwdLe k hk
      · intro k hk hk'
        rw [key_set] at hk
        rw [key_del] at hk'
        rcases hk with rfl | hk
        · exact hk'.2 rfl
        · exact h.disjTest k hk hk'.1
      · intro k hk hk'
        rw [key_set] at hk
        rcases hk with rfl | hk
        · have := h.tripLt _ hk'; simp only at this; omega
        · exact h.disjTrip k hk hk'
  · rename_i w hw
    split
    · have hw := List.mem_map_of_mem (f := Prod.fst) (lookup_mem hw)
      simp only at hw
      have hk' : ∀ k, k ∈ (Dict.set (a, i) (dE, dp, c) s.fwd).map Prod.fst → k ∈ s.fwd.map Prod.fst := by
        intro k hk
        rw [key_set] at hk
        rcases hk with rfl | hk
        · exact hw
        · exact hk
      refine ⟨h.test, h.trip, ?_, h.bck, fun k hk => h.keys k (hk' k hk), fun k hk => h.fwdLe k (hk' k hk), h.tripLt, fun k hk => h.disjTest k (hk' k hk), fun k hk => h.disjTrip k (hk' k hk)⟩
      intro x hx
      rcases mem_set hx with rfl | hx
      · exact hg
      · exact h.fwd x hx
    · exact h

theorem updTest_inv {P : Par} {occs : List ℤ} {a i c : ℕ} {dE dp : ℤ} {s : St} (h : Inv P occs i s) (hg : Good P occs a i c dE dp) : Inv P occs i (updTest a i c dE dp s) := by
  have key : Inv P occs i { s with test := Dict.set (i, c) (dE, dp, a) s.test } := by
    refine ⟨?_, h.trip, h.fwd, h.bck, h.keys, h.fwdLe, h.tripLt, ?_, h.disjTrip⟩
    · intro x hx
      rcases mem_set hx with rfl | hx
      · exact hg
      · exact h.test x hx
    · intro k hk hk'
      rw [key_set] at hk'
      rcases hk' with rfl | hk'
      · have h1 := h.fwdLe _ hk
        have h2 := hg.2.1
        simp only at h1
        omega
      · exact h.disjTest k hk hk'
  unfold updTest
  split
  · exact key
  · split
    · exact key
    · exact h

theorem flush_inv {P : Par} {occs : List ℤ} {i : ℕ} {s : St} (h : Inv P occs i s) : Inv P occs i (flush i s) := by
  unfold flush
  split
  · have hu : ∀ x, x ∈ Dict.update s.trip (s.test.filter (fun x => decide (x.1.2 < i))) → x ∈ s.trip ∨ (x ∈ s.test ∧ x.1.2 < i) := by
      intro x hx
      rcases mem_update hx with hx | hx
      · exact Or.inl hx
      · have := List.mem_filter.1 hx
        exact Or.inr ⟨this.1, by simpa using this.2⟩
    refine ⟨fun x hx => h.test x (List.mem_filter.1 hx).1, ?_, h.fwd, h.bck, h.keys, h.fwdLe, ?_, ?_, ?_⟩
    · intro x hx
      rcases hu x hx with hx | hx
      · exact h.trip x hx
      · exact h.test x hx.1
    · intro k hk
      obtain ⟨x, hx, rfl⟩ := List.mem_map.1 hk
      rcases hu x hx with hx | hx
      · exact h.tripLt _ (List.mem_map_of_mem hx)
      · exact hx.2
    · intro k hk hk'
      obtain ⟨x, hx, rfl⟩ := List.mem_map.1 hk'
      exact h.disjTest _ hk (List.mem_map_of_mem (List.mem_filter.1 hx).1)
    · intro k hk hk'
      obtain ⟨x, hx, rfl⟩ := List.mem_map.1 hk'
      rcases hu x hx with hx | hx
      · exact h.disjTrip _ hk (List.mem_map_of_mem hx)
      · exact h.disjTest _ hk (List.mem_map_of_mem hx.1)
  · exact h

theorem Inv.mono {P : Par} {occs : List ℤ} {i j : ℕ} {s : St} (h : Inv P occs i s) (hij : i ≤ j) : Inv P occs j s :=
  ⟨h.test, h.trip, h.fwd, h.bck, h.keys, fun k hk => (h.fwdLe k hk).trans hij, fun k hk => (h.tripLt k hk).trans_le hij, h.disjTest, h.disjTrip⟩

theorem center_ok {P : Par} {fuel : ℕ} {occs : List ℤ} (hs : occs.Pairwise (· < ·)) (hf : occs.length + 2 ≤ fuel) {i : ℕ} (hi : i < occs.length) {s : St} (h : Inv P occs i s) :
    ∃ s', center P fuel occs s i = some s' ∧ Inv P occs i s' := by
  obtain ⟨y, hy⟩ : ∃ y, occs[i]? = some y := ⟨_, List.getElem?_eq_getElem hi⟩
  have hlen : (aft P occs i).length ≤ occs.length := by
    have : ((occs.drop (i + 1)).map (fun o => o - occs.getD i 0)).length ≤ occs.length := by simp
    unfold aft
    split
    · exact this
    · exact (List.length_filter_le _ _).trans this
  obtain ⟨l, hl, hl'⟩ := scan_ok P fuel (aft P occs i) (bef P occs i)
    (by intro a ha; obtain ⟨k, hk⟩ := List.mem_iff_getElem?.1 ha; exact (aft_get P occs hs i y hy k a hk).1)
    (by intro b hb; obtain ⟨k, hk⟩ := List.mem_iff_getElem?.1 hb; exact (bef_get P occs hs i y hy k b hk).1)
    (by omega) ((aft P occs i).length + (bef P occs i).length + 1) 0 0 [] (by simp) (by simp) (by omega) (by omega) (by omega)
  refine ⟨_, by rw [center, hl]; rfl, flush_inv ?_⟩
  clear hl
  revert s
  induction l with
  | nil => intro s h; exact h
  | cons x l ih =>
    intro s h
    rw [List.foldl_cons]
    refine ih (fun x hx => hl' x (List.mem_cons_of_mem _ hx)) ?_
    obtain ⟨a, b, ha, hb, hsm⟩ := hl' x List.mem_cons_self
    have h1 := aft_get P occs hs i y hy x.1 a ha
    have h2 := bef_get P occs hs i y hy x.2 b hb
    have hg : Good P occs (i - x.2 - 1) i (i + x.1 + 1) |a + b| (min a (-b)) := by
      refine ⟨by omega, by omega, y + b, y, y + a, h2.2.2.1, hy, h1.2.1, ?_, ?_, hsm, ?_⟩
      · congr 1; ring
      · congr 1 <;> ring
      · intro m hm
        have e1 := h1.2.2 m hm
        have e2 := h2.2.2.2 m hm
        constructor <;> omega
    unfold upd
    rw [getD_of ha, getD_of hb]
    exact updTest_inv (updFwd_inv h hg) hg

theorem centers_ok {P : Par} {fuel : ℕ} {occs : List ℤ} (hs : occs.Pairwise (· < ·)) (hf : occs.length + 2 ≤ fuel) :
    ∃ s, centers P fuel occs = some s ∧ (∀ x ∈ s.trip, Good P occs x.2.2.2 x.1.1 x.1.2 x.2.1 x.2.2.1) ∧ (∀ x ∈ s.fwd, Good P occs x.1.1 x.1.2 x.2.2.2 x.2.1 x.2.2.1) ∧
      (∀ x ∈ s.bck, Good P occs x.2.2.2 x.1.1 x.1.2 x.2.1 x.2.2.1) ∧ (∀ k ∈ s.fwd.map Prod.fst, k ∈ s.bck.map Prod.fst) ∧ ∀ k ∈ s.fwd.map Prod.fst, k ∉ s.trip.map Prod.fst := by
  have key : ∀ (n i : ℕ) (s : St), i + n ≤ occs.length → Inv P occs i s → ∃ j s', (List.range' i n).foldlM (center P fuel occs) s = some s' ∧ Inv P occs j s' := by
    intro n
    induction n with
    | zero => intro i s _ h; exact ⟨i, s, rfl, h⟩
    | succ n ih =>
      intro i s hle h
      rw [List.range'_succ, List.foldlM_cons]
      obtain ⟨s', e, h'⟩ := center_ok (fuel := fuel) hs hf (by omega) h
      rw [e]
      exact ih (i + 1) s' (by omega) (h'.mono (by omega))
  have h0 : Inv P occs 1 ⟨[], [], [], []⟩ := by constructor <;> simp
  have hc : ∃ j s', (List.range' 1 (occs.length - 1)).foldlM (center P fuel occs) ⟨[], [], [], []⟩ = some s' ∧ Inv P occs j s' := by
    by_cases h : occs.length = 0
    · rw [h]; exact ⟨1, _, rfl, h0⟩
    · exact key _ 1 _ (by omega) h0
  obtain ⟨j, s, hs', h⟩ := hc
  refine ⟨{ s with trip := Dict.update s.trip s.test }, by rw [centers, hs']; rfl, ?_, h.fwd, h.bck, h.keys, ?_⟩
  · intro x hx
    rcases mem_update hx with hx | hx
    · exact h.trip x hx
    · exact h.test x hx
  · intro k hk hk'
    obtain ⟨x, hx, rfl⟩ := List.mem_map.1 hk'
    rcases mem_update hx with hx | hx
    · exact h.disjTrip _ hk (List.mem_map_of_mem hx)
    · exact h.disjTest _ hk (List.mem_map_of_mem hx)

/-! ### Chains -/

theorem minKey_mem : ∀ {l : List (ℕ × ℕ)} {k : ℕ × ℕ}, minKey l = some k → k ∈ l := by
  intro l
  induction l with
  | nil => intro k h; simp [minKey] at h
  | cons a l ih =>
    intro k h
    rw [minKey] at h
    split at h
    · simp only [Option.some.injEq] at h; rw [h]; exact List.mem_cons_self
    · rename_i m hm
      split at h
      · simp only [Option.some.injEq] at h; rw [h]; exact List.mem_cons_self
      · simp only [Option.some.injEq] at h; exact List.mem_cons_of_mem _ (ih (h ▸ hm))

theorem minKey_none {l : List (ℕ × ℕ)} (h : minKey l = none) : l = [] := by
  cases l with
  | nil => rfl
  | cons a l =>
    rw [minKey] at h
    split at h
    · cases h
    · split at h <;> cases h

/-- Every three consecutive positions. -/
def NearChain (P : Par) (occs : List ℤ) : List ℕ → Prop
  | a :: b :: c :: l => Near P.small P.maxP occs a b c ∧ NearChain P occs (b :: c :: l)
  | _ => True

theorem del_length {k : ℕ × ℕ} {v : ℤ × ℤ × ℕ} {d : Dict} (h : d.lookup k = some v) : (Dict.del k d).length + 1 ≤ d.length := by
  unfold Dict.del
  have := List.length_filter_lt_length_iff_exists (p := fun x : (ℕ × ℕ) × (ℤ × ℤ × ℕ) => decide (x.1 ≠ k)) (l := d)
  have h' := this.2 ⟨(k, v), lookup_mem h, by simp⟩
  omega

theorem follow_ok {P : Par} {occs : List ℤ} : ∀ (n : ℕ) (fwd trip : Dict) (a b : ℕ), fwd.length ≤ n → (∀ x ∈ fwd, Good P occs x.1.1 x.1.2 x.2.2.2 x.2.1 x.2.2.1) →
    ∃ l fwd' trip', follow n fwd trip a b = some (l, fwd', trip') ∧ fwd'.Sublist fwd ∧ trip'.Sublist trip ∧ NearChain P occs (a :: b :: l) ∧
      (consecutive (a :: b :: l).dropLast).Nodup ∧ (∀ k ∈ consecutive (a :: b :: l).dropLast, k ∈ fwd.map Prod.fst ∧ k ∉ fwd'.map Prod.fst) ∧
      (∀ k ∈ consecutive (b :: l), k ∉ trip'.map Prod.fst) ∧ ((a, b) ∈ fwd.map Prod.fst → l ≠ []) := by
  intro n
  induction n with
  | zero =>
    intro fwd trip a b hn _
    have : fwd = [] := List.length_eq_zero_iff.1 (by omega)
    subst this
    exact ⟨[], [], trip, by simp [follow], List.Sublist.refl _, List.Sublist.refl _, trivial, by simp [consecutive], by simp [consecutive], by simp [consecutive], by simp⟩
  | succ n ih =>
    intro fwd trip a b hn hg
    cases hl : fwd.lookup (a, b) with
    | none =>
      refine ⟨[], fwd, trip, by rw [follow, hl], List.Sublist.refl _, List.Sublist.refl _, trivial, by simp [consecutive], by simp [consecutive], by simp [consecutive], ?_⟩
      intro h
      obtain ⟨v, hv⟩ := lookup_some h
      rw [hl] at hv; cases hv
    | some v =>
      have hlen := del_length hl
      obtain ⟨l, fwd', trip', e, h1, h2, h3, h4, h5, h6, -⟩ := ih (Dict.del (a, b) fwd) (Dict.del (b, v.2.2) trip) b v.2.2 (by omega) (fun x hx => hg x (mem_del.1 hx).1)
      have hcons : consecutive (a :: b :: v.2.2 :: l).dropLast = (a, b) :: consecutive (b :: v.2.2 :: l).dropLast := rfl
      refine ⟨v.2.2 :: l, fwd', trip', by rw [follow, hl]; simp only; rw [e]; rfl, h1.trans List.filter_sublist, h2.trans List.filter_sublist, ⟨(hg _ (lookup_mem hl)).near, h3⟩, ?_, ?_, ?_, by simp⟩
      · rw [hcons, List.nodup_cons]
        refine ⟨?_, h4⟩
        intro h
        have := (h5 _ h).1
        rw [key_del] at this
        exact this.2 rfl
      · intro k hk
        rw [hcons, List.mem_cons] at hk
        rcases hk with rfl | hk
        · refine ⟨List.mem_map_of_mem (f := Prod.fst) (lookup_mem hl), ?_⟩
          intro h
          have := (h1.map Prod.fst).subset h
          rw [key_del] at this
          exact this.2 rfl
        · exact ⟨(key_del.1 (h5 k hk).1).1, (h5 k hk).2⟩
      · intro k hk
        have : consecutive (b :: v.2.2 :: l) = (b, v.2.2) :: consecutive (v.2.2 :: l) := rfl
        rw [this, List.mem_cons] at hk
        rcases hk with rfl | hk
        · intro h
          have := (h2.map Prod.fst).subset h
          rw [key_del] at this
          exact this.2 rfl
        · exact h6 k hk

theorem chainLoop_ok {P : Par} {occs : List ℤ} (bck : Dict) (hb : ∀ x ∈ bck, Good P occs x.2.2.2 x.1.1 x.1.2 x.2.1 x.2.2.1) :
    ∀ (n : ℕ) (fwd trip : Dict), fwd.length ≤ n → (∀ x ∈ fwd, Good P occs x.1.1 x.1.2 x.2.2.2 x.2.1 x.2.2.1) → (∀ k ∈ fwd.map Prod.fst, k ∈ bck.map Prod.fst) →
      (∀ k ∈ fwd.map Prod.fst, k ∉ trip.map Prod.fst) →
      ∃ cs trip', chainLoop n fwd bck trip = some (cs, trip') ∧ trip'.Sublist trip ∧ (∀ c ∈ cs, 4 ≤ c.length ∧ NearChain P occs c ∧ ∀ k ∈ consecutive c.tail, k ∉ trip'.map Prod.fst) ∧
        (cs.flatMap innerPairs).Nodup ∧ ∀ k ∈ cs.flatMap innerPairs, k ∈ fwd.map Prod.fst := by
  intro n
  induction n with
  | zero =>
    intro fwd trip hn _ _ _
    have : fwd = [] := List.length_eq_zero_iff.1 (by omega)
    subst this
    exact ⟨[], trip, by simp [chainLoop, minKey], List.Sublist.refl _, by simp, by simp, by simp⟩
  | succ n ih =>
    intro fwd trip hn hg hk ht
    cases hm : minKey (fwd.map Prod.fst) with
    | none =>
      exact ⟨[], trip, by rw [chainLoop, hm], List.Sublist.refl _, by simp, by simp, by simp⟩
    | some kf =>
      have hkf := minKey_mem hm
      obtain ⟨v, hv⟩ := lookup_some (hk kf hkf)
      obtain ⟨l, fwd', trip', e, h1, h2, h3, h4, h5, h6, h7⟩ := follow_ok (P := P) (occs := occs) fwd.length fwd trip kf.1 kf.2 (Nat.le_refl _) hg
      have hl := h7 hkf
      have hlt : fwd'.length < fwd.length := by
        rcases Nat.lt_or_ge fwd'.length fwd.length with h | h
        · exact h
        · have := h1.eq_of_length_le h
          have h8 : (kf.1, kf.2) ∈ consecutive (kf.1 :: kf.2 :: l).dropLast := by
            cases l with
            | nil => exact absurd rfl hl
            | cons x l => exact List.mem_cons_self
          have := h5 _ h8
          rw [‹fwd' = fwd›] at this
          exact absurd this.1 this.2
      obtain ⟨cs, trip'', e', g1, g2, g3, g4⟩ := ih fwd' trip' (by omega) (fun x hx => hg x (h1.subset hx)) (fun k hk' => hk k ((h1.map _).subset hk'))
        (fun k hk' hk'' => ht k ((h1.map _).subset hk') ((h2.map _).subset hk''))
      refine ⟨(v.2.2 :: kf.1 :: kf.2 :: l) :: cs, trip'', ?_, g1.trans h2, ?_, ?_, ?_⟩
      · rw [chainLoop, hm]
        simp only [hv, e, e']
        rfl
      · intro c hc
        rcases List.mem_cons.1 hc with rfl | hc
        · refine ⟨?_, ⟨(hb _ (lookup_mem hv)).near, h3⟩, ?_⟩
          · cases l with
            | nil => exact absurd rfl hl
            | cons x l => simp
          · intro k hk'
            have : consecutive (v.2.2 :: kf.1 :: kf.2 :: l).tail = (kf.1, kf.2) :: consecutive (kf.2 :: l) := rfl
            rw [this, List.mem_cons] at hk'
            rcases hk' with rfl | hk'
            · intro h
              exact ht _ hkf ((h2.map _).subset ((g1.map _).subset h))
            · intro h
              exact h6 k hk' ((g1.map _).subset h)
        · exact g2 c hc
      · rw [List.flatMap_cons, List.nodup_append]
        refine ⟨h4, g3, ?_⟩
        intro k hk1 k' hk2 heq
        subst heq
        exact (h5 k hk1).2 (g4 k hk2)
      · intro k hk'
        rw [List.flatMap_cons, List.mem_append] at hk'
        rcases hk' with hk' | hk'
        · exact (h5 k hk').1
        · exact (h1.map _).subset (g4 k hk')

theorem nearChain_get {P : Par} {occs : List ℤ} : ∀ {l : List ℕ}, NearChain P occs l → ∀ (i a b c : ℕ), l[i]? = some a → l[i + 1]? = some b → l[i + 2]? = some c → Near P.small P.maxP occs a b c := by
  intro l
  induction l with
  | nil => intro _ i a b c h; simp at h
  | cons x l ih =>
    intro hc i a b c ha hb hc'
    cases i with
    | zero =>
      cases l with
      | nil => simp at hb
      | cons y l =>
        cases l with
        | nil => simp at hc'
        | cons z l =>
          simp only [List.getElem?_cons_zero, Nat.zero_add, List.getElem?_cons_succ, Option.some.injEq] at ha hb hc'
          subst ha hb hc'
          exact hc.1
    | succ i =>
      refine ih ?_ i a b c (by simpa using ha) (by simpa using hb) (by simpa using hc')
      cases l with
      | nil => trivial
      | cons y l =>
        cases l with
        | nil => trivial
        | cons z l => exact hc.2

theorem nearChain_pairwise {P : Par} {occs : List ℤ} : ∀ {l : List ℕ}, 3 ≤ l.length → NearChain P occs l → l.Pairwise (· < ·) ∧ ∀ k ∈ l, k < occs.length := by
  intro l hl hc
  have lt_of : ∀ {k : ℕ} {x : ℤ}, occs[k]? = some x → k < occs.length := fun h => (List.getElem?_eq_some_iff.1 h).1
  have key : ∀ (l : List ℕ) (a b : ℕ), a < b → b < occs.length → NearChain P occs (a :: b :: l) → (b :: l).Pairwise (· < ·) ∧ (∀ k ∈ b :: l, a < k) ∧ ∀ k ∈ l, k < occs.length := by
    intro l
    induction l with
    | nil => intro a b hab _ _; simp [hab]
    | cons c l ih =>
      intro a b hab _ h
      obtain ⟨⟨h1, h2, x, y, z, hx, hy, hz, -⟩, h3⟩ := h
      obtain ⟨i1, i2, i3⟩ := ih b c h2 (lt_of hz) h3
      refine ⟨List.pairwise_cons.2 ⟨i2, i1⟩, ?_, ?_⟩
      · intro k hk
        rcases List.mem_cons.1 hk with rfl | hk
        · exact hab
        · have := i2 k hk; omega
      · intro k hk
        rcases List.mem_cons.1 hk with rfl | hk
        · exact lt_of hz
        · exact i3 k hk
  match l, hl, hc with
  | a :: b :: c :: l, _, hc =>
    obtain ⟨h1, h2, x, y, z, hx, hy, hz, -⟩ := hc.1
    obtain ⟨i1, i2, i3⟩ := key (c :: l) a b h1 (lt_of hy) hc
    refine ⟨List.pairwise_cons.2 ⟨i2, i1⟩, ?_⟩
    intro k hk
    rcases List.mem_cons.1 hk with rfl | hk
    · exact lt_of hx
    · rcases List.mem_cons.1 hk with rfl | hk
      · exact lt_of hy
      · exact i3 k hk

end Verif.Fold
