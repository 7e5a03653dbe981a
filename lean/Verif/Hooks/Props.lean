import Verif.Hooks.Model

/-! # Properties of callbacks and parameters (C29, C30) -/

set_option autoImplicit false
set_option linter.unusedSectionVars false

namespace Verif.Hooks

variable {O I N V : Type*} [DecidableEq N]

/-! ### Specification -/

/-- The arguments show the value `v`: alone, unpacked, after the miner, or packed in a tuple; or the callback asked for the miner only. -/
inductive Shows (ob : Objects O) (v : O) : List O → Prop
  | value : Shows ob v [v]
  | unpacked (l : List O) : ob.items v = some l → Shows ob v l
  | withSelf : Shows ob v [ob.self, v]
  | selfUnpacked (l : List O) : ob.items v = some l → Shows ob v (ob.self :: l)
  | selfOnly : Shows ob v [ob.self]
  | packed (l : List O) : Shows ob v (ob.self :: l) → Shows ob v [ob.tuple (ob.self :: l)]

/-- The callbacks attached to method `n` by a history of attachments: those of the attachments naming existing methods only. -/
def attachedTo (m : Miner N I O) (hist : List (List (N × Callback O))) (n : N) : List (Callback O) :=
  ((hist.filter (fun cbs => cbs.all (fun nc => (m nc.1).isSome))).flatten.filter (fun nc => nc.1 = n)).map Prod.snd

/-! ### Lemmas -/

theorem foldl_attachOne (ob : Objects O) (cbs : List (N × Callback O)) (m : Miner N I O) (n : N) :
    (cbs.foldl (attachOne ob) m) n =
      (m n).map (fun f => ((cbs.filter (fun nc => nc.1 = n)).map Prod.snd).foldl (post ob) f) := by
  induction cbs generalizing m with
  | nil => simp
  | cons nc cbs ih =>
    rw [List.foldl_cons, ih]
    by_cases h : nc.1 = n
    · rw [List.filter_cons_of_pos (by simpa using h), List.map_cons, attachOne, if_pos h.symm, Option.map_map]
      rfl
    · rw [List.filter_cons_of_neg (by simpa using h), attachOne, if_neg (fun e => h e.symm)]

theorem attach_isSome (ob : Objects O) (m : Miner N I O) (cbs : List (N × Callback O)) (n : N) :
    ((attach ob m cbs).1 n).isSome = (m n).isSome := by
  unfold attach
  split
  · simp only; rw [foldl_attachOne]; cases m n <;> rfl
  · rfl

theorem attachMany_eq (ob : Objects O) (hist : List (List (N × Callback O))) (m : Miner N I O) (n : N) :
    attachMany ob m hist n = (m n).map (fun f => (attachedTo m hist n).foldl (post ob) f) := by
  induction hist generalizing m with
  | nil =>
    change m n = _
    cases m n <;> rfl
  | cons cbs hist ih =>
    have h1 : attachMany ob m (cbs :: hist) = attachMany ob (attach ob m cbs).1 hist := rfl
    have h2 : attachedTo (attach ob m cbs).1 hist n = attachedTo m hist n := by
      unfold attachedTo
      simp only [attach_isSome]
    rw [h1, ih, h2]
    unfold attach
    split
    · next hall =>
      simp only
      rw [foldl_attachOne, Option.map_map]
      have : attachedTo m (cbs :: hist) n = (cbs.filter (fun nc => nc.1 = n)).map Prod.snd ++ attachedTo m hist n := by
        unfold attachedTo
        rw [List.filter_cons_of_pos (p := fun cbs : List (N × Callback O) => cbs.all (fun nc => (m nc.1).isSome)) hall, List.flatten_cons, List.filter_append, List.map_append]
      rw [this]
      congr 1
      funext f
      simp only [Function.comp, List.foldl_append]
    · next hall =>
      have : attachedTo m (cbs :: hist) n = attachedTo m hist n := by
        unfold attachedTo
        rw [List.filter_cons_of_neg (p := fun cbs : List (N × Callback O) => cbs.all (fun nc => (m nc.1).isSome)) hall]
      rw [this]

theorem post_ok (ob : Objects O) (f : Method I O) (cb : Callback O) (i : I) (v : O) (h : (post ob f cb i).2 = .ok v) :
    (f i).2 = .ok v ∧ (after ob cb v).2 = none ∧ (post ob f cb i).1 = (f i).1 ++ (after ob cb v).1 := by
  unfold post at h ⊢
  rcases hf : f i with ⟨l, r⟩
  rw [hf] at h
  cases r with
  | error e => cases h
  | ok res =>
    simp only at h ⊢
    rcases ha : after ob cb res with ⟨l', _ | e⟩
    · rw [ha] at h
      simp only [Except.ok.injEq] at h
      subst h
      rw [ha]
      exact ⟨rfl, rfl, rfl⟩
    · rw [ha] at h; cases h

theorem post_error (ob : Objects O) (f : Method I O) (cb : Callback O) (i : I) (e : Exc) (h : (f i).2 = .error e) :
    post ob f cb i = f i := by
  unfold post
  rcases hf : f i with ⟨l, r⟩
  rw [hf] at h
  simp only at h
  subst h
  rfl

theorem post_returns (ob : Objects O) (f : Method I O) (cb : Callback O) (i : I) (v : O) (h : (f i).2 = .ok v)
    (ha : (after ob cb v).2 = none) : (post ob f cb i).2 = .ok v := by
  unfold post
  rcases hf : f i with ⟨l, r⟩
  rw [hf] at h
  simp only at h
  subst h
  simp only
  rcases hb : after ob cb v with ⟨l', _ | e⟩
  · rfl
  · rw [hb] at ha; cases ha

theorem invoke_once (cb : Callback O) (args : List O) (h : (invoke cb args).2 = none) : (invoke cb args).1 = [(cb.ident, args)] := by
  unfold invoke at h ⊢
  cases hr : cb.run args with
  | returned => rfl
  | badArity => simp [hr] at h
  | raised e => simp [hr] at h

theorem tryCall_once (cb : Callback O) (hT : ∀ args, ∀ e, cb.run args = .raised e → e ≠ .typeError) (args : List O) (p : O)
    (h : (tryCall cb args p).2 = none) :
    ∃ a, (tryCall cb args p).1 = [(cb.ident, a)] ∧ (a = args ∨ a = [p]) := by
  unfold tryCall at h ⊢
  rcases hi : invoke cb args with ⟨l, _ | e⟩
  · rw [hi] at h
    have := invoke_once cb args (by rw [hi])
    rw [hi] at this
    exact ⟨args, this, Or.inl rfl⟩
  · rw [hi] at h
    cases e with
    | typeError =>
      simp only at h ⊢
      have h1 := invoke_once cb [p] h
      have hl : l = [] := by
        unfold invoke at hi
        cases hr : cb.run args with
        | returned => rw [hr] at hi; cases hi
        | badArity => rw [hr] at hi; cases hi; rfl
        | raised e =>
          rw [hr] at hi
          simp only [Prod.mk.injEq, Option.some.injEq] at hi
          exact absurd hi.2 (hT args e hr)
      rw [h1, hl]
      exact ⟨[p], rfl, Or.inr rfl⟩
    | valueError => cases h
    | other n => cases h

theorem after_once (ob : Objects O) (cb : Callback O) (hT : ∀ args, ∀ e, cb.run args = .raised e → e ≠ .typeError) (v : O)
    (h : (after ob cb v).2 = none) : ∃ a, (after ob cb v).1 = [(cb.ident, a)] ∧ Shows ob v a := by
  unfold after at h ⊢
  split
  · next hs =>
    rw [if_pos hs] at h
    split
    · next h2 =>
      rw [if_pos h2] at h
      obtain ⟨a, h1, h2 | h2⟩ := tryCall_once cb hT _ _ h
      · exact ⟨a, h1, h2 ▸ Shows.withSelf⟩
      · exact ⟨a, h1, h2 ▸ Shows.packed [v] Shows.withSelf⟩
    · next h2 =>
      rw [if_neg h2] at h
      split
      · next h3 =>
        rw [if_pos h3] at h
        split
        · next l e1 e2 =>
          simp only [e1, e2] at h
          obtain ⟨a, h1, h2 | h2⟩ := tryCall_once cb hT _ _ h
          · exact ⟨a, h1, h2 ▸ Shows.selfUnpacked l e2⟩
          · exact ⟨a, h1, h2 ▸ Shows.packed l (Shows.selfUnpacked l e2)⟩
        · next hno =>
          exfalso
          split at h
          · next l e1 e2 => exact hno l e1 e2
          · cases h
      · next h3 =>
        rw [if_neg h3] at h
        obtain ⟨a, h1, h2 | h2⟩ := tryCall_once cb hT _ _ h
        · exact ⟨a, h1, h2 ▸ Shows.selfOnly⟩
        · exact ⟨a, h1, h2 ▸ Shows.packed [] Shows.selfOnly⟩
  · next hs =>
    rw [if_neg hs] at h
    cases hi : ob.items v with
    | some l =>
      rw [hi] at h
      obtain ⟨a, h1, h2 | h2⟩ := tryCall_once cb hT _ _ h
      · exact ⟨a, h1, h2 ▸ Shows.unpacked l hi⟩
      · exact ⟨a, h1, h2 ▸ Shows.value⟩
    | none =>
      rw [hi] at h
      exact ⟨[v], invoke_once cb _ h, Shows.value⟩

/-! ### C29 -/

/-- C29, results. After any history of attachments a hooked method that returns, returns the value of the original; it raises what the
original raises, without running any callback; and it does return when no callback raises on the value. -/
theorem hook_transparent (ob : Objects O) (m : Miner N I O) (hist : List (List (N × Callback O))) (n : N) (f : Method I O)
    (hf : m n = some f) : ∃ g, attachMany ob m hist n = some g ∧ ∀ i,
      (∀ v, (g i).2 = .ok v → (f i).2 = .ok v) ∧
      (∀ e, (f i).2 = .error e → g i = f i) ∧
      (∀ v, (f i).2 = .ok v → (∀ cb ∈ attachedTo m hist n, (after ob cb v).2 = none) → (g i).2 = .ok v) := by
  rw [attachMany_eq, hf]
  refine ⟨_, rfl, fun i => ?_⟩
  clear hf
  generalize attachedTo m hist n = cbs
  induction cbs generalizing f with
  | nil => exact ⟨fun v h => h, fun e h => rfl, fun v h _ => h⟩
  | cons cb cbs ih =>
    simp only [List.foldl_cons]
    obtain ⟨h1, h2, h3⟩ := ih (post ob f cb)
    refine ⟨fun v h => (post_ok ob f cb i v (h1 v h)).1, fun e h => ?_, fun v h ha => ?_⟩
    · have hp := post_error ob f cb i e h
      exact (h2 e (by rw [hp]; exact h)).trans hp
    · exact h3 v (post_returns ob f cb i v h (ha cb List.mem_cons_self)) (fun c hc => ha c (List.mem_cons_of_mem _ hc))

/-- C29, calls, partial: a call of a hooked method that returns runs each attached callback exactly once per attachment, in the order of
attachment, on the returned value. Missing: callbacks that raise `TypeError` (run twice, `type_error_runs_twice`); and
attaching again runs again (`attached_twice_runs_twice`). -/
theorem hook_once_partial (ob : Objects O) (m : Miner N I O) (hist : List (List (N × Callback O))) (n : N) (f : Method I O)
    (hf : m n = some f)
    (hT : ∀ cb ∈ attachedTo m hist n, ∀ args, ∀ e, cb.run args = .raised e → e ≠ .typeError) :
    ∃ g, attachMany ob m hist n = some g ∧ ∀ i v, (g i).2 = .ok v →
      ∃ runs : Log O, (g i).1 = (f i).1 ++ runs ∧ runs.map Prod.fst = (attachedTo m hist n).map Callback.ident ∧
        ∀ r ∈ runs, Shows ob v r.2 := by
  rw [attachMany_eq, hf]
  refine ⟨_, rfl, fun i v => ?_⟩
  clear hf
  revert hT
  generalize attachedTo m hist n = cbs
  intro hT
  induction cbs generalizing f with
  | nil => exact fun _ => ⟨[], by simp, rfl, fun r h => by cases h⟩
  | cons cb cbs ih =>
    simp only [List.foldl_cons]
    intro h
    obtain ⟨runs, h1, h2, h3⟩ := ih (post ob f cb) (fun c hc => hT c (List.mem_cons_of_mem _ hc)) h
    have hv : (post ob f cb i).2 = .ok v := by
      have hkey : ∀ (cbs : List (Callback O)) (f : Method I O), ((cbs.foldl (post ob) f) i).2 = .ok v → (f i).2 = .ok v := by
        intro cbs
        induction cbs with
        | nil => exact fun f h => h
        | cons cb cbs ih2 => exact fun f h => (post_ok ob f cb i v (ih2 _ h)).1
      exact hkey cbs _ h
    obtain ⟨_, p2, p3⟩ := post_ok ob f cb i v hv
    obtain ⟨a, a1, a2⟩ := after_once ob cb (hT cb List.mem_cons_self) v p2
    refine ⟨(cb.ident, a) :: runs, ?_, ?_, ?_⟩
    · rw [h1, p3, a1, List.append_assoc]; rfl
    · rw [List.map_cons, List.map_cons, h2]
    · intro r hr
      rcases List.mem_cons.1 hr with hr | hr
      · rw [hr]; exact a2
      · exact h3 r hr

/-- C29: attaching callbacks one of which names a missing method raises and leaves the miner unchanged. Otherwise it does not raise. -/
theorem attach_missing (ob : Objects O) (m : Miner N I O) (cbs : List (N × Callback O)) :
    ((∃ nc ∈ cbs, m nc.1 = none) → attach ob m cbs = (m, some .valueError)) ∧
    ((∀ nc ∈ cbs, m nc.1 ≠ none) → (attach ob m cbs).2 = none) := by
  constructor
  · rintro ⟨nc, h1, h2⟩
    unfold attach
    rw [if_neg]
    intro h
    have := List.all_eq_true.1 h nc h1
    rw [h2] at this
    cases this
  · intro h
    unfold attach
    rw [if_pos]
    rw [List.all_eq_true]
    intro nc hnc
    exact Option.isSome_iff_ne_none.2 (h nc hnc)

/-- Objects for the examples: numbers are not iterable, lists of numbers are tuples, `none` is the miner. -/
def exOb : Objects (List ℕ ⊕ ℕ) where
  self := .inr 0
  items := fun o => match o with | .inl l => some (l.map Sum.inr) | .inr _ => none
  isTuple := fun o => o.isLeft
  tuple := fun l => .inl (l.map (fun o => match o with | .inl _ => 99 | .inr n => n))

/-- A miner with one method, returning a pair. -/
def exMiner : Miner ℕ ℕ (List ℕ ⊕ ℕ) := fun n => if n = 7 then some (fun i => ([], .ok (.inl [i, i + 1]))) else none

/-- Two callbacks on method `7`: one for two arguments, one for a single argument; the result is unchanged and both run once. -/
example : (attachMany exOb exMiner [[(7, ⟨1, false, 2, fun a => if a.length = 2 then .returned else .badArity⟩)],
      [(8, ⟨3, false, 1, fun _ => .returned⟩), (7, ⟨4, false, 1, fun _ => .returned⟩)],
      [(7, ⟨2, false, 1, fun a => if a.length = 1 then .returned else .badArity⟩)]] 7).map (fun g => g 5) =
    some ([(1, [.inr 5, .inr 6]), (2, [.inl [5, 6]])], .ok (.inl [5, 6])) := rfl

/-- C29 fails for a callback whose body raises `TypeError` on the unpacked value and returns on the value: it runs twice in one call. -/
theorem type_error_runs_twice :
    (attachMany exOb exMiner [[(7, ⟨1, false, 2, fun a => if a.length = 2 then .raised .typeError else .returned⟩)]] 7).map (fun g => g 5) =
      some ([(1, [.inr 5, .inr 6]), (1, [.inl [5, 6]])], .ok (.inl [5, 6])) := rfl

/-- C29 fails when the same collection is attached twice, as when a notebook cell is run again: the callback runs twice in one call. -/
theorem attached_twice_runs_twice (cb : Callback (List ℕ ⊕ ℕ)) (h : ∀ a, cb.run a = .returned) (hs : cb.hasSelf = false) :
    (attachMany exOb exMiner [[(7, cb)], [(7, cb)]] 7).map (fun g => (g 5).1) =
      some [(cb.ident, [.inr 5, .inr 6]), (cb.ident, [.inr 5, .inr 6])] := by
  rw [attachMany_eq]
  have : attachedTo exMiner [[(7, cb)], [(7, cb)]] 7 = [cb, cb] := rfl
  rw [this]
  simp [exMiner, post, after, hs, exOb, tryCall, invoke, h]

/-! ### C30 -/

theorem getParams_ok (names : List N) (a : Attrs N V) (h : ∀ n ∈ names, a n ≠ none) :
    ∃ out, getParams names a = .ok out ∧ out.map Prod.fst = names ∧ ∀ p ∈ out, a p.1 = some p.2 := by
  induction names with
  | nil => exact ⟨[], rfl, rfl, fun p h => by cases h⟩
  | cons n ns ih =>
    obtain ⟨out, h1, h2, h3⟩ := ih (fun m hm => h m (List.mem_cons_of_mem _ hm))
    obtain ⟨v, hv⟩ := Option.ne_none_iff_exists'.1 (h n List.mem_cons_self)
    refine ⟨(n, v) :: out, by rw [getParams, hv]; simp only; rw [h1], by rw [List.map_cons, h2], fun p hp => ?_⟩
    rcases List.mem_cons.1 hp with hp | hp
    · rw [hp]; exact hv
    · exact h3 p hp

theorem setLoop_ok (valid : List N) (ps : List (N × V)) (a : Attrs N V) (h : ∀ p ∈ ps, p.1 ∈ valid)
    (hnd : (ps.map Prod.fst).Nodup) :
    (setLoop valid ps a).2 = none ∧ (∀ p ∈ ps, (setLoop valid ps a).1 p.1 = some p.2) ∧
      ∀ n, n ∉ ps.map Prod.fst → (setLoop valid ps a).1 n = a n := by
  induction ps generalizing a with
  | nil => exact ⟨rfl, (fun p (hp : p ∈ []) => nomatch hp), fun n _ => rfl⟩
  | cons kv ps ih =>
    obtain ⟨k, v⟩ := kv
    rw [List.map_cons, List.nodup_cons] at hnd
    obtain ⟨h1, h2, h3⟩ := ih (Function.update a k (some v)) (fun p hp => h p (List.mem_cons_of_mem _ hp)) hnd.2
    rw [setLoop, if_pos (h (k, v) List.mem_cons_self)]
    refine ⟨h1, fun p hp => ?_, fun n hn => ?_⟩
    · rcases List.mem_cons.1 hp with hp | hp
      · rw [hp, h3 _ hnd.1]; exact Function.update_self _ _ _
      · exact h2 p hp
    · rw [List.map_cons, List.mem_cons, not_or] at hn
      rw [h3 n hn.2]; exact Function.update_of_ne hn.1 _ _

theorem setLoop_bad (valid : List N) (ps : List (N × V)) (k : N) (v : V) (rest : List (N × V)) (a : Attrs N V)
    (h : ∀ p ∈ ps, p.1 ∈ valid) (hk : k ∉ valid) :
    setLoop valid (ps ++ (k, v) :: rest) a = ((setLoop valid ps a).1, some .value) := by
  induction ps generalizing a with
  | nil => rw [List.nil_append]; exact if_neg hk
  | cons kv ps ih =>
    rw [List.cons_append, setLoop, if_pos (h kv List.mem_cons_self), setLoop, if_pos (h kv List.mem_cons_self)]
    exact ih _ (fun p hp => h p (List.mem_cons_of_mem _ hp))

/-- C30: `set_params(**get_params())` changes no attribute and does not raise. -/
theorem set_get_identity (names : List N) (a : Attrs N V) (hnd : names.Nodup) (h : ∀ n ∈ names, a n ≠ none) :
    ∃ ps, getParams names a = .ok ps ∧ setParams names a ps = (a, none) := by
  obtain ⟨out, h1, h2, h3⟩ := getParams_ok names a h
  refine ⟨out, h1, ?_⟩
  unfold setParams
  split
  · rfl
  · rw [h1]
    simp only
    obtain ⟨e1, e2, e3⟩ := setLoop_ok (out.map Prod.fst) out a (fun p hp => List.mem_map_of_mem hp) (h2 ▸ hnd)
    have : (setLoop (out.map Prod.fst) out a).1 = a := by
      funext n
      by_cases hn : n ∈ out.map Prod.fst
      · obtain ⟨p, hp, rfl⟩ := List.mem_map.1 hn
        rw [e2 p hp, h3 p hp]
      · exact e3 n hn
    exact Prod.ext this e1

/-- C30: setting known names does not raise; afterwards `get_params` gives the new value for the names set and the old value for the
others, and no other attribute of the estimator changes. -/
theorem set_then_get (names : List N) (a : Attrs N V) (h : ∀ n ∈ names, a n ≠ none) (ps : List (N × V))
    (hps : ∀ p ∈ ps, p.1 ∈ names) (hnd : (ps.map Prod.fst).Nodup) :
    (setParams names a ps).2 = none ∧
    (∃ out, getParams names (setParams names a ps).1 = .ok out ∧ out.map Prod.fst = names ∧
      ∀ n v, (n, v) ∈ out → ((n, v) ∈ ps ∨ (n ∉ ps.map Prod.fst ∧ a n = some v))) ∧
    ∀ n, n ∉ ps.map Prod.fst → (setParams names a ps).1 n = a n := by
  obtain ⟨cur, h1, h2, _⟩ := getParams_ok names a h
  obtain ⟨e1, e2, e3⟩ := setLoop_ok names ps a hps hnd
  have hset : setParams names a ps = setLoop names ps a := by
    unfold setParams
    split
    · next he => rw [he]; rfl
    · rw [h1]; simp only; rw [h2]
  rw [hset]
  refine ⟨e1, ?_, e3⟩
  have hall : ∀ n ∈ names, (setLoop names ps a).1 n ≠ none := by
    intro n hn
    by_cases hm : n ∈ ps.map Prod.fst
    · obtain ⟨p, hp, rfl⟩ := List.mem_map.1 hm
      rw [e2 p hp]; exact Option.some_ne_none _
    · rw [e3 n hm]; exact h n hn
  obtain ⟨out, o1, o2, o3⟩ := getParams_ok names _ hall
  refine ⟨out, o1, o2, fun n v hnv => ?_⟩
  have hv := o3 (n, v) hnv
  simp only at hv
  by_cases hm : n ∈ ps.map Prod.fst
  · obtain ⟨p, hp, rfl⟩ := List.mem_map.1 hm
    rw [e2 p hp, Option.some.injEq] at hv
    exact Or.inl (hv ▸ hp)
  · rw [e3 n hm] at hv
    exact Or.inr ⟨hm, hv⟩

/-- C30, unknown name, partial: the call raises `ValueError`, the names before the first unknown one are set and nothing else changes. So
the estimator is unchanged if the unknown name comes first. Missing: an unknown name after known ones, where it is
false (`set_params_not_atomic`). -/
theorem set_unknown_partial (names : List N) (a : Attrs N V) (h : ∀ n ∈ names, a n ≠ none) (ps rest : List (N × V)) (k : N) (v : V)
    (hps : ∀ p ∈ ps, p.1 ∈ names) (hnd : (ps.map Prod.fst).Nodup) (hk : k ∉ names) :
    (setParams names a (ps ++ (k, v) :: rest)).2 = some .value ∧
    (∀ p ∈ ps, (setParams names a (ps ++ (k, v) :: rest)).1 p.1 = some p.2) ∧
    (∀ n, n ∉ ps.map Prod.fst → (setParams names a (ps ++ (k, v) :: rest)).1 n = a n) ∧
    (ps = [] → (setParams names a (ps ++ (k, v) :: rest)).1 = a) := by
  obtain ⟨cur, h1, h2, _⟩ := getParams_ok names a h
  obtain ⟨e1, e2, e3⟩ := setLoop_ok names ps a hps hnd
  have hset : setParams names a (ps ++ (k, v) :: rest) = ((setLoop names ps a).1, some .value) := by
    unfold setParams
    rw [if_neg (by simp), h1]
    simp only
    rw [h2, setLoop_bad names ps k v rest a hps hk]
  rw [hset]
  exact ⟨rfl, e2, e3, fun hp => by rw [hp]; rfl⟩

/-- C30 fails: with parameters `0` and `1`, `set_params(0=5, 9=6)` raises but parameter `0` has changed. -/
theorem set_params_not_atomic :
    (setParams [0, 1] (fun n : ℕ => if n ≤ 1 then some (10 : ℕ) else none) [(0, 5), (9, 6)]).2 = some .value ∧
    (setParams [0, 1] (fun n : ℕ => if n ≤ 1 then some (10 : ℕ) else none) [(0, 5), (9, 6)]).1 0 = some 5 := by
  constructor <;> rfl

/-- Two parameters, one set. -/
example : (getParams [0, 1] (setParams [0, 1] (fun n : ℕ => if n ≤ 1 then some (10 : ℕ) else none) [(1, 5)]).1).toOption =
    some [(0, 10), (1, 5)] := rfl

end Verif.Hooks
