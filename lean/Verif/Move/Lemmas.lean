import Verif.Move.Model

namespace Verif.Move

open Spec

theorem putM_get (m : MS) (x : String) (b : Bool) (m' : MS) (h : putM m x b = some m')
    (y : String) : getM m' y = if y = x then b else getM m y := by
  induction m generalizing m' with
  | nil => simp [putM] at h
  | cons p m ih =>
    obtain ⟨z, c⟩ := p
    rw [putM] at h
    by_cases hz : z = x
    · rw [if_pos hz] at h
      injection h with h
      subst h
      subst hz
      simp only [getM]
      by_cases hy : z = y
      · simp [hy]
      · have : ¬ y = z := fun e => hy e.symm
        simp [hy, this]
    · rw [if_neg hz] at h
      cases hp : putM m x b with
      | none => simp [hp] at h
      | some w =>
        simp only [hp, Option.map_some, Option.some.injEq] at h
        subst h
        have := ih w hp
        simp only [getM]
        by_cases hy : z = y
        · subst hy
          simp [hz]
        · simp [hy, this]

theorem putM_none (m : MS) (x : String) (b : Bool) (h : putM m x b = none) : getM m x = false := by
  induction m with
  | nil => rfl
  | cons p m ih =>
    obtain ⟨z, c⟩ := p
    rw [putM] at h
    by_cases hz : z = x
    · simp [hz] at h
    · rw [if_neg hz] at h
      simp only [Option.map_eq_none_iff] at h
      simp [getM, hz, ih h]

theorem getM_setM (m : MS) (x : String) (b : Bool) (y : String) :
    getM (setM m x b) y = if y = x then b else getM m y := by
  rw [setM]
  cases hp : putM m x b with
  | none =>
    simp only [Option.getD_none, getM]
    by_cases hy : y = x
    · simp [hy]
    · have : ¬ x = y := fun e => hy e.symm
      simp [hy, this]
  | some w => simpa using putM_get m x b w hp y

theorem mergeHalf_keep (o : MS) (t s : MS) (x : String) (h : getM t x = true) :
    getM (mergeHalf o t s) x = true := by
  induction s generalizing t with
  | nil => exact h
  | cons p s ih =>
    obtain ⟨y, b⟩ := p
    rw [mergeHalf]
    apply ih
    split
    · rw [getM_setM]
      split
      · rfl
      · exact h
    · exact h

theorem mergeHalf_src (o : MS) (t s : MS) (x : String) (h : getM s x = true) :
    getM (mergeHalf o t s) x = true := by
  induction s generalizing t with
  | nil => simp [getM] at h
  | cons p s ih =>
    obtain ⟨y, b⟩ := p
    rw [mergeHalf]
    rw [getM] at h
    by_cases hy : y = x
    · rw [if_pos hy] at h
      subst h
      apply mergeHalf_keep
      simp [getM_setM, hy]
    · rw [if_neg hy] at h
      exact ih _ h

theorem merge_target (t a b : MS) (x : String) (h : getM t x = true) :
    getM (merge t a b) x = true :=
  mergeHalf_keep _ _ _ _ (mergeHalf_keep _ _ _ _ h)

theorem merge_left (t a b : MS) (x : String) (h : getM a x = true) :
    getM (merge t a b) x = true :=
  mergeHalf_keep _ _ _ _ (mergeHalf_src _ _ _ _ h)

theorem merge_right (t a b : MS) (x : String) (h : getM b x = true) :
    getM (merge t a b) x = true :=
  mergeHalf_src _ _ _ _ h

/-! Scopes -/

theorem lookup_none {g : Scope} {x : String} (h : lookup g x = none) : x ∉ g.map Prod.fst := by
  induction g with
  | nil => simp
  | cons p g ih =>
    obtain ⟨y, c⟩ := p
    rw [lookup] at h
    by_cases hy : y = x
    · simp [hy] at h
    · rw [if_neg hy] at h
      have := ih h
      simp only [List.map_cons, List.mem_cons, not_or]
      exact ⟨fun e => hy e.symm, this⟩

theorem lookup_some {g : Scope} {x : String} (h : x ∈ g.map Prod.fst) : (lookup g x).isSome := by
  cases hl : lookup g x with
  | some b => rfl
  | none => exact absurd h (lookup_none hl)

/-! Environments -/

theorem setV_names (v : Env) (x : String) (b : Bool) :
    (setV v x b).map Prod.fst = v.map Prod.fst := by
  induction v with
  | nil => rfl
  | cons p v ih =>
    obtain ⟨y, c⟩ := p
    rw [setV]
    split
    · rfl
    · simp [ih]

theorem setV_mem (v : Env) (x : String) (b : Bool) (y : String) (c : Bool)
    (hn : (v.map Prod.fst).Nodup) (h : (y, c) ∈ setV v x b) :
    (y = x ∧ c = b) ∨ (y ≠ x ∧ (y, c) ∈ v) := by
  induction v with
  | nil => simp [setV] at h
  | cons p v ih =>
    obtain ⟨z, d⟩ := p
    rw [setV] at h
    simp only [List.map_cons, List.nodup_cons] at hn
    by_cases hz : z = x
    · rw [if_pos hz] at h
      rcases List.mem_cons.1 h with h | h
      · simp only [Prod.mk.injEq] at h
        exact Or.inl ⟨h.1.trans hz, h.2⟩
      · refine Or.inr ⟨?_, List.mem_cons_of_mem _ h⟩
        intro hyx
        apply hn.1
        rw [hz, ← hyx]
        exact List.mem_map.2 ⟨_, h, rfl⟩
    · rw [if_neg hz] at h
      rcases List.mem_cons.1 h with h | h
      · simp only [Prod.mk.injEq] at h
        refine Or.inr ⟨h.1 ▸ hz, ?_⟩
        rw [h.1, h.2]
        exact List.mem_cons_self
      · rcases ih hn.2 h with h | h
        · exact Or.inl h
        · exact Or.inr ⟨h.1, List.mem_cons_of_mem _ h.2⟩

theorem setV_absent (v : Env) (x : String) (b : Bool) (h : x ∉ v.map Prod.fst) :
    setV v x b = v := by
  induction v with
  | nil => rfl
  | cons p v ih =>
    obtain ⟨y, c⟩ := p
    simp only [List.map_cons, List.mem_cons, not_or] at h
    rw [setV, if_neg (fun e => h.1 e.symm), ih h.2]

theorem setV_append (p v : Env) (x : String) (b : Bool) (h : x ∉ v.map Prod.fst) :
    setV (p ++ v) x b = setV p x b ++ v := by
  induction p with
  | nil => simp [setV, setV_absent v x b h]
  | cons q p ih =>
    obtain ⟨y, c⟩ := q
    simp only [List.cons_append, setV]
    split
    · rfl
    · rw [ih, List.cons_append]

theorem moved_mem {v : Env} {x : String} (h : moved v x = true) : (x, true) ∈ v := by
  induction v with
  | nil => simp [moved] at h
  | cons p v ih =>
    obtain ⟨y, c⟩ := p
    rw [moved] at h
    by_cases hy : y = x
    · rw [if_pos hy] at h
      rw [hy, h]
      exact List.mem_cons_self
    · rw [if_neg hy] at h
      exact List.mem_cons_of_mem _ (ih h)

theorem pop_append (p q v : Env) : ∃ r, pop (p ++ v) (q ++ v) = r ++ v := by
  refine ⟨q.drop (q.length - p.length), ?_⟩
  rw [pop]
  simp only [List.length_append]
  have : q.length + v.length - (p.length + v.length) = q.length - p.length := by omega
  rw [this, List.drop_append_of_le_length (by omega)]

section
variable {owned : String → Bool}

/-- The invariant: same names, no two alike, and every moved-out variable is known to be. -/
structure Rel (owned : String → Bool) (g : Scope) (v : Env) (m : MS) : Prop where
  names : v.map Prod.fst = g.map Prod.fst
  nodup : (v.map Prod.fst).Nodup
  mv : ∀ x, (x, true) ∈ v → owned x = true ∧ getM m x = true

theorem Rel.mono {g : Scope} {v : Env} {m m' : MS} (h : Rel owned g v m)
    (hm : ∀ x, (lookup g x).isSome → getM m x = true → getM m' x = true) :
    Rel owned g v m' :=
  ⟨h.names, h.nodup, fun x hx => ⟨(h.mv x hx).1, hm x
    (lookup_some (by rw [← h.names]; exact List.mem_map.2 ⟨_, hx, rfl⟩)) (h.mv x hx).2⟩⟩

theorem Rel.length {g : Scope} {v : Env} {m : MS} (h : Rel owned g v m) : v.length = g.length := by
  have := congrArg List.length h.names
  simpa using this

theorem Rel.pop {d g : Scope} {v v' : Env} {m m' : MS} (h : Rel owned g v m)
    (h' : Rel owned (d ++ g) v' m') : Rel owned g (pop v v') m' := by
  have hl := h.length
  have hl' := h'.length
  rw [List.length_append] at hl'
  have hk : v'.length - v.length = d.length := by omega
  refine ⟨?_, ?_, ?_⟩
  · rw [Spec.pop, hk, List.map_drop, h'.names, List.map_append]
    have : d.length = (d.map Prod.fst).length := by simp
    rw [this, List.drop_left]
  · rw [Spec.pop, List.map_drop]
    exact h'.nodup.sublist (List.drop_sublist _ _)
  · intro x hx
    exact h'.mv x (List.mem_of_mem_drop hx)

/-! Monotonicity of the checker's state -/

theorem markMoved_mono (g : Scope) (m : MS) (y x : String) (h : getM m x = true) :
    getM (markMoved owned g m y) x = true := by
  rw [markMoved]
  split
  · split
    · rw [getM_setM]
      split
      · rfl
      · exact h
    · exact h
  · exact h

theorem markRv_mono (g : Scope) (m : MS) (e : Expr) (x : String) (h : getM m x = true) :
    getM (markRv owned g m e) x = true := by
  cases e <;> first | exact h | exact markMoved_mono _ _ _ _ h

theorem markRv_plain (g : Scope) (m : MS) (e : Expr) (h : plain owned e = true) :
    markRv owned g m e = m := by
  cases e <;> try rfl
  rename_i x
  simp only [plain, Bool.not_eq_true'] at h
  rw [markRv, markMoved]
  split
  · simp [h]
  · rfl

theorem markValid_mono (g : Scope) (m : MS) (y x : String) (hne : x ≠ y) (h : getM m x = true) :
    getM (markValid g m y) x = true := by
  rw [markValid]
  split
  · rw [getM_setM, if_neg hne]
    exact h
  · exact h

mutual
theorem chkE_mono (g : Scope) (lhs : Bool) (e : Expr) (m m' : MS)
    (h : chkE owned g lhs e m = some m') (x : String) (hx : x ∉ asgE e)
    (hm : getM m x = true) : getM m' x = true := by
  cases e with
  | lit => simp only [chkE, Option.some.injEq] at h; exact h ▸ hm
  | var y =>
    rw [chkE] at h
    split at h
    · cases h
    · injection h with h
      exact h ▸ hm
  | un e =>
    rw [chkE] at h
    exact chkE_mono g lhs e m m' h x (by simpa [asgE] using hx) hm
  | bin a b =>
    rw [chkE, Option.bind_eq_some_iff] at h
    obtain ⟨m1, h1, h2⟩ := h
    simp only [asgE, List.mem_append, not_or] at hx
    exact chkE_mono g lhs b m1 m' h2 x hx.2 (chkE_mono g lhs a m m1 h1 x hx.1 hm)
  | sc a b =>
    rw [chkE, Option.bind_eq_some_iff] at h
    obtain ⟨m1, h1, h2⟩ := h
    simp only [asgE, List.mem_append, not_or] at hx
    exact chkE_mono g lhs b m1 m' h2 x hx.2 (chkE_mono g lhs a m m1 h1 x hx.1 hm)
  | assign y e =>
    rw [chkE, Option.bind_eq_some_iff] at h
    obtain ⟨m1, h1, h2⟩ := h
    simp only [asgE, List.mem_cons, not_or] at hx
    simp only [Option.some.injEq] at h2
    rw [← h2]
    exact markValid_mono _ _ _ _ hx.1 (markRv_mono _ _ _ _ (chkE_mono g lhs e m m1 h1 x hx.2 hm))
  | store y i e =>
    rw [chkE, Option.bind_eq_some_iff] at h
    obtain ⟨m2, h1, h3⟩ := h
    rw [Option.bind_eq_some_iff] at h1
    obtain ⟨m1, h1, h2⟩ := h1
    simp only [asgE, List.mem_append, not_or] at hx
    simp only [Option.some.injEq] at h3
    rw [← h3]
    exact markRv_mono _ _ _ _
      (chkE_mono g lhs e m1 m2 h2 x hx.2 (chkE_mono g true i m m1 h1 x hx.1 hm))
  | call f as =>
    rw [chkE, Option.bind_eq_some_iff] at h
    obtain ⟨m1, h1, h2⟩ := h
    simp only [asgE, List.mem_append, not_or] at hx
    exact chkArgs_mono g lhs as m1 m' h2 x hx.2 (chkE_mono g lhs f m m1 h1 x hx.1 hm)
  | tern c a b =>
    rw [chkE, Option.bind_eq_some_iff] at h
    obtain ⟨m2, h1, h3⟩ := h
    rw [Option.bind_eq_some_iff] at h1
    obtain ⟨m1, h1, h2⟩ := h1
    simp only [asgE, List.mem_append, not_or] at hx
    exact chkE_mono g lhs b m2 m' h3 x hx.2.2
      (chkE_mono g lhs a m1 m2 h2 x hx.2.1 (chkE_mono g lhs c m m1 h1 x hx.1 hm))
  | arr es =>
    rw [chkE] at h
    exact chkList_mono g lhs es m m' h x (by simpa [asgE] using hx) hm
theorem chkArgs_mono (g : Scope) (lhs : Bool) (es : Exprs) (m m' : MS)
    (h : chkArgs owned g lhs es m = some m') (x : String) (hx : x ∉ asgEL es)
    (hm : getM m x = true) : getM m' x = true := by
  cases es with
  | nil => simp only [chkArgs, Option.some.injEq] at h; exact h ▸ hm
  | cons e r =>
    rw [chkArgs, Option.bind_eq_some_iff] at h
    obtain ⟨m1, h1, h2⟩ := h
    simp only [asgEL, List.mem_append, not_or] at hx
    exact chkArgs_mono g lhs r _ m' h2 x hx.2
      (markRv_mono _ _ _ _ (chkE_mono g lhs e m m1 h1 x hx.1 hm))
theorem chkList_mono (g : Scope) (lhs : Bool) (es : Exprs) (m m' : MS)
    (h : chkList owned g lhs es m = some m') (x : String) (hx : x ∉ asgEL es)
    (hm : getM m x = true) : getM m' x = true := by
  cases es with
  | nil => simp only [chkList, Option.some.injEq] at h; exact h ▸ hm
  | cons e r =>
    rw [chkList, Option.bind_eq_some_iff] at h
    obtain ⟨m1, h1, h2⟩ := h
    simp only [asgEL, List.mem_append, not_or] at hx
    exact chkList_mono g lhs r m1 m' h2 x hx.2 (chkE_mono g lhs e m m1 h1 x hx.1 hm)
end

mutual
theorem chkS_mono (g : Scope) (s : Stmt) (m : MS) (r : Scope × MS)
    (h : chkS owned g s m = some r) (x : String) (hx : x ∉ asgS s)
    (hm : getM m x = true) : getM r.2 x = true := by
  cases s with
  | expr e =>
    rw [chkS, Option.map_eq_some_iff] at h
    obtain ⟨m1, h1, h2⟩ := h
    subst h2
    exact chkE_mono g false e m m1 h1 x (by simpa [asgS] using hx) hm
  | decl y e =>
    rw [chkS, Option.map_eq_some_iff] at h
    obtain ⟨m1, h1, h2⟩ := h
    subst h2
    exact markRv_mono _ _ _ _ (chkE_mono g false e m m1 h1 x (by simpa [asgS] using hx) hm)
  | ret e =>
    rw [chkS, Option.map_eq_some_iff] at h
    obtain ⟨m1, h1, h2⟩ := h
    subst h2
    exact chkE_mono g false e m m1 h1 x (by simpa [asgS] using hx) hm
  | brk => simp only [chkS, Option.some.injEq] at h; subst h; exact hm
  | cont => simp only [chkS, Option.some.injEq] at h; subst h; exact hm
  | block b =>
    rw [chkS, Option.map_eq_some_iff] at h
    obtain ⟨m1, h1, h2⟩ := h
    subst h2
    exact chkL_mono g b m m1 h1 x (by simpa [asgS] using hx) hm
  | ite c t e =>
    rw [chkS, Option.bind_eq_some_iff] at h
    obtain ⟨m1, h1, h⟩ := h
    rw [Option.bind_eq_some_iff] at h
    obtain ⟨⟨g2, m2⟩, h2, h⟩ := h
    simp only [Option.map_eq_some_iff] at h
    obtain ⟨⟨g3, m3⟩, h3, h⟩ := h
    subst h
    simp only [asgS, List.mem_append, not_or] at hx
    exact merge_target _ _ _ _ (chkE_mono g false c m m1 h1 x hx.1 hm)
  | ifOnly c t =>
    rw [chkS, Option.bind_eq_some_iff] at h
    obtain ⟨m1, h1, h⟩ := h
    rw [Option.map_eq_some_iff] at h
    obtain ⟨⟨g2, m2⟩, h2, h⟩ := h
    subst h
    simp only [asgS, List.mem_append, not_or] at hx
    exact merge_target _ _ _ _ (chkE_mono g false c m m1 h1 x hx.1 hm)
  | cond1 c b =>
    rw [chkS, Option.bind_eq_some_iff] at h
    obtain ⟨m1, h1, h⟩ := h
    rw [Option.map_eq_some_iff] at h
    obtain ⟨⟨g2, m2⟩, h2, h⟩ := h
    subst h
    simp only [asgS, List.mem_append, not_or] at hx
    exact chkS_mono g b m1 (g2, m2) h2 x hx.2 (chkE_mono g false c m m1 h1 x hx.1 hm)
  | mtch e a =>
    rw [chkS, Option.bind_eq_some_iff] at h
    obtain ⟨m1, h1, h⟩ := h
    rw [Option.map_eq_some_iff] at h
    obtain ⟨m2, h2, h⟩ := h
    subst h
    simp only [asgS, List.mem_append, not_or] at hx
    exact chkA_mono g a m1 m2 h2 x hx.2 (chkE_mono g false e m m1 h1 x hx.1 hm)
  | whil c b =>
    rw [chkS, Option.bind_eq_some_iff] at h
    obtain ⟨m1, h1, h⟩ := h
    rw [Option.map_eq_some_iff] at h
    obtain ⟨⟨g2, m2⟩, h2, h⟩ := h
    subst h
    simp only [asgS, List.mem_append, not_or] at hx
    exact chkS_mono g b m1 (g2, m2) h2 x hx.2 (chkE_mono g false c m m1 h1 x hx.1 hm)
  | rng b => simp only [chkS, Option.some.injEq] at h; subst h; exact hm
theorem chkL_mono (g : Scope) (b : Stmts) (m m' : MS)
    (h : chkL owned g b m = some m') (x : String) (hx : x ∉ asgL b)
    (hm : getM m x = true) : getM m' x = true := by
  cases b with
  | nil => simp only [chkL, Option.some.injEq] at h; exact h ▸ hm
  | cons s r =>
    rw [chkL, Option.bind_eq_some_iff] at h
    obtain ⟨⟨g1, m1⟩, h1, h2⟩ := h
    simp only [asgL, List.mem_append, not_or] at hx
    exact chkL_mono g1 r m1 m' h2 x hx.2 (chkS_mono g s m (g1, m1) h1 x hx.1 hm)
theorem chkA_mono (g : Scope) (a : Arms) (m m' : MS)
    (h : chkA owned g a m = some m') (x : String) (hx : x ∉ asgA a)
    (hm : getM m x = true) : getM m' x = true := by
  cases a with
  | nil => simp only [chkA, Option.some.injEq] at h; exact h ▸ hm
  | cons b r =>
    rw [chkA, Option.bind_eq_some_iff] at h
    obtain ⟨⟨g1, m1⟩, h1, h2⟩ := h
    simp only [asgA, List.mem_append, not_or] at hx
    exact chkA_mono g r m1 m' h2 x hx.2 (chkS_mono g b m (g1, m1) h1 x hx.1 hm)
end

theorem chkS_scope (g : Scope) (s : Stmt) (m : MS) (r : Scope × MS)
    (h : chkS owned g s m = some r) : r.1 = declared s ++ g := by
  cases s <;> simp only [chkS, Option.map_eq_some_iff, Option.bind_eq_some_iff,
    Option.some.injEq] at h
  all_goals first
    | (obtain ⟨_, _, h⟩ := h; subst h; rfl)
    | (obtain ⟨_, _, _, _, h⟩ := h; subst h; rfl)
    | (obtain ⟨_, _, ⟨_, _⟩, _, ⟨_, _⟩, _, h⟩ := h; subst h; rfl)
    | (subst h; rfl)

end

end Verif.Move
