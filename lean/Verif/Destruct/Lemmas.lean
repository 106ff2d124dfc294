import Verif.Destruct.Model

/-!
# The printed text does what the program says
-/

namespace Verif.Destruct
open Verif Spec

variable {orc : Nat → List Val → Val}

/-- Variables keep their values. -/
def Ext (ρ ρ' : CEnv) : Prop := ∀ x v, ρ.lookup x = some v → ρ'.lookup x = some v

/-- The C variables hold what the variables of the program hold. -/
def Agree (E : Env) (ρ : CEnv) : Prop := ∀ x v, E.lookup x = some v → ρ.lookup (.user x) = some v

/-- Where the C variables come from. -/
def Dom (ρ : CEnv) (seen : List String) (n : Nat) : Prop :=
  ∀ x v, ρ.lookup x = some v →
    match x with
    | .user y => y ∈ seen
    | .tmp k => k < n

/-- What is on `defer_stack` does what is pending. -/
def Pend (orc : Nat → List Val → Val) (ρ : CEnv) : List Cl → List Ev → Prop
  | [], [] => True
  | d :: ds, e :: P => runC orc d.stm ρ = some (false, [e], ρ) ∧ Pend orc ρ ds P
  | _, _ => False

theorem Ext.refl (ρ : CEnv) : Ext ρ ρ := fun _ _ h => h

theorem Ext.trans {a b c : CEnv} (h : Ext a b) (g : Ext b c) : Ext a c :=
  fun x v hx => g x v (h x v hx)

theorem lookup_cons {α β : Type} [DecidableEq α] (a : α) (b : β) (l : List (α × β)) (x : α) :
    ((a, b) :: l).lookup x = if x = a then some b else l.lookup x := by
  rw [List.lookup_cons]
  by_cases h : x = a
  · subst h; simp
  · have : (x == a) = false := by simpa using h
    simp [this, h]

theorem ext_cons {ρ : CEnv} {seen : List String} {n : Nat} (hd : Dom ρ seen n) (x : CVar) (w : Val)
    (hx : match x with | .user y => y ∉ seen | .tmp k => ¬ k < n) : Ext ρ ((x, w) :: ρ) := by
  intro y v hy
  rw [lookup_cons, if_neg]
  · exact hy
  · rintro rfl
    have := hd y v hy
    cases y <;> exact hx this

theorem dom_user {ρ : CEnv} {seen : List String} {n : Nat} (hd : Dom ρ seen n) (x : String) (w : Val) :
    Dom ((.user x, w) :: ρ) (x :: seen) n := by
  intro y v hy
  rw [lookup_cons] at hy
  by_cases h : y = .user x
  · subst h; simp
  · rw [if_neg h] at hy
    have := hd y v hy
    cases y with
    | user y => exact List.mem_cons_of_mem _ this
    | tmp k => exact this

theorem dom_tmp {ρ : CEnv} {seen : List String} {n : Nat} (hd : Dom ρ seen n) (w : Val) :
    Dom ((.tmp n, w) :: ρ) seen (n + 1) := by
  intro y v hy
  rw [lookup_cons] at hy
  by_cases h : y = .tmp n
  · subst h; simp
  · rw [if_neg h] at hy
    have := hd y v hy
    cases y with
    | user y => exact this
    | tmp k => exact Nat.lt_succ_of_lt this

theorem dom_mono {ρ : CEnv} {seen seen' : List String} {n n' : Nat} (hd : Dom ρ seen n)
    (hs : ∀ x ∈ seen, x ∈ seen') (hn : n ≤ n') : Dom ρ seen' n' := by
  intro y v hy
  have := hd y v hy
  cases y with
  | user y => exact hs _ this
  | tmp k => exact Nat.lt_of_lt_of_le this hn

theorem agree_tmp {E : Env} {ρ : CEnv} (h : Agree E ρ) (n : Nat) (w : Val) :
    Agree E ((.tmp n, w) :: ρ) := by
  intro x v hx
  rw [lookup_cons, if_neg (by simp)]
  exact h x v hx

theorem agree_user {E : Env} {ρ : CEnv} (h : Agree E ρ) (x : String) (w : Val) :
    Agree ((x, w) :: E) ((.user x, w) :: ρ) := by
  intro y v hy
  rw [lookup_cons] at hy ⊢
  by_cases hxy : y = x
  · subst hxy
    simpa using hy
  · rw [if_neg hxy] at hy
    rw [if_neg (by simpa using hxy)]
    exact h y v hy

theorem vals_ext {ρ ρ' : CEnv} (h : Ext ρ ρ') (xs : List String) :
    ∀ vs, vals ρ xs = some vs → vals ρ' xs = some vs := by
  induction xs with
  | nil => intro vs hv; exact hv
  | cons x r ih =>
    intro vs hv
    simp only [vals] at hv ⊢
    cases hx : ρ.lookup (.user x) with
    | none => simp [hx] at hv
    | some v =>
      cases hr : vals ρ r with
      | none => simp [hx, hr] at hv
      | some ws =>
        rw [h _ _ hx, ih ws hr]
        simpa [hx, hr] using hv

theorem args_vals {E : Env} {ρ : CEnv} (h : Agree E ρ) (xs : List String) :
    ∀ vs, args E xs = some vs → vals ρ xs = some vs := by
  induction xs with
  | nil => intro vs hv; exact hv
  | cons x r ih =>
    intro vs hv
    simp only [vals, args] at hv ⊢
    cases hx : E.lookup x with
    | none => simp [hx] at hv
    | some v =>
      cases hr : args E r with
      | none => simp [hx, hr] at hv
      | some ws =>
        rw [h _ _ hx, ih ws hr]
        simpa [hx, hr] using hv

theorem eval_sim {E : Env} {ρ : CEnv} (h : Agree E ρ) (e : Expr) (r : Val × List Ev)
    (he : eval orc E e = some r) : evalC orc ρ (.src e) = some r := by
  cases e with
  | var x =>
    simp only [eval, Option.map_eq_some_iff] at he
    obtain ⟨v, hv, rfl⟩ := he
    simp only [evalC, h _ _ hv, Option.map_some]
  | con v => exact he
  | call f xs =>
    simp only [eval, Option.map_eq_some_iff] at he
    obtain ⟨vs, hv, rfl⟩ := he
    simp only [evalC, args_vals h xs vs hv, Option.map_some]

theorem pend_ext {ρ ρ' : CEnv} (h : Ext ρ ρ') (ds : List Cl) :
    ∀ P, Pend orc ρ ds P → Pend orc ρ' ds P := by
  induction ds with
  | nil => intro P hp; cases P <;> exact hp
  | cons d ds ih =>
    intro P hp
    cases P with
    | nil => exact hp
    | cons e P =>
      refine ⟨?_, ih P hp.2⟩
      have h1 := hp.1
      cases d with
      | say a xs =>
        simp only [Cl.stm, runC, Option.map_eq_some_iff] at h1 ⊢
        obtain ⟨vs, hv, he⟩ := h1
        simp only [Prod.mk.injEq, true_and, and_true] at he
        exact ⟨vs, vals_ext h xs vs hv, by simp [he]⟩
      | drop x =>
        simp only [Cl.stm, runC, Option.map_eq_some_iff] at h1 ⊢
        obtain ⟨v, hv, he⟩ := h1
        simp only [Prod.mk.injEq, true_and, and_true] at he
        exact ⟨v, h _ _ hv, by simp [he]⟩

theorem pend_length {ρ : CEnv} (ds : List Cl) : ∀ P, Pend orc ρ ds P → ds.length = P.length := by
  induction ds with
  | nil => intro P hp; cases P with
    | nil => rfl
    | cons => exact hp.elim
  | cons d ds ih => intro P hp; cases P with
    | nil => exact hp.elim
    | cons e P => simp [ih P hp.2]

theorem pend_append {ρ : CEnv} (D ds : List Cl) : ∀ A P, D.length = A.length →
    Pend orc ρ (D ++ ds) (A ++ P) → Pend orc ρ D A ∧ Pend orc ρ ds P := by
  induction D with
  | nil =>
    intro A P hl hp
    cases A with
    | nil => exact ⟨trivial, hp⟩
    | cons => simp at hl
  | cons d D ih =>
    intro A P hl hp
    cases A with
    | nil => simp at hl
    | cons e A =>
      obtain ⟨h1, h2⟩ := ih A P (by simpa using hl) hp.2
      exact ⟨⟨hp.1, h1⟩, h2⟩

theorem unwind_run {ρ : CEnv} (ds : List Cl) : ∀ P, Pend orc ρ ds P →
    runCB orc (unwind ds) ρ = some (false, P, ρ) := by
  induction ds with
  | nil => intro P hp; cases P with
    | nil => simp [unwind, runCB]
    | cons => exact hp.elim
  | cons d ds ih => intro P hp; cases P with
    | nil => exact hp.elim
    | cons e P =>
      simp only [unwind, runCB, hp.1, ih P hp.2]
      rfl

/-- Running text after text. -/
theorem app_run (a b : CBlock) : ∀ ρ, runCB orc (a.app b) ρ =
    match runCB orc a ρ with
    | none => none
    | some (true, ev, ρ') => some (true, ev, ρ')
    | some (false, ev, ρ') =>
      match runCB orc b ρ' with
      | none => none
      | some (q, ev', ρ'') => some (q, ev ++ ev', ρ'') := by
  induction a using CBlock.rec (motive_1 := fun _ => True) with
  | decl => trivial
  | test => trivial
  | say => trivial
  | drop => trivial
  | block => trivial
  | ret => trivial
  | nil =>
    intro ρ
    simp only [CBlock.app, runCB]
    cases runCB orc b ρ with
    | none => rfl
    | some r => rfl
  | cons s r _ ih =>
    intro ρ
    simp only [CBlock.app, runCB]
    cases runC orc s ρ with
    | none => rfl
    | some q =>
      obtain ⟨q, ev, ρ'⟩ := q
      cases q with
      | true => rfl
      | false =>
        simp only [ih ρ']
        cases runCB orc r ρ' with
        | none => rfl
        | some t =>
          obtain ⟨t, ev', ρ''⟩ := t
          cases t with
          | true => rfl
          | false =>
            simp only
            cases runCB orc b ρ'' with
            | none => rfl
            | some u => simp only [List.append_assoc]

theorem go_eq (xs : List String) : ∀ i, Pat.binds.go i xs
    = ((List.range' i xs.length).zip xs).map (fun p => ("v" ++ toString p.1, p.2)) := by
  induction xs with
  | nil => intro i; rfl
  | cons x r ih => intro i; simp only [Pat.binds.go, ih, List.length_cons, List.range'_succ, List.zip_cons_cons, List.map_cons]

theorem binds_eq (p : Pat) : p.binds = wanted p := by
  cases p with
  | anon xs => rfl
  | named s fs => rfl
  | tuple xs => simp only [Pat.binds, wanted, go_eq, List.range_eq_range']

theorem width_eq (p : Pat) : p.width = (wanted p).length := by
  cases p <;> simp [Pat.width, wanted]

/-- The declarations of a pattern. -/
theorem bind_run (v : Val) (n : Nat) (bs : List (String × String)) :
    ∀ (E E' : Env) (ρ : CEnv) (seen : List String) (m : Nat), n < m → Agree E ρ → Dom ρ seen m →
      ρ.lookup (.tmp n) = some v → (bs.map Prod.snd).Nodup → (∀ x ∈ bs.map Prod.snd, x ∉ seen) →
      Spec.bind v bs E = some E' →
      ∃ ρ', runCB orc (bindText n bs) ρ = some (false, [], ρ') ∧ Agree E' ρ' ∧ Ext ρ ρ' ∧
        Dom ρ' (bs.map Prod.snd ++ seen) m := by
  induction bs with
  | nil =>
    intro E E' ρ seen m _ ha hd _ _ _ hb
    simp only [Spec.bind, Option.some.injEq] at hb
    subst hb
    exact ⟨ρ, by simp [bindText, runCB], ha, Ext.refl _, hd⟩
  | cons b r ih =>
    intro E E' ρ seen m hm ha hd ht hn hs hb
    obtain ⟨f, x⟩ := b
    simp only [Spec.bind] at hb
    cases hf : v.field f with
    | none => simp [hf] at hb
    | some w =>
      simp only [hf] at hb
      simp only [List.map_cons, List.nodup_cons] at hn
      have he : Ext ρ ((.user x, w) :: ρ) := ext_cons hd _ _ (hs x (by simp))
      obtain ⟨ρ', h1, h2, h3, h4⟩ := ih ((x, w) :: E) E' ((.user x, w) :: ρ) (x :: seen) m hm
        (agree_user ha x w) (dom_user hd x w) (he _ _ ht) hn.2
        (fun y hy hc => by
          rcases List.mem_cons.mp hc with rfl | hc
          · exact hn.1 hy
          · exact hs y (by simp at hy; simp [hy]) hc) hb
      refine ⟨ρ', ?_, h2, he.trans h3, ?_⟩
      · simp only [bindText, runCB, runC, evalC, ht, Option.bind_some, hf, Option.map_some, h1]
        rfl
      · refine dom_mono h4 (fun y hy => ?_) (Nat.le_refl _)
        simp only [List.map_cons, List.mem_append, List.mem_cons, List.cons_append] at hy ⊢
        rcases hy with hy | rfl | hy
        · exact .inr (.inl hy)
        · exact .inl rfl
        · exact .inr (.inr hy)

mutual
/-- The stack only grows. -/
theorem emit_stack : ∀ (s : Stmt) (ds : List Cl) (n : Nat), ∃ D, (emit s ds n).2.1 = D ++ ds
  | .lets x own e, ds, n => by
    cases own
    · exact ⟨[], rfl⟩
    · exact ⟨[.drop x], rfl⟩
  | .pat p own e, ds, n => ⟨[], rfl⟩
  | .guard v x e els, ds, n => by
    simp only [emit]
    exact emitB_stack els ds (n + 1)
  | .say a xs, ds, n => ⟨[], rfl⟩
  | .defer a xs, ds, n => ⟨[.say a xs], rfl⟩
  | .block b, ds, n => by
    obtain ⟨D, hD⟩ := emitB_stack b ds n
    exact ⟨[], by simp [emit, hD]⟩
  | .ret, ds, n => ⟨[], rfl⟩
theorem emitB_stack : ∀ (b : Block) (ds : List Cl) (n : Nat), ∃ D, (emitB b ds n).2.1 = D ++ ds
  | .nil, ds, n => ⟨[], rfl⟩
  | .cons s r, ds, n => by
    obtain ⟨D, hD⟩ := emit_stack s ds n
    obtain ⟨D', hD'⟩ := emitB_stack r (emit s ds n).2.1 (emit s ds n).2.2
    refine ⟨D' ++ D, ?_⟩
    simp only [emitB]
    rw [hD', hD, List.append_assoc]
end

mutual
/-- The counter only grows. -/
theorem emit_count : ∀ (s : Stmt) (ds : List Cl) (n : Nat), n ≤ (emit s ds n).2.2
  | .lets _ _ _, _, n => Nat.le_refl n
  | .pat _ _ _, _, n => Nat.le_succ n
  | .guard v x e els, ds, n => by
    have := emitB_count els ds (n + 1)
    simp only [emit]
    omega
  | .say _ _, _, n => Nat.le_refl n
  | .defer _ _, _, n => Nat.le_refl n
  | .block b, ds, n => by
    simp only [emit]
    exact emitB_count b ds n
  | .ret, _, n => Nat.le_refl n
theorem emitB_count : ∀ (b : Block) (ds : List Cl) (n : Nat), n ≤ (emitB b ds n).2.2
  | .nil, _, n => Nat.le_refl n
  | .cons s r, ds, n => by
    have h1 := emit_count s ds n
    have h2 := emitB_count r (emit s ds n).2.1 (emit s ds n).2.2
    simp only [emitB]
    omega
end

mutual
theorem quiet_emit : ∀ (s : Stmt) (ds : List Cl) (n : Nat), Quiet (.cons s .nil) →
    (emit s ds n).2.1 = ds
  | .lets x own e, ds, n, h => by
    have : own = false := by simpa [Quiet] using h
    subst this
    rfl
  | .pat _ _ _, _, _, _ => rfl
  | .guard v x e els, ds, n, h => by
    have : Quiet els := by simpa [Quiet] using h
    simp only [emit]
    exact quiet_emitB els ds (n + 1) this
  | .say _ _, _, _, _ => rfl
  | .defer _ _, _, _, h => by simp [Quiet] at h
  | .block b, ds, n, _ => by
    obtain ⟨D, hD⟩ := emitB_stack b ds n
    simp [emit, hD]
  | .ret, _, _, _ => rfl
/-- A quiet list leaves the stack alone. -/
theorem quiet_emitB : ∀ (b : Block) (ds : List Cl) (n : Nat), Quiet b → (emitB b ds n).2.1 = ds
  | .nil, _, _, _ => rfl
  | .cons s r, ds, n, h => by
    have h1 : Quiet (.cons s .nil) := by
      cases s <;> simp_all [Quiet]
    have h2 : Quiet r := by
      cases s <;> simp_all [Quiet]
    simp only [emitB]
    rw [quiet_emitB r _ _ h2]
    exact quiet_emit s ds n h1
end

theorem fresh_names (s : Stmt) (seen : List String) (h : Fresh seen s) :
    ∀ x ∈ names s, x ∉ seen := by
  intro x hx
  cases s <;> simp only [Fresh, names] at h hx
  case guard => simp only [List.mem_singleton] at hx; subst hx; exact h.1
  case block => simp at hx
  all_goals exact h.2 x hx

mutual
/-- What is pending only grows, while the scope is not left. -/
theorem run_pend : ∀ (s : Stmt) (E : Env) (P : List Ev) (ev : List Ev) (E' : Env) (P' : List Ev),
    run orc s E P = some (false, ev, E', P') → ∃ A, P' = A ++ P
  | .lets x own e, E, P, ev, E', P', h => by
    simp only [run] at h
    split at h
    · simp only [Option.some.injEq, Prod.mk.injEq] at h
      rw [← h.2.2.2]
      split
      · exact ⟨[_], rfl⟩
      · exact ⟨[], rfl⟩
    · simp at h
  | .pat p own e, E, P, ev, E', P', h => by
    simp only [run] at h
    split at h
    · split at h
      · simp only [Option.some.injEq, Prod.mk.injEq] at h
        rw [← h.2.2.2]
        split
        · exact ⟨[_], rfl⟩
        · exact ⟨[], rfl⟩
      · simp at h
    · simp at h
  | .guard c x e els, E, P, ev, E', P', h => by
    simp only [run] at h
    split at h
    · split at h
      · simp only [Option.some.injEq, Prod.mk.injEq] at h
        exact ⟨[], h.2.2.2.symm⟩
      · split at h <;> simp at h
      · simp at h
    · simp at h
  | .say a xs, E, P, ev, E', P', h => by
    simp only [run, Option.map_eq_some_iff] at h
    obtain ⟨vs, _, h⟩ := h
    simp only [Prod.mk.injEq] at h
    exact ⟨[], h.2.2.2.symm⟩
  | .defer a xs, E, P, ev, E', P', h => by
    simp only [run, Option.map_eq_some_iff] at h
    obtain ⟨vs, _, h⟩ := h
    simp only [Prod.mk.injEq] at h
    exact ⟨[_], h.2.2.2.symm⟩
  | .block b, E, P, ev, E', P', h => by
    simp only [run] at h
    split at h
    · simp at h
    · simp only [Option.some.injEq, Prod.mk.injEq] at h
      exact ⟨[], h.2.2.2.symm⟩
    · simp at h
  | .ret, E, P, ev, E', P', h => by simp [run] at h
theorem runB_pend : ∀ (b : Block) (E : Env) (P : List Ev) (ev : List Ev) (E' : Env) (P' : List Ev),
    runB orc b E P = some (false, ev, E', P') → ∃ A, P' = A ++ P
  | .nil, E, P, ev, E', P', h => by
    simp only [runB, Option.some.injEq, Prod.mk.injEq] at h
    exact ⟨[], h.2.2.2.symm⟩
  | .cons s r, E, P, ev, E', P', h => by
    simp only [runB] at h
    split at h
    · simp at h
    · rename_i ev1 E1 P1 h1
      split at h
      · rename_i q ev2 E2 P2 h2
        simp only [Option.some.injEq, Prod.mk.injEq] at h
        obtain ⟨rfl, _, rfl, rfl⟩ := h
        obtain ⟨A, rfl⟩ := run_pend s E P ev1 E1 P1 h1
        obtain ⟨B, rfl⟩ := runB_pend r E1 (A ++ P) ev2 E2 P2 h2
        exact ⟨B ++ A, by simp⟩
      · simp at h
    · simp at h
end

/-- The tests of guards for options and results. -/
theorem opened_text {c : String} (hc : c = "Some" ∨ c = "Ok" ∨ c = "Err") {v : Val}
    {o : Option Val} (h : opened c v = some o) :
    ∃ b w, (v.field (guardText c).1).bind truth = some b ∧ v.field (guardText c).2.2 = some w ∧
      (match o with
        | some w' => b = (guardText c).2.1 ∧ w = w'
        | none => b ≠ (guardText c).2.1) := by
  rcases hc with rfl | rfl | rfl
  · simp only [opened, if_true] at h
    simp only [guardText, if_true]
    split at h
    · rename_i w h1 h2
      simp only [Option.some.injEq] at h; subst h
      exact ⟨_, w, h1, h2, rfl, rfl⟩
    · rename_i w h1 h2
      simp only [Option.some.injEq] at h; subst h
      exact ⟨_, w, h1, h2, by simp⟩
    · simp at h
  · have e : ¬ ("Ok" = "Some") := by decide
    simp only [opened, if_neg e, if_true] at h
    simp only [guardText, if_neg e, if_true]
    split at h
    · rename_i w h1 h2
      simp only [Option.some.injEq] at h; subst h
      exact ⟨_, w, h1, h2, rfl, rfl⟩
    · rename_i w h1 h2
      simp only [Option.some.injEq] at h; subst h
      exact ⟨_, w, h1, h2, by simp⟩
    · simp at h
  · have e : ¬ ("Err" = "Some") := by decide
    have e' : ¬ ("Err" = "Ok") := by decide
    simp only [opened, if_neg e, if_neg e', if_true] at h
    simp only [guardText, if_neg e, if_neg e', if_true]
    split at h
    · rename_i w h1 h2
      simp only [Option.some.injEq] at h; subst h
      exact ⟨_, w, h1, h2, rfl, rfl⟩
    · rename_i w h1 h2
      simp only [Option.some.injEq] at h; subst h
      exact ⟨_, w, h1, h2, by simp⟩
    · simp at h

theorem evalC_field (ρ : CEnv) (t : Nat) (f : String) : evalC orc ρ (.field t f)
    = ((ρ.lookup (.tmp t)).bind (·.field f)).map (fun v => (v, [])) := rfl

mutual
/-- A statement. -/
theorem sim : ∀ (s : Stmt) (ds : List Cl) (n : Nat) (ρ : CEnv) (E : Env) (P : List Ev)
    (seen : List String) (q : Bool) (ev : List Ev) (E' : Env) (P' : List Ev), Agree E ρ →
    Dom ρ seen n → Pend orc ρ ds P → Fresh seen s → Plain s →
    run orc s E P = some (q, ev, E', P') →
    ∃ ρ', runCB orc (emit s ds n).1 ρ = some (q, ev, ρ') ∧
      (q = false → Agree E' ρ' ∧ Ext ρ ρ' ∧ Dom ρ' (names s ++ seen) (emit s ds n).2.2 ∧
        Pend orc ρ' (emit s ds n).2.1 P')
  | .lets x own e, ds, n, ρ, E, P, seen, q, ev, E', P', ha, hd, hp, hf, hpl, h => by
    simp only [run] at h
    cases he : eval orc E e with
    | none => simp [he] at h
    | some r =>
      obtain ⟨v, ev1⟩ := r
      simp only [he, Option.some.injEq, Prod.mk.injEq] at h
      obtain ⟨rfl, rfl, rfl, rfl⟩ := h
      have hx : x ∉ seen := fresh_names _ _ hf x (by simp [names])
      have hext := ext_cons hd (.user x) v hx
      refine ⟨(.user x, v) :: ρ, ?_, fun _ => ⟨agree_user ha x v, hext, dom_user hd x v, ?_⟩⟩
      · simp [emit, runCB, runC, eval_sim ha e _ he]
      · cases own
        · exact pend_ext hext ds P hp
        · refine ⟨?_, pend_ext hext ds P hp⟩
          simp [Cl.stm, runC, lookup_cons]
  | .pat p own e, ds, n, ρ, E, P, seen, q, ev, E', P', ha, hd, hp, hf, hpl, h => by
    simp only [run] at h
    cases he : eval orc E e with
    | none => simp [he] at h
    | some r =>
      obtain ⟨v, ev1⟩ := r
      simp only [he] at h
      cases hb : Spec.bind v (wanted p) E with
      | none => simp [hb] at h
      | some E1 =>
        simp only [hb, Option.some.injEq, Prod.mk.injEq] at h
        obtain ⟨rfl, rfl, rfl, rfl⟩ := h
        simp only [Plain] at hpl
        have hext := ext_cons hd (.tmp n) v (Nat.lt_irrefl n)
        simp only [Fresh, names] at hf
        obtain ⟨ρ', h1, h2, h3, h4⟩ := bind_run (orc := orc) v n (wanted p) E E1 ((.tmp n, v) :: ρ)
          seen (n + 1) (Nat.lt_succ_self n) (agree_tmp ha n v) (dom_tmp hd v) (by simp [lookup_cons])
          hf.1 hf.2 hb
        refine ⟨ρ', ?_, fun _ => ⟨h2, hext.trans h3, h4, ?_⟩⟩
        · simp only [emit, runCB, runC, eval_sim ha e _ he, Option.map_some, binds_eq, h1,
            List.append_nil]
        · rw [hpl.1]
          exact pend_ext (hext.trans h3) ds P hp
  | .guard c x e els, ds, n, ρ, E, P, seen, q, ev, E', P', ha, hd, hp, hf, hpl, h => by
    simp only [run] at h
    cases he : eval orc E e with
    | none => simp [he] at h
    | some r =>
      obtain ⟨v, ev1⟩ := r
      simp only [he] at h
      simp only [Plain] at hpl
      simp only [Fresh] at hf
      have hext := ext_cons hd (.tmp n) v (Nat.lt_irrefl n)
      cases ho : opened c v with
      | none => simp [ho] at h
      | some o =>
        obtain ⟨b, w, hb, hw, hm⟩ := opened_text hpl.1 ho
        cases o with
        | some w' =>
          simp only [ho, Option.some.injEq, Prod.mk.injEq] at h
          obtain ⟨rfl, rfl, rfl, rfl⟩ := h
          obtain ⟨rfl, rfl⟩ := hm
          have hext2 := ext_cons (dom_tmp hd v) (.user x) w hf.1
          refine ⟨(.user x, w) :: (.tmp n, v) :: ρ, ?_, fun _ =>
            ⟨agree_user (agree_tmp ha n v) x w, hext.trans hext2, ?_, ?_⟩⟩
          · simp only [emit, runCB, runC, eval_sim ha e _ he, Option.map_some, lookup_cons, if_true,
              Option.bind_some, hb, bne_self_eq_false, Bool.false_eq_true, if_false, evalC_field, hw,
              List.append_nil]
          · exact dom_mono (dom_user (dom_tmp hd v) x w) (fun _ h => h)
              (by simp only [emit]; exact emitB_count els ds (n + 1))
          · simp only [emit]
            rw [quiet_emitB els ds (n + 1) hpl.2.1]
            exact pend_ext (hext.trans hext2) ds P hp
        | none =>
          simp only [ho] at h
          cases hr : runB orc els E P with
          | none => simp [hr] at h
          | some r =>
            obtain ⟨q1, ev2, E1, P1⟩ := r
            cases q1 with
            | false => simp [hr] at h
            | true =>
              simp only [hr, Option.some.injEq, Prod.mk.injEq] at h
              obtain ⟨rfl, rfl, rfl, rfl⟩ := h
              obtain ⟨ρ', h1, _⟩ := simB els ds (n + 1) ((.tmp n, v) :: ρ) E P seen true ev2 E1 P1
                (agree_tmp ha n v) (dom_tmp hd v) (pend_ext hext ds P hp) hf.2 hpl.2.2 hr
              refine ⟨(.tmp n, v) :: ρ, ?_, fun h => by simp at h⟩
              have hne : (b != (guardText c).2.1) = true := by simpa using hm
              simp only [emit, runCB, runC, eval_sim ha e _ he, Option.map_some, lookup_cons,
                if_true, Option.bind_some, hb, hne, h1]
  | .say a xs, ds, n, ρ, E, P, seen, q, ev, E', P', ha, hd, hp, hf, hpl, h => by
    simp only [run, Option.map_eq_some_iff] at h
    obtain ⟨vs, hv, h⟩ := h
    simp only [Prod.mk.injEq] at h
    obtain ⟨rfl, rfl, rfl, rfl⟩ := h
    refine ⟨ρ, ?_, fun _ => ⟨ha, Ext.refl _, hd, hp⟩⟩
    simp [emit, runCB, runC, args_vals ha xs vs hv]
  | .defer a xs, ds, n, ρ, E, P, seen, q, ev, E', P', ha, hd, hp, hf, hpl, h => by
    simp only [run, Option.map_eq_some_iff] at h
    obtain ⟨vs, hv, h⟩ := h
    simp only [Prod.mk.injEq] at h
    obtain ⟨rfl, rfl, rfl, rfl⟩ := h
    refine ⟨ρ, by simp [emit, runCB], fun _ => ⟨ha, Ext.refl _, hd, ?_, hp⟩⟩
    simp [Cl.stm, runC, args_vals ha xs vs hv]
  | .block b, ds, n, ρ, E, P, seen, q, ev, E', P', ha, hd, hp, hf, hpl, h => by
    simp only [run] at h
    simp only [Fresh] at hf
    simp only [Plain] at hpl
    cases hr : runB orc b E P with
    | none => simp [hr] at h
    | some r =>
      obtain ⟨q1, ev1, E1, P1⟩ := r
      obtain ⟨ρ', h1, h2⟩ := simB b ds n ρ E P seen q1 ev1 E1 P1 ha hd hp hf hpl hr
      obtain ⟨D, hD⟩ := emitB_stack b ds n
      cases q1 with
      | true =>
        simp only [hr, Option.some.injEq, Prod.mk.injEq] at h
        obtain ⟨rfl, rfl, rfl, rfl⟩ := h
        refine ⟨ρ, ?_, fun h => by simp at h⟩
        simp only [emit, runCB, runC, app_run, h1]
      | false =>
        simp only [hr, Option.some.injEq, Prod.mk.injEq] at h
        obtain ⟨rfl, rfl, rfl, rfl⟩ := h
        obtain ⟨ha', hext, hd', hp'⟩ := h2 rfl
        obtain ⟨A, rfl⟩ := runB_pend b E P ev1 E1 P1 hr
        rw [hD] at hp'
        have hl : D.length = A.length := by
          have h3 := pend_length _ _ hp'
          have h4 := pend_length _ _ hp
          simp only [List.length_append] at h3
          omega
        obtain ⟨hpA, hpP⟩ := pend_append D ds A P hl hp'
        refine ⟨ρ, ?_, fun _ => ⟨ha, Ext.refl _, dom_mono hd (fun x hx => ?_) ?_, ?_⟩⟩
        · have e1 : (D ++ ds).take ((D ++ ds).length - ds.length) = D := by simp
          have e2 : (A ++ P).take ((A ++ P).length - P.length) = A := by simp
          simp only [emit, runCB, runC, app_run, h1, hD, e1, e2, unwind_run D A hpA, List.append_nil]
        · exact List.mem_append_right _ hx
        · simp only [emit]; exact emitB_count b ds n
        · simp only [emit, hD]
          simpa using hp
  | .ret, ds, n, ρ, E, P, seen, q, ev, E', P', ha, hd, hp, hf, hpl, h => by
    simp only [run, Option.some.injEq, Prod.mk.injEq] at h
    obtain ⟨rfl, rfl, rfl, rfl⟩ := h
    refine ⟨ρ, ?_, fun h => by simp at h⟩
    simp [emit, app_run, unwind_run ds P hp, runCB, runC]
/-- A list. -/
theorem simB : ∀ (b : Block) (ds : List Cl) (n : Nat) (ρ : CEnv) (E : Env) (P : List Ev)
    (seen : List String) (q : Bool) (ev : List Ev) (E' : Env) (P' : List Ev), Agree E ρ →
    Dom ρ seen n → Pend orc ρ ds P → FreshB seen b → PlainB b →
    runB orc b E P = some (q, ev, E', P') →
    ∃ ρ', runCB orc (emitB b ds n).1 ρ = some (q, ev, ρ') ∧
      (q = false → Agree E' ρ' ∧ Ext ρ ρ' ∧ (∃ seen', Dom ρ' seen' (emitB b ds n).2.2) ∧
        Pend orc ρ' (emitB b ds n).2.1 P')
  | .nil, ds, n, ρ, E, P, seen, q, ev, E', P', ha, hd, hp, hf, hpl, h => by
    simp only [runB, Option.some.injEq, Prod.mk.injEq] at h
    obtain ⟨rfl, rfl, rfl, rfl⟩ := h
    exact ⟨ρ, by simp [emitB, runCB], fun _ => ⟨ha, Ext.refl _, ⟨seen, hd⟩, hp⟩⟩
  | .cons s r, ds, n, ρ, E, P, seen, q, ev, E', P', ha, hd, hp, hf, hpl, h => by
    simp only [runB] at h
    simp only [FreshB] at hf
    simp only [PlainB] at hpl
    cases hs : run orc s E P with
    | none => simp [hs] at h
    | some t =>
      obtain ⟨q1, ev1, E1, P1⟩ := t
      obtain ⟨ρ1, h1, h2⟩ := sim s ds n ρ E P seen q1 ev1 E1 P1 ha hd hp hf.1 hpl.1 hs
      cases q1 with
      | true =>
        simp only [hs, Option.some.injEq, Prod.mk.injEq] at h
        obtain ⟨rfl, rfl, rfl, rfl⟩ := h
        exact ⟨ρ1, by simp only [emitB, app_run, h1], fun h => by simp at h⟩
      | false =>
        simp only [hs] at h
        obtain ⟨ha1, he1, hd1, hp1⟩ := h2 rfl
        cases hr : runB orc r E1 P1 with
        | none => simp [hr] at h
        | some u =>
          obtain ⟨q2, ev2, E2, P2⟩ := u
          simp only [hr, Option.some.injEq, Prod.mk.injEq] at h
          obtain ⟨rfl, rfl, rfl, rfl⟩ := h
          obtain ⟨ρ2, h3, h4⟩ := simB r (emit s ds n).2.1 (emit s ds n).2.2 ρ1 E1 P1
            (names s ++ seen) q2 ev2 E2 P2 ha1 hd1 hp1 hf.2 hpl.2 hr
          refine ⟨ρ2, by simp only [emitB, app_run, h1, h3], fun hq => ?_⟩
          obtain ⟨a, b, c, d⟩ := h4 hq
          exact ⟨a, he1.trans b, c, d⟩
end

/-! ## Names in the printed text -/

theorem declared_app (a b : CBlock) : (a.app b).declared = a.declared ++ b.declared := by
  induction a using CBlock.rec (motive_1 := fun _ => True) with
  | decl => trivial
  | test => trivial
  | say => trivial
  | drop => trivial
  | block => trivial
  | ret => trivial
  | nil => rfl
  | cons s r _ ih => cases s <;> simp [CBlock.app, CBlock.declared, ih]

theorem tidy_app (a b : CBlock) : tidyB (a.app b) = (tidyB a && tidyB b) := by
  induction a using CBlock.rec (motive_1 := fun _ => True) with
  | decl => trivial
  | test => trivial
  | say => trivial
  | drop => trivial
  | block => trivial
  | ret => trivial
  | nil => simp [CBlock.app, tidyB]
  | cons s r _ ih => simp [CBlock.app, tidyB, ih, Bool.and_assoc]

theorem unwind_plain (ds : List Cl) : (unwind ds).declared = [] ∧ tidyB (unwind ds) = true := by
  induction ds with
  | nil => exact ⟨rfl, rfl⟩
  | cons d r ih => cases d <;> simp [unwind, Cl.stm, CBlock.declared, tidyB, tidy, ih]

theorem bindText_plain (n : Nat) (bs : List (String × String)) :
    (bindText n bs).declared = bs.map (fun b => CVar.user b.2) ∧ tidyB (bindText n bs) = true := by
  induction bs with
  | nil => exact ⟨rfl, rfl⟩
  | cons b r ih => obtain ⟨f, x⟩ := b; simp [bindText, CBlock.declared, tidyB, tidy, ih]

mutual
/-- The names a statement declares in the text. -/
theorem text_tidy : ∀ (s : Stmt) (ds : List Cl) (n : Nat) (seen : List String), Fresh seen s →
    tidyB (emit s ds n).1 = true ∧ (emit s ds n).1.declared.Nodup ∧
      ∀ x ∈ (emit s ds n).1.declared,
        match x with
        | .user y => y ∈ names s
        | .tmp k => n ≤ k ∧ k < (emit s ds n).2.2
  | .lets x own e, ds, n, seen, hf => by
    simp [emit, tidyB, tidy, CBlock.declared, names]
  | .pat p own e, ds, n, seen, hf => by
    simp only [Fresh, names] at hf
    obtain ⟨h1, h2⟩ := bindText_plain n (wanted p)
    simp only [emit, tidyB, tidy, binds_eq, h2, CBlock.declared, h1, Bool.and_self, true_and,
      List.nodup_cons]
    refine ⟨⟨by simp, ?_⟩, ?_⟩
    · have : (wanted p).map (fun b => CVar.user b.2) = ((wanted p).map Prod.snd).map CVar.user := by
        rw [List.map_map]; rfl
      rw [this, List.Nodup, List.pairwise_map]
      exact hf.1.imp (by simp)
    · intro x hx
      simp only [List.mem_cons, List.mem_map] at hx
      rcases hx with rfl | ⟨b, hb, rfl⟩
      · simp
      · exact List.mem_map.mpr ⟨b, hb, rfl⟩
  | .guard c x e els, ds, n, seen, hf => by
    simp only [Fresh] at hf
    obtain ⟨h1, h2, _⟩ := textB_tidy els ds (n + 1) seen hf.2
    have hc := emitB_count els ds (n + 1)
    simp only [emit, tidyB, tidy, h1, h2, decide_true, CBlock.declared, Bool.and_self, names,
      true_and]
    refine ⟨by simp, ?_⟩
    intro y hy
    simp only [List.mem_cons, List.not_mem_nil, or_false] at hy
    rcases hy with rfl | rfl
    · exact ⟨Nat.le_refl _, by omega⟩
    · simp
  | .say a xs, ds, n, seen, hf => by simp [emit, tidyB, tidy, CBlock.declared]
  | .defer a xs, ds, n, seen, hf => by simp [emit, tidyB, CBlock.declared]
  | .block b, ds, n, seen, hf => by
    simp only [Fresh] at hf
    obtain ⟨h1, h2, _⟩ := textB_tidy b ds n seen hf
    simp [emit, tidyB, tidy, CBlock.declared, declared_app, unwind_plain, h2, tidy_app, h1]
  | .ret, ds, n, seen, hf => by
    simp [emit, tidy_app, declared_app, unwind_plain, tidyB, tidy, CBlock.declared]
/-- The same for lists. -/
theorem textB_tidy : ∀ (b : Block) (ds : List Cl) (n : Nat) (seen : List String), FreshB seen b →
    tidyB (emitB b ds n).1 = true ∧ (emitB b ds n).1.declared.Nodup ∧
      ∀ x ∈ (emitB b ds n).1.declared,
        match x with
        | .user y => y ∉ seen
        | .tmp k => n ≤ k ∧ k < (emitB b ds n).2.2
  | .nil, ds, n, seen, hf => by simp [emitB, tidyB, CBlock.declared]
  | .cons s r, ds, n, seen, hf => by
    simp only [FreshB] at hf
    obtain ⟨a1, a2, a3⟩ := text_tidy s ds n seen hf.1
    obtain ⟨b1, b2, b3⟩ := textB_tidy r (emit s ds n).2.1 (emit s ds n).2.2 (names s ++ seen) hf.2
    have hc := emit_count s ds n
    have hc' := emitB_count r (emit s ds n).2.1 (emit s ds n).2.2
    simp only [emitB, tidy_app, a1, b1, Bool.and_self, true_and, declared_app]
    refine ⟨?_, ?_⟩
    · rw [List.nodup_append]
      refine ⟨a2, b2, ?_⟩
      rintro x hx y hy rfl
      have h1 := a3 x hx
      have h2 := b3 x hy
      cases x with
      | user z => exact h2 (List.mem_append_left _ h1)
      | tmp k => simp only at h1 h2; omega
    · intro x hx
      rcases List.mem_append.mp hx with hx | hx
      · have h1 := a3 x hx
        cases x with
        | user z => exact fresh_names s seen hf.1 z h1
        | tmp k => simp only at h1 ⊢; omega
      · have h2 := b3 x hx
        cases x with
        | user z => exact fun h => h2 (List.mem_append_right _ h)
        | tmp k => simp only at h2 ⊢; omega
end

mutual
theorem plain_narrow : ∀ s : Stmt, Plain s → narrow s = true
  | .lets _ _ _, _ => rfl
  | .pat p _ _, h => by
    simp only [Plain] at h
    simp only [narrow, width_eq, decide_eq_true_eq]
    exact h.2
  | .guard _ _ _ els, h => by
    simp only [Plain] at h
    simp only [narrow]
    exact plain_narrowB els h.2.2
  | .say _ _, _ => rfl
  | .defer _ _, _ => rfl
  | .block b, h => by
    simp only [Plain] at h
    simp only [narrow]
    exact plain_narrowB b h
  | .ret, _ => rfl
theorem plain_narrowB : ∀ b : Block, PlainB b → narrowB b = true
  | .nil, _ => rfl
  | .cons s r, h => by
    simp only [PlainB] at h
    simp only [narrowB, plain_narrow s h.1, plain_narrowB r h.2, Bool.and_self]
end

mutual
theorem wide_narrow (k : Nat) (hk : 16 < k) : ∀ s : Stmt, Wide k s → narrow s = false
  | .lets _ _ _, h => by simp [Wide] at h
  | .pat p _ _, h => by
    simp only [Wide] at h
    simp only [narrow, width_eq, decide_eq_false_iff_not]
    omega
  | .guard _ _ _ els, h => by
    simp only [Wide] at h
    simp only [narrow]
    exact wide_narrowB k hk els h
  | .say _ _, h => by simp [Wide] at h
  | .defer _ _, h => by simp [Wide] at h
  | .block b, h => by
    simp only [Wide] at h
    simp only [narrow]
    exact wide_narrowB k hk b h
  | .ret, h => by simp [Wide] at h
theorem wide_narrowB (k : Nat) (hk : 16 < k) : ∀ b : Block, WideB k b → narrowB b = false
  | .nil, h => by simp [WideB] at h
  | .cons s r, h => by
    simp only [WideB] at h
    rcases h with h | h
    · simp [narrowB, wide_narrow k hk s h]
    · simp [narrowB, wide_narrowB k hk r h]
end

end Verif.Destruct
