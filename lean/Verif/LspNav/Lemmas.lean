import Verif.LspNav.Model

/-!
# What is in the index
-/

namespace Verif.LspNav
open Verif Spec

/-! ## Names do not depend on what they stand for -/

/-- The names in an expression. -/
def toksE (e : Expr) : List Tok := (usesE [] [] e).map (·.1)
/-- In arguments. -/
def toksEs (e : Exprs) : List Tok := (usesEs [] [] e).map (·.1)
/-- In a statement. -/
def toksS (s : Stmt) : List Tok := (usesS "" [] [] s).map (·.1)
/-- In a list. -/
def toksB (s : Block) : List Tok := (usesB "" [] [] s).map (·.1)

mutual
theorem usesE_fst (top env : Env) : ∀ e : Expr, (usesE top env e).map (·.1) = toksE e
  | .lit => rfl
  | .var t => rfl
  | .call t args => by
    have h := usesEs_fst top env args
    simp only [toksEs] at h
    simp only [usesE, toksE, List.map_cons, h]
  | .bin l r => by
    have h1 := usesE_fst top env l
    have h2 := usesE_fst top env r
    simp only [toksE] at h1 h2
    simp only [usesE, toksE, List.map_append, h1, h2]
  | .under e => by
    have h1 := usesE_fst top env e
    simp only [toksE] at h1
    simp only [usesE, toksE, h1]
theorem usesEs_fst (top env : Env) : ∀ e : Exprs, (usesEs top env e).map (·.1) = toksEs e
  | .nil => rfl
  | .cons e r => by
    have h1 := usesE_fst top env e
    have h2 := usesEs_fst top env r
    simp only [toksE, toksEs] at h1 h2
    simp only [usesEs, toksEs, List.map_append, h1, h2]
end

mutual
theorem usesS_fst (u : String) (top env : Env) : ∀ s : Stmt, (usesS u top env s).map (·.1) = toksS s
  | .decl t e => by simp only [usesS, toksS, List.map_cons, usesE_fst]
  | .expr e => by simp only [usesS, toksS, usesE_fst]
  | .ifs c a b => by
    simp only [usesS, toksS, List.map_append, usesE_fst, usesB_fst u top env a, usesB_fst "" [] [] a,
      usesB_fst u top env b, usesB_fst "" [] [] b]
  | .whiles c b => by
    simp only [usesS, toksS, List.map_append, usesE_fst, usesB_fst u top env b, usesB_fst "" [] [] b]
  | .ret e => by simp only [usesS, toksS, usesE_fst]
  | .block b => by simp only [usesS, toksS, usesB_fst u top env b, usesB_fst "" [] [] b]
  | .under e => by simp only [usesS, toksS, usesE_fst]
theorem usesB_fst (u : String) (top env : Env) : ∀ s : Block, (usesB u top env s).map (·.1) = toksB s
  | .nil => rfl
  | .cons s r => by
    show (usesS u top env s ++ usesB u top (after u env s) r).map (·.1)
      = (usesS "" [] [] s ++ usesB "" [] (after "" [] s) r).map (·.1)
    rw [List.map_append, List.map_append, usesS_fst u top env s, usesS_fst "" [] [] s,
      usesB_fst u top _ r, usesB_fst "" [] _ r]
end

@[simp] theorem toksE_var (t : Tok) : toksE (.var t) = [t] := rfl
@[simp] theorem toksE_lit : toksE .lit = [] := rfl
@[simp] theorem toksE_call (t : Tok) (a : Exprs) : toksE (.call t a) = t :: toksEs a := rfl
@[simp] theorem toksE_bin (l r : Expr) : toksE (.bin l r) = toksE l ++ toksE r := by
  simp [toksE, usesE]
@[simp] theorem toksE_under (e : Expr) : toksE (.under e) = toksE e := rfl
@[simp] theorem toksEs_nil : toksEs .nil = [] := rfl
@[simp] theorem toksEs_cons (e : Expr) (r : Exprs) : toksEs (.cons e r) = toksE e ++ toksEs r := by
  simp [toksE, toksEs, usesEs]
@[simp] theorem toksS_decl (t : Tok) (e : Expr) : toksS (.decl t e) = t :: toksE e := rfl
@[simp] theorem toksS_expr (e : Expr) : toksS (.expr e) = toksE e := rfl
@[simp] theorem toksS_ret (e : Expr) : toksS (.ret e) = toksE e := rfl
@[simp] theorem toksS_under (e : Expr) : toksS (.under e) = toksE e := rfl
@[simp] theorem toksS_block (b : Block) : toksS (.block b) = toksB b := rfl
@[simp] theorem toksS_whiles (e : Expr) (b : Block) : toksS (.whiles e b) = toksE e ++ toksB b := by
  simp [toksS, toksE, toksB, usesS]
@[simp] theorem toksS_ifs (e : Expr) (a b : Block) :
    toksS (.ifs e a b) = toksE e ++ (toksB a ++ toksB b) := by
  simp [toksS, toksE, toksB, usesS]
@[simp] theorem toksB_nil : toksB .nil = [] := rfl
@[simp] theorem toksB_cons (s : Stmt) (r : Block) : toksB (.cons s r) = toksS s ++ toksB r := by
  show (usesS "" [] [] s ++ usesB "" [] (after "" [] s) r).map (·.1) = _
  rw [List.map_append, usesS_fst, usesB_fst]

theorem namesE_eq (e : Expr) : namesE e = (toksE e).map (·.name) := by
  simp [namesE, toksE]
theorem namesB_eq (b : Block) : namesB b = (toksB b).map (·.name) := by
  simp [namesB, toksB]

theorem mem_names {x : String} {l : List Tok} : x ∈ l.map (·.name) ↔ ∃ t ∈ l, t.name = x := by
  simp

/-! ## The context -/

/-- Everything that was registered is in a line, and no default value is a variable. -/
structure CtxOk (c : Ctx) : Prop where
  funcs : ∀ x s, c.funcs.lookup x = some s → 0 < s.1.line ∧ ∀ d ∈ s.2, d = none
  syms : ∀ x t, c.syms.lookup x = some (some t) → 0 < t.line

/-- The variable is known. -/
def SymOk (x : String) (c : Ctx) : Prop := ∃ t, c.syms.lookup x = some (some t)

/-- The function, or variable, is known. -/
def Ok (k : Bool) (x : String) (c : Ctx) : Prop :=
  if k then (c.funcs.lookup x).isSome = true else SymOk x c

theorem lookup_cons {α β : Type} [DecidableEq α] (a : α) (b : β) (l : List (α × β)) (x : α) :
    ((a, b) :: l).lookup x = if x = a then some b else l.lookup x := by
  rw [List.lookup_cons]
  by_cases h : x = a
  · subst h; simp
  · have : (x == a) = false := by simpa using h
    simp [this, h]

theorem ctxOk_let {c : Ctx} (h : CtxOk c) (t : Tok) (ht : 0 < t.line) :
    CtxOk { c with syms := (t.name, some t) :: c.syms } := by
  refine ⟨h.funcs, fun x v hv => ?_⟩
  simp only [lookup_cons] at hv
  split at hv
  · simp only [Option.some.injEq] at hv
    subst hv
    exact ht
  · exact h.syms x v hv

theorem ok_let {k : Bool} {x : String} {c : Ctx} (h : Ok k x c) (t : Tok) :
    Ok k x { c with syms := (t.name, some t) :: c.syms } := by
  unfold Ok at h ⊢
  split
  · rename_i hk; simp only [hk, if_true] at h; exact h
  · rename_i hk
    simp only [hk, if_false, SymOk, lookup_cons] at h ⊢
    by_cases e : x = t.name
    · exact ⟨t, by simp [e]⟩
    · obtain ⟨v, hv⟩ := h
      exact ⟨v, by simp [e, hv]⟩

/-! ## Expressions -/

/-- The entries with a name. -/
def named (x : String) (l : List Rng) : List Tok := (l.filter (fun r => r.name == x)).map (·.tok)

/-- The tokens with a name. -/
def withName (x : String) (l : List Tok) : List Tok := l.filter (fun t => t.name == x)

@[simp] theorem named_nil (x : String) : named x [] = [] := rfl
@[simp] theorem named_append (x : String) (a b : List Rng) : named x (a ++ b) = named x a ++ named x b := by
  simp [named]
theorem named_cons (x : String) (r : Rng) (l : List Rng) : named x (r :: l) = named x [r] ++ named x l := by
  rw [← named_append]; rfl
@[simp] theorem withName_nil (x : String) : withName x [] = [] := rfl
@[simp] theorem withName_append (x : String) (a b : List Tok) :
    withName x (a ++ b) = withName x a ++ withName x b := by
  simp [withName]
theorem withName_cons (x : String) (t : Tok) (l : List Tok) :
    withName x (t :: l) = withName x [t] ++ withName x l := by
  rw [← withName_append]; rfl
theorem withName_none {x : String} {l : List Tok} (h : ∀ t ∈ l, t.name ≠ x) : withName x l = [] := by
  simp only [withName, List.filter_eq_nil_iff, beq_iff_eq]
  exact h

theorem walks_app (a b : Nodes) : walks (a.app b) = walks a ++ walks b := by
  induction a using Nodes.rec (motive_1 := fun _ => True) with
  | mk => trivial
  | nil => rfl
  | cons n r _ ih => simp [Nodes.app, walks, ih]

theorem defaults_nil (c : Ctx) (l : List (Option String)) (h : ∀ d ∈ l, d = none) :
    defaultNodes c l = .nil := by
  induction l with
  | nil => rfl
  | cons d r ih =>
    have := h d (by simp)
    subst this
    exact ih (fun d hd => h d (by simp [hd]))

/-- A variable. -/
theorem walk_var (c : Ctx) (t : Tok) (ht : 0 < t.line) (hc : CtxOk c) :
    walk (varNode c t) =
      match c.syms.lookup t.name with
      | some (some d) => [⟨t, t.name, some d, ""⟩]
      | _ => [] := by
  simp only [varNode, walk, addDef, addRef, walks]
  cases h : c.syms.lookup t.name with
  | none => simp
  | some o =>
    cases o with
    | none => simp
    | some d => simp [ht, hc.syms _ _ h]

theorem named_one (x : String) (t : Tok) (d : Option Tok) (h : String) :
    named x [⟨t, t.name, d, h⟩] = withName x [t] := by
  by_cases e : t.name = x <;> simp [named, withName, e]

mutual
/-- The entries for an expression. -/
theorem namedE (k : Bool) (x : String) (c : Ctx) (hc : CtxOk c) : ∀ e : Expr, PlainE k x e →
    (∀ t ∈ toksE e, 0 < t.line) → ((∃ t ∈ toksE e, t.name = x) → Ok k x c) →
    named x (walk (parseE c e)) = withName x (toksE e)
  | .lit, _, _, _ => by simp [parseE, walk, addDef, addRef]
  | .var t, hp, hl, ho => by
    simp only [parseE, toksE_var]
    rw [walk_var c t (hl t (by simp)) hc]
    by_cases e : t.name = x
    · have hk : k = false := by
        cases k
        · rfl
        · exact absurd e (hp rfl)
      have := ho ⟨t, by simp, e⟩
      simp only [Ok, hk, Bool.false_eq_true, if_false, SymOk] at this
      obtain ⟨d, hd⟩ := this
      rw [e, hd]
      simp only
      rw [← e]
      exact named_one _ t _ _
    · rw [withName_none (by simpa using e)]
      split
      · simp [named, e]
      · rfl
  | .call t args, hp, hl, ho => by
    have h := namedEs k x c hc args hp (fun s hs => hl s (by simp [hs]))
      (fun ⟨s, hs, hx⟩ => ho ⟨s, by simp [hs], hx⟩)
    have ht := hl t (by simp)
    simp only [parseE, toksE_call]
    rw [withName_cons]
    cases hf : c.funcs.lookup t.name with
    | some s =>
      obtain ⟨d, defs⟩ := s
      obtain ⟨hd, hn⟩ := hc.funcs _ _ hf
      have hz : defaultNodes c (defs.drop args.length) = .nil :=
        defaults_nil c _ (fun z hz => hn z (List.mem_of_mem_drop hz))
      simp only [hz, walk, walks, walks_app, addDef, addRef, ht, hd, and_self, if_true, List.append_nil,
        named_append, named_one]
      simp [h]
    | none =>
      simp only [walk, walks, addDef, addRef, named_append, h, named_nil, List.nil_append]
      simp only [reduceCtorEq, if_false, named_append, h]
      congr 1
      rw [walk_var c t ht hc]
      by_cases e : t.name = x
      · have := ho ⟨t, by simp, e⟩
        simp only [Ok] at this
        split at this
        · rw [← e, hf] at this
          simp at this
        · obtain ⟨d, hd⟩ := this
          rw [e, hd]
          simp only
          rw [← e]
          exact named_one _ t _ _
      · rw [withName_none (by simpa using e)]
        split
        · simp [named, e]
        · rfl
  | .bin l r, hp, hl, ho => by
    have h1 := namedE k x c hc l hp.1 (fun s hs => hl s (by simp [hs]))
      (fun ⟨s, hs, hx⟩ => ho ⟨s, by simp [hs], hx⟩)
    have h2 := namedE k x c hc r hp.2 (fun s hs => hl s (by simp [hs]))
      (fun ⟨s, hs, hx⟩ => ho ⟨s, by simp [hs], hx⟩)
    simp [parseE, walk, walks, addDef, addRef, h1, h2]
  | .under e, hp, hl, ho => by
    rw [withName_none]
    · simp [parseE, walk, addDef, addRef]
    · intro t ht hx
      apply hp
      rw [namesE_eq]
      exact List.mem_map.mpr ⟨t, by simpa using ht, hx⟩
/-- Arguments. -/
theorem namedEs (k : Bool) (x : String) (c : Ctx) (hc : CtxOk c) : ∀ e : Exprs, PlainEs k x e →
    (∀ t ∈ toksEs e, 0 < t.line) → ((∃ t ∈ toksEs e, t.name = x) → Ok k x c) →
    named x (walks (parseEs c e)) = withName x (toksEs e)
  | .nil, _, _, _ => by simp [parseEs, walks]
  | .cons e r, hp, hl, ho => by
    have h1 := namedE k x c hc e hp.1 (fun s hs => hl s (by simp [hs]))
      (fun ⟨s, hs, hx⟩ => ho ⟨s, by simp [hs], hx⟩)
    have h2 := namedEs k x c hc r hp.2 (fun s hs => hl s (by simp [hs]))
      (fun ⟨s, hs, hx⟩ => ho ⟨s, by simp [hs], hx⟩)
    simp [parseEs, walks, h1, h2]
end

/-! ## Statements -/

/-- Bound names that are no function's: in the environment or at the top level. -/
theorem find_some {top env : Env} {x : String} (h : find top env x ≠ none) :
    env.lookup x ≠ none ∨ top.lookup x ≠ none := by
  unfold find at h
  cases he : env.lookup x with
  | some d => exact .inl (by simp)
  | none => rw [he] at h; exact .inr h

mutual
theorem usesE_find (top env : Env) : ∀ (e : Expr), ∀ p ∈ usesE top env e, p.2 = find top env p.1.name
  | .lit, p, h => by simp [usesE] at h
  | .var t, p, h => by simp only [usesE, List.mem_singleton] at h; subst h; rfl
  | .call t args, p, h => by
    simp only [usesE, List.mem_cons] at h
    rcases h with rfl | h
    · rfl
    · exact usesEs_find top env args p h
  | .bin l r, p, h => by
    simp only [usesE, List.mem_append] at h
    rcases h with h | h
    · exact usesE_find top env l p h
    · exact usesE_find top env r p h
  | .under e, p, h => usesE_find top env e p h
theorem usesEs_find (top env : Env) : ∀ (e : Exprs), ∀ p ∈ usesEs top env e, p.2 = find top env p.1.name
  | .nil, p, h => by simp [usesEs] at h
  | .cons e r, p, h => by
    simp only [usesEs, List.mem_append] at h
    rcases h with h | h
    · exact usesE_find top env e p h
    · exact usesEs_find top env r p h
end

/-- The variables of the program are known to the parser. -/
def EnvOk (k : Bool) (x : String) (env : Env) (c : Ctx) : Prop := env.lookup x ≠ none → Ok k x c

/-- An expression whose names stand for something. -/
theorem namedE' (k : Bool) (x : String) (c : Ctx) (hc : CtxOk c) (top env : Env) (e : Expr)
    (hp : PlainE k x e) (hl : ∀ t ∈ toksE e, 0 < t.line)
    (hu : ∀ p ∈ usesE top env e, p.1.name = x → p.2 ≠ none) (he : EnvOk k x env c)
    (ht : top.lookup x ≠ none → (∃ t ∈ toksE e, t.name = x) → Ok k x c) :
    named x (walk (parseE c e)) = withName x (toksE e) := by
  refine namedE k x c hc e hp hl ?_
  rintro ⟨t, htm, hx⟩
  have : t ∈ (usesE top env e).map (·.1) := by rw [usesE_fst]; exact htm
  obtain ⟨p, hp', rfl⟩ := List.mem_map.mp this
  have h1 := hu p hp' hx
  rw [usesE_find top env e p hp', hx] at h1
  rcases find_some h1 with h | h
  · exact he h
  · exact ht h ⟨p.1, htm, hx⟩

theorem parseS_ctx {k : Bool} {x : String} (c : Ctx) (hc : CtxOk c) (s : Stmt) (hl : ∀ t ∈ toksS s, 0 < t.line) :
    CtxOk (parseS c s).2 ∧ (Ok k x c → Ok k x (parseS c s).2) := by
  cases s <;> simp only [parseS]
  case decl t e => exact ⟨ctxOk_let hc t (hl t (by simp)), fun h => ok_let h t⟩
  all_goals exact ⟨hc, id⟩

theorem after_ok {k : Bool} {x u : String} {env : Env} {c : Ctx} (he : EnvOk k x env c) (s : Stmt)
    (hp : PlainS k x s) : EnvOk k x (after u env s) (parseS c s).2 := by
  cases s
  case decl t e =>
    simp only [after, parseS]
    intro h
    simp only [lookup_cons] at h
    by_cases ex : x = t.name
    · cases k with
      | true => exact absurd ex.symm (hp.1 rfl)
      | false =>
        simp only [Ok, Bool.false_eq_true, if_false, SymOk, lookup_cons]
        exact ⟨t, by simp [ex]⟩
    · simp only [ex, if_false] at h
      exact ok_let (he h) t
  all_goals exact he

theorem named_grp (x : String) (n : Nodes) : named x (walk (.mk .group none "" none "" n)) = named x (walks n) := by
  simp [walk, addDef, addRef]

mutual
/-- A statement. -/
theorem namedS (k : Bool) (x u : String) (top : Env) : ∀ (s : Stmt) (c : Ctx) (env : Env), CtxOk c →
    PlainS k x s → (∀ t ∈ toksS s, 0 < t.line) →
    (∀ p ∈ usesS u top env s, p.1.name = x → p.2 ≠ none) → EnvOk k x env c →
    (top.lookup x ≠ none → (∃ t ∈ toksS s, t.name = x) → Ok k x c) →
    named x (walk (parseS c s).1) = withName x (toksS s)
  | .decl t e, c, env, hc, hp, hl, hu, he, ht => by
    have h1 := namedE' k x c hc top env e hp.2 (fun s hs => hl s (by simp [hs]))
      (fun p hm => hu p (by simp [usesS, hm])) he (fun h ⟨s, hs, hx⟩ => ht h ⟨s, by simp [hs], hx⟩)
    have h0 := hl t (by simp)
    simp only [parseS, toksS_decl]
    rw [withName_cons, ← h1, ← named_one x t none ("var " ++ t.name), ← named_append]
    simp [walk, walks, addDef, addRef, h0]
  | .expr e, c, env, hc, hp, hl, hu, he, ht =>
    namedE' k x c hc top env e hp hl hu he ht
  | .ifs e a b, c, env, hc, hp, hl, hu, he, ht => by
    have h1 := namedE' k x c hc top env e hp.1 (fun s hs => hl s (by simp [hs]))
      (fun p hm => hu p (by simp [usesS, hm])) he (fun h ⟨s, hs, hx⟩ => ht h ⟨s, by simp [hs], hx⟩)
    have h2 := namedB k x u top a c env hc hp.2.1 (fun s hs => hl s (by simp [hs]))
      (fun p hm => hu p (by simp [usesS, hm])) he (fun h ⟨s, hs, hx⟩ => ht h ⟨s, by simp [hs], hx⟩)
    have h3 := namedB k x u top b c env hc hp.2.2 (fun s hs => hl s (by simp [hs]))
      (fun p hm => hu p (by simp [usesS, hm])) he (fun h ⟨s, hs, hx⟩ => ht h ⟨s, by simp [hs], hx⟩)
    simp only [parseS, named_grp, walks, named_append, h1, h2, h3, toksS_ifs, withName_append, named_nil,
      List.append_nil]
  | .whiles e b, c, env, hc, hp, hl, hu, he, ht => by
    have h1 := namedE' k x c hc top env e hp.1 (fun s hs => hl s (by simp [hs]))
      (fun p hm => hu p (by simp [usesS, hm])) he (fun h ⟨s, hs, hx⟩ => ht h ⟨s, by simp [hs], hx⟩)
    have h3 := namedB k x u top b c env hc hp.2 (fun s hs => hl s (by simp [hs]))
      (fun p hm => hu p (by simp [usesS, hm])) he (fun h ⟨s, hs, hx⟩ => ht h ⟨s, by simp [hs], hx⟩)
    simp only [parseS, named_grp, walks, named_append, h1, h3, toksS_whiles, withName_append, named_nil,
      List.append_nil]
  | .ret e, c, env, hc, hp, hl, hu, he, ht => by
    have h1 := namedE' k x c hc top env e hp hl hu he ht
    simp only [parseS, named_grp, walks, named_append, h1, toksS_ret, named_nil, List.append_nil]
  | .block b, c, env, hc, hp, hl, hu, he, ht => by
    have h3 := namedB k x u top b c env hc hp hl hu he ht
    simp only [parseS, named_grp, h3, toksS_block]
  | .under e, c, env, hc, hp, hl, hu, he, ht => by
    rw [withName_none]
    · simp [parseS, walk, addDef, addRef]
    · intro t ht hx
      apply hp
      rw [namesE_eq]
      exact List.mem_map.mpr ⟨t, by simpa using ht, hx⟩
/-- A list. -/
theorem namedB (k : Bool) (x u : String) (top : Env) : ∀ (s : Block) (c : Ctx) (env : Env), CtxOk c →
    PlainB k x s → (∀ t ∈ toksB s, 0 < t.line) →
    (∀ p ∈ usesB u top env s, p.1.name = x → p.2 ≠ none) → EnvOk k x env c →
    (top.lookup x ≠ none → (∃ t ∈ toksB s, t.name = x) → Ok k x c) →
    named x (walks (parseL c s)) = withName x (toksB s)
  | .nil, c, env, hc, hp, hl, hu, he, ht => by simp [parseL, walks]
  | .cons s r, c, env, hc, hp, hl, hu, he, ht => by
    have hls : ∀ t ∈ toksS s, 0 < t.line := fun s hs => hl s (by simp [hs])
    have h1 := namedS k x u top s c env hc hp.1 hls
      (fun p hm => hu p (by simp [usesB, hm])) he (fun h ⟨s, hs, hx⟩ => ht h ⟨s, by simp [hs], hx⟩)
    obtain ⟨hc', ho'⟩ := parseS_ctx (k := k) (x := x) c hc s hls
    have h2 := namedB k x u top r (parseS c s).2 (after u env s) hc' hp.2 (fun s hs => hl s (by simp [hs]))
      (fun p hm => hu p (by simp [usesB, hm])) (after_ok he s hp.1)
      (fun h ⟨s, hs, hx⟩ => ho' (ht h ⟨s, by simp [hs], hx⟩))
    simp only [parseL, walks, named_append, h1, h2, toksB_cons, withName_append]
end

/-! ## Declarations and files -/

/-- The names in a declaration. -/
def toksI (i : Item) : List Tok := (usesI "" [] i).map (·.1)

theorem usesD_fst (top : Env) (d : Option Tok) : (usesD top d).map (·.1) = (usesD [] d).map (·.1) := by
  cases d <;> rfl

theorem usesI_fst (u : String) (top : Env) (i : Item) : (usesI u top i).map (·.1) = toksI i := by
  cases i with
  | fn t ps ret body =>
    simp only [usesI, toksI, List.map_cons, List.map_append, usesB_fst, List.map_flatMap, usesD_fst top]
  | glob t e => simp only [usesI, toksI, List.map_cons, usesE_fst]

/-- The names in a file. -/
def toksF (f : File) : List Tok := f.flatMap toksI

theorem usesF_fst (u : String) (top : Env) (f : File) : (usesF u top f).map (·.1) = toksF f := by
  simp only [usesF, toksF, List.map_flatMap, usesI_fst]

@[simp] theorem toksI_glob (t : Tok) (e : Expr) : toksI (.glob t e) = t :: toksE e := by
  simp only [toksI, usesI, List.map_cons, usesE_fst]

theorem toksI_fn (t : Tok) (ps : List (Tok × Option Tok)) (ret : String) (body : Block) :
    toksI (.fn t ps ret body)
      = t :: (ps.flatMap (fun p => p.1 :: (usesD [] p.2).map (·.1)) ++ toksB body) := by
  simp only [toksI, usesI, List.map_cons, List.map_append, usesB_fst, List.map_flatMap]

/-- No default value of the declaration is a variable. -/
def Item.bare : Item → Prop
  | .fn _ ps _ _ => ∀ p ∈ ps, p.2 = none
  | .glob _ _ => True

theorem bare_of {f : File} (h : NoDefaults f) {i : Item} (hi : i ∈ f) : i.bare := by
  have := h i hi
  cases i <;> exact this

theorem toksI_bare {t : Tok} {ps : List (Tok × Option Tok)} {ret : String} {body : Block}
    (h : (Item.fn t ps ret body).bare) :
    toksI (.fn t ps ret body) = t :: (ps.map (·.1) ++ toksB body) := by
  rw [toksI_fn]
  congr 2
  have : ∀ p ∈ ps, p.2 = none := h
  clear h
  induction ps with
  | nil => rfl
  | cons p r ih =>
    have hp := this p (by simp)
    rw [List.flatMap_cons, ih (fun q hq => this q (by simp [hq])), hp]
    rfl

theorem paramSyms_lookup {ps : List (Tok × Option Tok)} {x : String} (h : ∀ p ∈ ps, p.1.name ≠ x)
    (l : List (String × Option Tok)) : (paramSyms ps ++ l).lookup x = l.lookup x := by
  have : ∀ q ∈ paramSyms ps, q.1 ≠ x := by
    intro q hq
    simp only [paramSyms, List.mem_reverse, List.mem_map] at hq
    obtain ⟨p, hp, rfl⟩ := hq
    exact h p hp
  generalize paramSyms ps = m at this
  induction m with
  | nil => rfl
  | cons q r ih =>
    obtain ⟨a, b⟩ := q
    have ha : x ≠ a := fun e => this (a, b) (by simp) e.symm
    simp only [List.cons_append, lookup_cons, ha, if_false]
    exact ih (fun q hq => this q (by simp [hq]))

theorem paramSyms_some {ps : List (Tok × Option Tok)} {x : String} {t : Tok} (l : List (String × Option Tok))
    (h : (paramSyms ps ++ l).lookup x = some (some t)) : l.lookup x = some (some t) := by
  have : ∀ q ∈ paramSyms ps, q.2 = none := by
    intro q hq
    simp only [paramSyms, List.mem_reverse, List.mem_map] at hq
    obtain ⟨p, hp, rfl⟩ := hq
    rfl
  generalize paramSyms ps = m at this h
  induction m with
  | nil => exact h
  | cons q r ih =>
    obtain ⟨a, b⟩ := q
    have hb := this (a, b) (by simp)
    simp only at hb
    subst hb
    simp only [List.cons_append, lookup_cons] at h
    split at h
    · simp at h
    · exact ih (fun q hq => this q (by simp [hq])) h

/-- The context in the body of a function. -/
def inBody (c : Ctx) (t : Tok) (ps : List (Tok × Option Tok)) : Ctx :=
  ⟨(t.name, (t, ps.map (fun p => p.2.map Tok.name))) :: c.funcs, paramSyms ps ++ c.syms⟩

theorem inBody_ok {c : Ctx} (hc : CtxOk c) {t : Tok} {ps : List (Tok × Option Tok)} (ht : 0 < t.line)
    (hb : ∀ p ∈ ps, p.2 = none) : CtxOk (inBody c t ps) := by
  refine ⟨fun x s h => ?_, fun x v h => hc.syms x v (paramSyms_some _ h)⟩
  simp only [inBody, lookup_cons] at h
  split at h
  · simp only [Option.some.injEq] at h
    subst h
    refine ⟨ht, fun d hd => ?_⟩
    obtain ⟨p, hp, rfl⟩ := List.mem_map.mp hd
    simp [hb p hp]
  · exact hc.funcs x s h

theorem env_params {ps : List (Tok × Option Tok)} {x u : String} (h : ∀ p ∈ ps, p.1.name ≠ x) :
    (ps.map (fun p => (p.1.name, (u, p.1)))).reverse.lookup x = none := by
  rw [List.lookup_eq_none_iff]
  intro q hq
  simp only [List.mem_reverse, List.mem_map] at hq
  obtain ⟨p, hp, rfl⟩ := hq
  have := h p hp
  simpa using fun e => this e.symm

/-- A declaration: its entries, and the context afterwards. -/
theorem namedI (k : Bool) (x u : String) (top : Env) (i : Item) (c : Ctx) (hc : CtxOk c)
    (hp : PlainI k x i) (hb : i.bare) (hl : ∀ t ∈ toksI i, 0 < t.line)
    (hu : ∀ p ∈ usesI u top i, p.1.name = x → p.2 ≠ none)
    (ht : top.lookup x ≠ none → inside x i → Ok k x c ∨ (k = true ∧ declares k x i = true)) :
    named x (walk (parseItem c i).1) = withName x (toksI i) := by
  cases i with
  | fn t ps ret body =>
    have h0 : 0 < t.line := hl t (by simp [toksI_fn])
    have hc' : CtxOk (inBody c t ps) := inBody_ok hc h0 hb
    have hok : Ok k x c → Ok k x (inBody c t ps) := by
      intro h
      unfold Ok at h ⊢
      split
      · rename_i hk
        simp only [hk, if_true] at h
        simp only [inBody, lookup_cons]
        split
        · rfl
        · exact h
      · rename_i hk
        simp only [hk, if_false] at h
        obtain ⟨v, hv⟩ := h
        exact ⟨v, by simp only [inBody]; rw [paramSyms_lookup hp.2.1]; exact hv⟩
    have h1 := namedB k x u top body (inBody c t ps) (ps.map (fun p => (p.1.name, (u, p.1)))).reverse hc'
      hp.2.2 (fun s hs => hl s (by simp [toksI_fn, hs])) (fun p hm => hu p (by simp [usesI, hm]))
      (fun h => absurd (env_params hp.2.1) h) (fun h ⟨s, hs, hx⟩ => by
        rcases ht h (by simp only [inside, namesB_eq]; exact List.mem_map.mpr ⟨s, hs, hx⟩) with h | ⟨hk, hd⟩
        · exact hok h
        · subst hk
          simp only [declares, Bool.true_and, beq_iff_eq] at hd
          simp [Ok, inBody, lookup_cons, hd])
    rw [toksI_bare hb, withName_cons, withName_append]
    have h2 : withName x (ps.map (·.1)) = [] := withName_none (fun s hs => by
      obtain ⟨p, hpm, rfl⟩ := List.mem_map.mp hs
      exact hp.2.1 p hpm)
    rw [h2, List.nil_append, ← h1, ← named_one x t none (fnHover t.name ret), ← named_append]
    simp [parseItem, walk, walks, addDef, addRef, h0, inBody]
  | glob t e =>
    have h0 : 0 < t.line := hl t (by simp)
    have h1 := namedE' k x c hc top [] e hp.2 (fun s hs => hl s (by simp [hs]))
      (fun p hm => hu p (by simp [usesI, hm])) (fun h => absurd rfl h) (fun h ⟨s, hs, hx⟩ => by
        rcases ht h (by simp only [inside, namesE_eq]; exact List.mem_map.mpr ⟨s, hs, hx⟩) with h | ⟨hk, hd⟩
        · exact h
        · subst hk; simp [declares] at hd)
    rw [toksI_glob, withName_cons, ← h1, ← named_one x t none ("var " ++ t.name), ← named_append]
    simp [parseItem, walk, walks, addDef, addRef, h0]

theorem itemCtx {k : Bool} {x : String} (i : Item) (c : Ctx) (hc : CtxOk c) (hb : i.bare)
    (hl : ∀ t ∈ toksI i, 0 < t.line) : CtxOk (parseItem c i).2 ∧
      (Ok k x c → Ok k x (parseItem c i).2) ∧ (declares k x i = true → Ok k x (parseItem c i).2) := by
  cases i with
  | fn t ps ret body =>
    have h0 : 0 < t.line := hl t (by simp [toksI_fn])
    have hc' : CtxOk (inBody c t ps) := inBody_ok hc h0 hb
    simp only [parseItem]
    refine ⟨⟨hc'.funcs, hc.syms⟩, fun h => ?_, fun h => ?_⟩
    · unfold Ok at h ⊢
      split
      · rename_i hk
        simp only [hk, if_true] at h
        simp only [lookup_cons]
        split
        · rfl
        · exact h
      · rename_i hk
        simp only [hk, if_false] at h
        exact h
    · simp only [declares, Bool.and_eq_true, beq_iff_eq] at h
      simp [Ok, h.1, lookup_cons, h.2]
  | glob t e =>
    have h0 : 0 < t.line := hl t (by simp)
    simp only [parseItem]
    refine ⟨ctxOk_let hc t h0, fun h => ok_let h t, fun h => ?_⟩
    simp only [declares, Bool.and_eq_true, beq_iff_eq, Bool.not_eq_true'] at h
    simp [Ok, h.1, SymOk, lookup_cons, h.2]

/-- A file: its entries. -/
theorem namedF (k : Bool) (x u : String) (top : Env) : ∀ (f : File) (c : Ctx) (known : Bool), CtxOk c →
    (∀ i ∈ f, PlainI k x i) → NoDefaults f → (∀ t ∈ toksF f, 0 < t.line) →
    (∀ p ∈ usesF u top f, p.1.name = x → p.2 ≠ none) →
    (top.lookup x ≠ none → Above k x known f) → (known = true → Ok k x c) →
    named x (walks (parseFile c f).1) = withName x (toksF f) := by
  intro f
  induction f with
  | nil => intro c known _ _ _ _ _ _ _; rfl
  | cons i r ih =>
    intro c known hc hp hb hl hu ha hk
    have hl' : ∀ t ∈ toksI i, 0 < t.line := fun s hs => hl s (by simp [toksF, hs])
    have h1 := namedI k x u top i c hc (hp i (by simp)) (bare_of hb (by simp)) hl'
      (fun p hm => hu p (by simp only [usesF, List.flatMap_cons, List.mem_append]; exact .inl hm))
      (fun h hi => by
        rcases (ha h).1 hi with h | h
        · exact .inl (hk h)
        · exact .inr h)
    obtain ⟨hc', ho, hd⟩ := itemCtx (k := k) (x := x) i c hc (bare_of hb (by simp)) hl'
    have h2 := ih (parseItem c i).2 (known || declares k x i) hc' (fun j hj => hp j (by simp [hj]))
      (fun j hj => hb j (by simp [hj])) (fun s hs => hl s (by simp only [toksF, List.flatMap_cons, List.mem_append]; exact .inr hs))
      (fun p hm => hu p (by simp only [usesF, List.flatMap_cons, List.mem_append]; exact .inr hm))
      (fun h => (ha h).2) (fun h => by
        rcases Bool.or_eq_true _ _ ▸ h with h | h
        · exact ho (hk h)
        · exact hd h)
    simp only [parseFile, walks, named_append, h1, h2, toksF, List.flatMap_cons, withName_append]

theorem fileCtx {k : Bool} {x : String} : ∀ (f : File) (c : Ctx), CtxOk c → NoDefaults f →
    (∀ t ∈ toksF f, 0 < t.line) → CtxOk (parseFile c f).2 ∧
      (Ok k x c ∨ f.any (declares k x) = true → Ok k x (parseFile c f).2) := by
  intro f
  induction f with
  | nil => intro c hc _ _; exact ⟨hc, fun h => by rcases h with h | h; exact h; simp at h⟩
  | cons i r ih =>
    intro c hc hb hl
    have hl' : ∀ t ∈ toksI i, 0 < t.line := fun s hs => hl s (by simp [toksF, hs])
    obtain ⟨hc', ho, hd⟩ := itemCtx (k := k) (x := x) i c hc (bare_of hb (by simp)) hl'
    obtain ⟨h1, h2⟩ := ih (parseItem c i).2 hc' (fun j hj => hb j (by simp [hj]))
      (fun s hs => hl s (by simp only [toksF, List.flatMap_cons, List.mem_append]; exact .inr hs))
    refine ⟨h1, fun h => h2 ?_⟩
    rcases h with h | h
    · exact .inl (ho h)
    · simp only [List.any_cons, Bool.or_eq_true] at h
      rcases h with h | h
      · exact .inl (hd h)
      · exact .inr h

end Verif.LspNav
