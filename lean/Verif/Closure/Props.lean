import Verif.Closure.Lemmas

/-! # C75 and C76: captures and closures -/

namespace Verif.Closure

open Spec

theorem not_skipped {S : Scope} {ps decls : List Name} {x : Name} :
    skipped S ps decls x = false ↔ x ∉ ps ∧ x ∉ decls ∧ x ∉ builtins ∧ x ∉ S.funcs ∧
      (x ∈ S.locals ∨ x ∉ S.globals) := by
  unfold skipped
  by_cases h : x ∈ S.locals <;> simp [h, and_assoc]

theorem needs_mode {expl : List (Name × Bool)} (byRef : Bool) {x : Name} :
    ∃ m, ByRef byRef expl x m := by
  by_cases h : x ∈ expl.map (·.1)
  · obtain ⟨m, a, r, h⟩ := first_of expl h
    exact ⟨m, .inl ⟨a, r, h⟩⟩
  · exact ⟨byRef, .inr ⟨h, rfl⟩⟩

theorem mem_capList {S : Scope} {ps : List Name} {expl : List (Name × Bool)} {body : Sts}
    (hg : Good S ps expl body) (byRef : Bool) (x : Name) (m : Bool) :
    (x, m) ∈ capList S ps byRef expl body ↔ Needs S ps expl body x ∧ ByRef byRef expl x m := by
  rw [(capList_spec S ps byRef expl body).2]
  constructor
  · rintro (⟨a, r, rfl, ha⟩ | ⟨hx, rfl, hr, hs⟩)
    · exact ⟨.inl (by simp), .inl ⟨a, r, rfl, ha⟩⟩
    · obtain ⟨h1, h2, h3, h4, h5⟩ := not_skipped.1 hs
      have hf := freeSts_complete x body ps hg.seen hr h1 h2
      refine ⟨.inr ⟨hf, ?_⟩, .inr ⟨hx, rfl⟩⟩
      rcases hg.known x hf with h | h | h | h
      · exact h
      · exact h5.resolve_right (fun hh => hh h)
      · exact absurd h h4
      · exact absurd h h3
  · rintro ⟨hn, h | ⟨hx, rfl⟩⟩
    · exact .inl h
    · obtain ⟨hf, hl⟩ := hn.resolve_left hx
      obtain ⟨hr, hp⟩ := freeSts_sound x body ps hg.seen hf
      refine .inr ⟨hx, rfl, hr, not_skipped.2 ⟨hp, ?_, (hg.apart x hl).2, (hg.apart x hl).1, .inl hl⟩⟩
      intro hd
      exact (hg.bound x (declsSts_bound x body hd)).1 hf

/-- C75 (partial): a lambda whose body has only kinds of nodes the analysis looks into, binds no
name it also uses from outside, and uses only names known where it stands, captures exactly the
variables of the functions around that it uses and those of its capture list, each once and as the list or its
default says; the C compiler knows every name of its code.
Missing from the full claim: nodes that are not looked into (`unseen_violated`,
`global_violated`), names bound in a part of the body (`shadow_violated`), constants
(`const_violated`), functions declared later (`later_function_violated`), variables called like a
function (`function_name_violated`), `defer` (`defer_violated`), more than 32 captures
(`overflow_violated`), lambdas in lambdas (`nested_violated`, `inner_violated`). -/
theorem captures_partial {S : Scope} {ps : List Name} {expl : List (Name × Bool)} {body : Sts}
    (hg : Good S ps expl body) (byRef : Bool) :
    ∃ caps, captures S ps byRef expl body = .ok caps ∧ (caps.map (·.1)).Nodup ∧
      (∀ x m, (x, m) ∈ caps ↔ Needs S ps expl body x ∧ ByRef byRef expl x m) ∧
      Accepted S (caps.map (·.1)) ps body := by
  have hnd := (capList_spec S ps byRef expl body).1
  have hmem := mem_capList hg byRef
  obtain ⟨l, hl, hlen⟩ := hg.few.2
  have hle : (capList S ps byRef expl body).length ≤ 32 := by
    have := nodup_le _ l hnd (fun x hx => by
      obtain ⟨⟨y, m⟩, hm, rfl⟩ := List.mem_map.1 hx
      exact hl y ((hmem y m).1 hm).1)
    rw [List.length_map] at this
    omega
  refine ⟨capList S ps byRef expl body, if_pos ⟨hg.few.1, hle⟩, hnd, hmem, ?_⟩
  intro x hx
  rw [emit_plain _ _ (seenSts_plain body hg.seen)] at hx
  obtain ⟨hf, hc⟩ := freeSts_gen _ x body ps (seenSts_plain body hg.seen) hx
  rcases hg.known x hf with h | h | h | h
  · obtain ⟨m, hm⟩ := needs_mode (expl := expl) byRef (x := x)
    exact absurd (List.mem_map.2 ⟨(x, m), (hmem x m).2 ⟨.inr ⟨hf, h⟩, hm⟩, rfl⟩) hc
  · exact .inl h
  · exact .inr (.inl h)
  · exact .inr (.inr h)

/-- C76 (partial): creating such a closure where all variables in scope have places gives a context
with the variables themselves for captures by reference, and new places with their values for
captures by value, and changes nothing else; every call, from any later state, with any
functions, global variables and arguments, does what the body does in the scope of parameters,
captured and global variables, step by step.
Missing from the full claim: as for C75, and names bound in the body that are captured as well
(`loop_variable_violated`, `listed_violated`), variables called `ctx` (`ctx_violated`); that
captures by value cannot be assigned to (`assign_violated`). -/
theorem closure_partial {S : Scope} {ps : List Name} {expl : List (Name × Bool)} {body : Sts}
    (hg : Good S ps expl body) (byRef : Bool) (env : Env) (σ : State)
    (henv : ∀ x, x ∈ S.locals ∨ x ∈ S.globals → ∃ l, place env x = some l ∧ l < σ.mem.length) :
    ∃ caps ctx σ', captures S ps byRef expl body = .ok caps ∧
      create env caps σ = .val (ctx, σ') ∧
      Captured env (Needs S ps expl body) (ByRef byRef expl) σ ctx σ' ∧
      ∀ (W : World) (n : Nat) (glob : Env) (σ₁ : State) (vs : List Int),
        callC W n ctx glob σ₁ (caps.map (·.1)) ps body vs = callZ W n ctx glob σ₁ ps body vs := by
  obtain ⟨caps, h1, hnd, hmem, _⟩ := captures_partial hg byRef
  have hneed : ∀ x, x ∈ caps.map (·.1) ↔ Needs S ps expl body x := by
    intro x
    constructor
    · intro hx
      obtain ⟨⟨y, m⟩, hm, rfl⟩ := List.mem_map.1 hx
      exact ((hmem y m).1 hm).1
    · intro hx
      obtain ⟨m, hm⟩ := needs_mode (expl := expl) byRef (x := x)
      exact List.mem_map.2 ⟨(x, m), (hmem x m).2 ⟨hx, hm⟩, rfl⟩
  obtain ⟨ctx, σ', g1, g2, g3, g4, g5, g6, g7, g8⟩ := create_spec env caps σ σ.mem.length hnd
    (Nat.le_refl _) (by
      rintro ⟨x, m⟩ hm
      have hn := ((hmem x m).1 hm).1
      refine ⟨?_, ?_⟩
      · rintro rfl
        rcases hn with h | h
        · exact hg.ctx.2.1 h
        · exact hg.ctx.1 h.2
      · rcases hn with h | h
        · exact henv x (hg.listed x h)
        · exact henv x (.inl h.2))
  have hin : ∀ x l, place ctx x = some l → Needs S ps expl body x := fun x l h =>
    (hneed x).1 (g2 ▸ place_names.1 ⟨l, h⟩)
  refine ⟨caps, ctx, σ', h1, g1, ⟨?_, ?_, ?_, g5, g7, g8⟩, ?_⟩
  · intro x
    rw [place_names, g2]
    exact hneed x
  · intro x l hp hm
    exact g3 x l hp ((hmem x true).2 ⟨hin x l hp, hm⟩)
  · intro x l hp hm
    exact g4 x l hp ((hmem x false).2 ⟨hin x l hp, hm⟩)
  · intro W n glob σ₁ vs
    have hpl := seenSts_plain body hg.seen
    have ha : Agree (caps.map (·.1)) ctx glob (ctx ++ glob) := by
      intro x
      rw [place_append, g2]
    have hps : ∀ x ∈ ps, x ∉ caps.map (·.1) := by
      intro x hx hc
      rcases (hneed x).1 hc with h | h
      · exact hg.params x hx h
      · exact (freeSts_sound x body ps hg.seen h.1).2 hx
    obtain ⟨hb1, hb2⟩ := bindParams_agree ps vs σ₁ glob (ctx ++ glob) ha hps
    simp only [callC, callZ, emit_plain _ _ hpl, hb2]
    refine execs_gen W n _ _ _ body hb1 hpl ?_ ?_
    · intro f hf hc
      obtain ⟨q1, q2, _, _⟩ := hg.called f hf
      rcases (hneed f).1 hc with h | h
      · exact q2 h
      · exact q1 h.2
    · intro x hx hc
      rcases (hneed x).1 hc with h | h
      · exact (hg.bound x hx).2 h
      · exact (hg.bound x hx).1 h.1

/-! ## A case that meets the hypotheses -/

/-- `while (i < n) { total = total + i; print(total); i = i + 1; } return total;` after
`let i = 0;`, with `n` a parameter. -/
def sumBody : Sts :=
  .cons (.decl "i" (.lit 0)) (.cons (.whil (.bin (.arith fun a b => some (if a < b then 1 else 0)) (.var "i") (.var "n"))
    (.cons (.expr (.asg "total" (.bin (.arith fun a b => some (a + b)) (.var "total") (.var "i"))))
      (.cons (.expr (.call "print" (.cons (.var "total") .nil)))
        (.cons (.expr (.asg "i" (.bin (.arith fun a b => some (a + b)) (.var "i") (.var "step"))))
          .nil)))) (.cons (.ret (.bin (.arith fun a b => some (a * b)) (.var "total") (.var "g")))
      .nil))

/-- A function with the variables `total` and `step`, and a global variable `g`. -/
def sumScope : Scope := ⟨["print", "main"], ["total", "step"], ["g"]⟩

theorem sum_good : Good sumScope ["n"] [("total", true)] sumBody where
  seen := ⟨trivial, ⟨⟨trivial, trivial⟩, ⟨trivial, trivial⟩, ⟨trivial, trivial⟩, ⟨trivial, trivial⟩,
    trivial⟩, ⟨trivial, trivial⟩, trivial⟩
  known := by decide
  apart := by decide
  bound := by decide
  params := by decide
  called := by decide
  listed := by decide
  ctx := by decide
  few := ⟨by decide, ["total", "step"], by
    rintro x (h | h)
    · have : x = "total" := by simpa using h
      simp [this]
    · exact h.2, by decide⟩

example : captures sumScope ["n"] false [("total", true)] sumBody =
    .ok [("total", true), ("step", false)] := by decide

example : ∃ caps ctx σ', captures sumScope ["n"] false [("total", true)] sumBody = .ok caps ∧
    create [("step", 1), ("total", 0), ("g", 2)] caps ⟨[5, 1, 10], []⟩ = .val (ctx, σ') ∧
    ∀ (W : World) n glob σ₁ vs, callC W n ctx glob σ₁ (caps.map (·.1)) ["n"] sumBody vs =
      callZ W n ctx glob σ₁ ["n"] sumBody vs := by
  obtain ⟨caps, ctx, σ', h1, h2, _, h4⟩ := closure_partial sum_good false
    [("step", 1), ("total", 0), ("g", 2)] ⟨[5, 1, 10], []⟩ (by
      intro x hx
      simp only [sumScope, List.mem_cons, List.not_mem_nil, or_false] at hx
      rcases hx with (rfl | rfl) | rfl
      · exact ⟨0, rfl, by decide⟩
      · exact ⟨1, rfl, by decide⟩
      · exact ⟨2, rfl, by decide⟩)
  exact ⟨caps, ctx, σ', h1, h2, h4⟩

/-- The values of a run. -/
def flowOf : Ans (Flow × State) → Option Int
  | .val (.ret v, _) => some v
  | _ => none

/-- The calls of a run. -/
def traceOf : Ans (Flow × State) → List (Name × List Int)
  | .val (_, σ) => σ.trace
  | _ => []

example : flowOf (callC (fun f => if f = "print" then some fun _ => 0 else none) 20
    [("total", 0), ("step", 3)] [("g", 2)] ⟨[5, 1, 10, 1], []⟩ ["total", "step"] ["n"] sumBody [3]) =
    some 80 := by decide +kernel

/-! ## Where the full claims fail -/

/-- C75, violated: every program with a lambda in the body of a lambda is rejected by the C compiler: the
function of the outer one, which uses that of the inner one, is written before it. -/
theorem nested_violated (program : Sts) (hn : (regSts program).Nodup) {i j : Nat} {b c : Sts}
    (h1 : (i, b) ∈ lamsSts program) (h2 : (j, c) ∈ lamsSts b) :
    ¬ Declared program (emitOrder program) := by
  intro hd
  obtain ⟨p, q, hpq, hj⟩ := hd i b h1 j c h2
  obtain ⟨s, t, hst⟩ := lamsSts_reg i b program h1
  have hjb : j ∈ regSts b := (lamsSts_reg j c b h2).subset (by simp)
  have e : emitOrder program = t.reverse ++ i :: ((regSts b).reverse ++ s.reverse) := by
    unfold emitOrder
    rw [← hst]
    simp
  have hn' : (emitOrder program).Nodup := List.pairwise_reverse.2 (hn.imp fun h => h.symm)
  have huniq : ∀ {l₁ l₂ r₁ r₂ : List Nat}, (l₁ ++ i :: r₁).Nodup → l₁ ++ i :: r₁ = l₂ ++ i :: r₂ →
      l₁ = l₂ := by
    intro l₁
    induction l₁ with
    | nil =>
      intro l₂ r₁ r₂ hnd he
      cases l₂ with
      | nil => rfl
      | cons a l₂ =>
        simp only [List.nil_append, List.cons_append, List.cons.injEq] at he
        obtain ⟨rfl, rfl⟩ := he
        simp at hnd
    | cons a l₁ ih =>
      intro l₂ r₁ r₂ hnd he
      cases l₂ with
      | nil =>
        simp only [List.nil_append, List.cons_append, List.cons.injEq] at he
        obtain ⟨rfl, _⟩ := he
        simp at hnd
      | cons d l₂ =>
        simp only [List.cons_append, List.cons.injEq] at he
        obtain ⟨rfl, he⟩ := he
        rw [List.cons_append, List.nodup_cons] at hnd
        rw [ih hnd.2 he]
  have hp : t.reverse = p := huniq (e ▸ hn') (e.symm.trans hpq)
  have : j ∈ t.reverse := hp ▸ hj
  rw [e] at hn'
  rw [List.nodup_append] at hn'
  exact hn'.2.2 j this j (by simp [hjb]) rfl

/-- Without lambdas in lambdas there is nothing to declare. -/
theorem flat_declared (program : Sts) (h : ∀ i b, (i, b) ∈ lamsSts program → lamsSts b = []) :
    Declared program (emitOrder program) := by
  intro i b h1 j c h2
  rw [h i b h1] at h2
  cases h2

example : (regSts (.cons (.expr (.lam 1 ["x"] false []
    (.cons (.ret (.lam 0 ["y"] false [] (.cons (.ret (.bin .and (.var "x") (.var "y"))) .nil))) .nil)))
    .nil)).Nodup ∧ (1, Sts.cons (.ret (.lam 0 ["y"] false []
      (.cons (.ret (.bin .and (.var "x") (.var "y"))) .nil))) .nil) ∈ lamsSts (.cons (.expr (.lam 1 ["x"] false []
    (.cons (.ret (.lam 0 ["y"] false [] (.cons (.ret (.bin .and (.var "x") (.var "y"))) .nil))) .nil)))
    .nil) := ⟨by decide, by simp [lamsSts, lamsSt, lamsEx]⟩

/-- C76, violated: a lambda in a lambda that captures a variable the outer one captured takes it from
its own new context, which has no values yet. -/
theorem inner_violated (outer : List Name) (env : Env) (x : Name) (m : Bool) (r : List (Name × Bool))
    (σ : State) (h : x ∈ outer) : createInside outer env ((x, m) :: r) σ = .ub := by
  simp only [createInside, if_pos h]

/-- C75, violated: a variable that is used only in `c ? a : b`, in a cast, in the head or body of a range
loop or in a lambda is not captured, and the C compiler does not know it. -/
theorem unseen_violated (S : Scope) (x : Name) (byRef : Bool)
    (hx : x ∉ S.globals ∧ x ∉ S.funcs ∧ x ∉ builtins) :
    let bodies := [Sts.cons (.ret (.cond (.var x) (.lit 1) (.lit 2))) .nil,
      .cons (.ret (.cast (.var x))) .nil, .cons (.forIn "i" (.lit 0) (.var x) .nil) .nil,
      .cons (.ret (.lam 0 [] false [] (.cons (.ret (.var x)) .nil))) .nil]
    x ≠ "i" → ∀ b ∈ bodies, captures S [] byRef [] b = .ok [] ∧ ¬ Accepted S [] [] b := by
  intro bodies hi b hb
  simp only [bodies, List.mem_cons, List.not_mem_nil, or_false] at hb
  have no : ∀ b : Sts, x ∈ freeSts [] (emitBody [] b) → ¬ Accepted S [] [] b := by
    intro b hf ha
    rcases ha x hf with h | h | h
    · exact hx.1 h
    · exact hx.2.1 h
    · exact hx.2.2 h
  rcases hb with rfl | rfl | rfl | rfl
  · exact ⟨rfl, no _ (by simp [emitBody, undeferred, deferred, genSts, genSt, genEx, Sts.append, stsOf, freeSts, freeSt, freeEx])⟩
  · exact ⟨rfl, no _ (by simp [emitBody, undeferred, deferred, genSts, genSt, genEx, Sts.append, stsOf, freeSts, freeSt, freeEx])⟩
  · exact ⟨rfl, no _ (by simp [emitBody, undeferred, deferred, genSts, genSt, genEx, Sts.append, stsOf, freeSts, freeSt, freeEx, hi])⟩
  · exact ⟨rfl, no _ (by simp [emitBody, undeferred, deferred, genSts, genSt, genEx, Sts.append, stsOf, freeSts, freeSt, freeEx])⟩

/-- C75, violated: if there is a global variable of the same name, the closure silently reads that one. -/
theorem global_violated (W : World) (x : Name) (a b : Int) (fs : List Name) :
    let S : Scope := ⟨fs, [x], [x]⟩
    let body := Sts.cons (.ret (.cast (.var x))) .nil
    let env : Env := [(x, 1), (x, 0)]
    let σ : State := ⟨[a, b], []⟩
    captures S [] false [] body = .ok [] ∧ create env [] σ = .val ([], σ) ∧
      flowOf (callC W 3 [] [(x, 0)] σ [] [] body []) = some a ∧
      flowOf (callZ W 3 [(x, 1)] [(x, 0)] σ [] body []) = some b := by
  refine ⟨rfl, rfl, ?_, ?_⟩
  · simp [callC, bindParams, emitBody, undeferred, deferred, genSts, genSt, genEx, Sts.append, stsOf,
      execs, exec, eval, load, place, Ans.bind, flowOf]
  · simp [callZ, bindParams, execs, exec, eval, load, place, Ans.bind, flowOf]

/-- C75, violated: a variable that is also declared in an inner block is not captured. -/
theorem shadow_violated (S : Scope) (x : Name) (byRef : Bool)
    (hx : x ∉ S.globals ∧ x ∉ S.funcs ∧ x ∉ builtins) :
    let b := Sts.cons (.block (.cons (.decl x (.lit 1)) .nil)) (.cons (.ret (.var x)) .nil)
    x ∈ freeSts [] b ∧ captures S [] byRef [] b = .ok [] ∧ ¬ Accepted S [] [] b := by
  refine ⟨by simp [freeSts, freeSt, freeEx], ?_, fun ha => ?_⟩
  · simp [captures, capList, implicits, explicits, refsSts, refsSt, refsEx, declsSts, declsSt, skipped]
  · rcases ha x (by simp [emitBody, undeferred, deferred, genSts, genSt, genEx, Sts.append, stsOf, freeSts, freeSt, freeEx]) with h | h | h
    · exact hx.1 h
    · exact hx.2.1 h
    · exact hx.2.2 h

/-- C75, violated: a constant of the body is captured, from a scope that does not have it: the C compiler
rejects the creation. -/
theorem const_violated (S : Scope) (x : Name) (byRef : Bool) (env : Env) (σ : State)
    (hx : x ∉ S.globals ∧ x ∉ S.funcs ∧ x ∉ builtins) (he : place env x = none) :
    let b := Sts.cons (.const x (.lit 1)) (.cons (.ret (.var x)) .nil)
    freeSts [] b = [] ∧ captures S [] byRef [] b = .ok [(x, byRef)] ∧
      create env [(x, byRef)] σ = .unbound := by
  refine ⟨by simp [freeSts, freeSt, freeEx], ?_, ?_⟩
  · have : skipped S [] [] x = false := not_skipped.2 ⟨by simp, by simp, hx.2.2, hx.2.1, .inr hx.1⟩
    simp [captures, capList, implicits, explicits, refsSts, refsSt, refsEx, declsSts, declsSt, this]
  · simp only [create, he]
    split <;> rfl

/-- C75, violated: a function that is declared after the lambda is captured as if it were a variable, and
the call is rejected. -/
theorem later_function_violated (S : Scope) (W : World) (f : Name) (byRef : Bool) (n : Nat) (ctx glob : Env)
    (σ : State) (hf : f ∉ S.globals ∧ f ∉ S.funcs ∧ f ∉ builtins) :
    let b := Sts.cons (.expr (.call f .nil)) .nil
    captures S [] byRef [] b = .ok [(f, byRef)] ∧
      callC W (n + 2) ctx glob σ [f] [] b [] = .unbound := by
  have : skipped S [] [] f = false := not_skipped.2 ⟨by simp, by simp, hf.2.2, hf.2.1, .inr hf.1⟩
  refine ⟨?_, ?_⟩
  · simp [captures, capList, implicits, explicits, refsSts, refsSt, refsEx, refsExs, declsSts, declsSt, this]
  · simp [callC, bindParams, emitBody, undeferred, deferred, genSts, genSt, genEx, Sts.append, stsOf,
      execs, exec, eval, Ans.bind]

/-- C75, violated: a variable with the name of a function the compiler has seen is not captured. -/
theorem function_name_violated (S : Scope) (x : Name) (byRef : Bool)
    (hx : x ∈ S.funcs ∨ x ∈ builtins) (hl : x ∈ S.locals) :
    let b := Sts.cons (.ret (.var x)) .nil
    Needs S [] [] b x ∧ captures S [] byRef [] b = .ok [] := by
  refine ⟨.inr ⟨by simp [freeSts, freeSt, freeEx], hl⟩, ?_⟩
  have : skipped S [] [] x = true := by
    unfold skipped
    rcases hx with h | h <;> simp [h]
  simp [captures, capList, implicits, explicits, refsSts, refsSt, refsEx, declsSts, declsSt, this]

/-- C75, violated: a deferred expression of a body without `return` is written as if it stood in a function:
the captured variable is not known there. -/
theorem defer_violated (S : Scope) (x : Name) (f : Name) (byRef : Bool) (hl : x ∈ S.locals)
    (hx : x ∉ S.globals ∧ x ∉ S.funcs ∧ x ∉ builtins) :
    let b := Sts.cons (.defer (.call f (.cons (.var x) .nil))) (.cons (.expr (.asg x (.lit 1))) .nil)
    captures S [] byRef [] b = .ok [(x, byRef)] ∧ ¬ Accepted S [x] [] b := by
  have : skipped S [] [] x = false := not_skipped.2 ⟨by simp, by simp, hx.2.2, hx.2.1, .inl hl⟩
  refine ⟨?_, fun ha => ?_⟩
  · simp [captures, capList, implicits, explicits, refsSts, refsSt, refsEx, declsSts, declsSt, this]
  · rcases ha x (by simp [emitBody, undeferred, deferred, genSts, genSt, genEx, Sts.append, stsOf, freeSts, freeSt, freeEx, freeExs]) with h | h | h
    · exact hx.1 h
    · exact hx.2.1 h
    · exact hx.2.2 h

/-- `defer` with each of the expressions. -/
def defers : List Ex → Sts
  | [] => .nil
  | e :: r => .cons (.defer e) (defers r)

/-- C75: deferred expressions are written behind the body, the last one first. -/
theorem defer_order (caps : List Name) : ∀ (es : List Ex) (b : Sts), Spec.PlainSts b →
    emitBody caps ((defers es).append b) = (genSts caps b).append (stsOf es.reverse) := by
  intro es b hb
  have h : ∀ es : List Ex, deferred ((defers es).append b) = es.reverse ∧ undeferred ((defers es).append b) = b := by
    intro es
    induction es with
    | nil => exact plain_deferred b hb
    | cons e r ih => simp only [defers, Sts.append, deferred, undeferred, ih, List.reverse_cons, and_self]
  simp only [emitBody, h]

example : emitBody [] ((defers [.lit 1, .lit 2]).append (.cons (.expr (.lit 3)) .nil)) =
    .cons (.expr (.lit 3)) (.cons (.expr (.lit 2)) (.cons (.expr (.lit 1)) .nil)) := by
  rw [defer_order [] [.lit 1, .lit 2] (.cons (.expr (.lit 3)) .nil) ⟨trivial, trivial⟩]
  rfl

/-- Statements that use the names. -/
def uses : List Name → Sts
  | [] => .nil
  | x :: r => .cons (.expr (.var x)) (uses r)

theorem uses_refs : ∀ l : List Name, refsSts (uses l) = l ∧ declsSts (uses l) = []
  | [] => ⟨rfl, rfl⟩
  | x :: r => by
    obtain ⟨h1, h2⟩ := uses_refs r
    exact ⟨by simp [uses, refsSts, refsSt, refsEx, h1], by simp [uses, declsSts, declsSt, h2]⟩

/-- C75, violated: with more than 32 captures the compiler writes past the end of its tables. -/
theorem overflow_violated (S : Scope) (l : List Name) (byRef : Bool) (hn : l.Nodup) (hl : 32 < l.length)
    (hx : ∀ x ∈ l, x ∈ S.locals ∧ x ∉ S.funcs ∧ x ∉ builtins) :
    captures S [] byRef [] (uses l) = .ub := by
  obtain ⟨h1, h2⟩ := capList_spec S [] byRef [] (uses l)
  have hle : l.length ≤ (capList S [] byRef [] (uses l)).length := by
    rw [← List.length_map (f := (·.1)) (as := capList S [] byRef [] (uses l))]
    refine nodup_le _ _ hn fun x hm => List.mem_map.2 ⟨(x, byRef), ?_, rfl⟩
    rw [h2, (uses_refs l).1, (uses_refs l).2]
    exact .inr ⟨by simp, rfl, hm, not_skipped.2 ⟨by simp, by simp, (hx x hm).2.2, (hx x hm).2.1,
      .inl (hx x hm).1⟩⟩
  unfold captures
  rw [if_neg (by omega)]

/-- C76, violated: in a range loop whose variable has the name of a captured variable, the body sees the
captured one: here `v` is printed instead of 0. -/
theorem loop_variable_violated (x : Name) (v : Int) (hy : x ≠ "y") (hf : x ≠ "print")
    (hb : x ∉ builtins) :
    let S : Scope := ⟨["print"], [x], []⟩
    let W : World := fun f => if f = "print" then some fun _ => 0 else none
    let b := Sts.cons (.decl "y" (.var x)) (.cons (.forIn x (.lit 0) (.lit 1)
      (.cons (.expr (.call "print" (.cons (.var x) .nil))) .nil)) .nil)
    captures S [] false [] b = .ok [(x, false)] ∧
      traceOf (callC W 9 [(x, 0)] [] ⟨[v], []⟩ [x] [] b []) = [("print", [v])] ∧
      traceOf (callZ W 9 [(x, 0)] [] ⟨[v], []⟩ [] b []) = [("print", [0])] := by
  have hs : skipped ⟨["print"], [x], []⟩ [] ["y"] x = false :=
    not_skipped.2 ⟨by simp, by simp [hy], hb, by simp [hf], .inl (by simp)⟩
  have hp : "print" ≠ x := fun h => hf h.symm
  refine ⟨?_, ?_, ?_⟩
  · simp [captures, capList, implicits, explicits, refsSts, refsSt, refsEx, declsSts, declsSt, hs]
  · simp [callC, bindParams, emitBody, undeferred, deferred, genSts, genSt, genEx, genExs, Sts.append, stsOf,
      execs, exec, range, eval, evals, callFn, load, place, fresh, Ans.bind, traceOf, hp]
  · simp [callZ, bindParams, execs, exec, range, eval, evals, callFn, load, place, fresh, Ans.bind, traceOf]

/-- C76, violated: a variable of the body with the name of a listed capture is never seen. -/
theorem listed_violated (S : Scope) (W : World) (x : Name) (v : Int) (byRef m : Bool) :
    let b := Sts.cons (.decl x (.lit 1)) (.cons (.ret (.var x)) .nil)
    captures S [] byRef [(x, m)] b = .ok [(x, m)] ∧
      flowOf (callC W 9 [(x, 0)] [] ⟨[v], []⟩ [x] [] b []) = some v ∧
      flowOf (callZ W 9 [(x, 0)] [] ⟨[v], []⟩ [] b []) = some 1 := by
  refine ⟨?_, ?_, ?_⟩
  · simp [captures, capList, implicits, explicits, refsSts, refsSt, refsEx, declsSts, declsSt]
  · simp [callC, bindParams, emitBody, undeferred, deferred, genSts, genSt, genEx, Sts.append, stsOf,
      execs, exec, eval, load, place, fresh, Ans.bind, flowOf]
  · simp [callZ, bindParams, execs, exec, eval, load, place, fresh, Ans.bind, flowOf]

/-- C76, violated: a variable called `ctx` cannot be captured. -/
theorem ctx_violated (env : Env) (m : Bool) (r : List (Name × Bool)) (σ : State) :
    create env (("ctx", m) :: r) σ = .unbound := by
  simp [create]

/-- The state after a run. -/
def stateOf : Ans (Flow × State) → State
  | .val (_, σ) => σ
  | _ => ⟨[], []⟩

/-- C76, violated: the assignment to a variable captured by value, which the manual calls an error, is
accepted; the closure keeps the new value for the next call. -/
theorem assign_violated (S : Scope) (W : World) (x : Name) (v : Int) (hl : x ∈ S.locals)
    (hx : x ∉ S.funcs ∧ x ∉ builtins) (hc : x ≠ "ctx") :
    let b := Sts.cons (.ret (.asg x (.bin (.arith fun a b => some (a + b)) (.var x) (.lit 1)))) .nil
    let σ : State := ⟨[v], []⟩
    captures S [] false [] b = .ok [(x, false)] ∧
    ∃ ctx σ', create [(x, 0)] [(x, false)] σ = .val (ctx, σ') ∧ Accepted S [x] [] b ∧
      let r := callC W 4 ctx [] σ' [x] [] b []
      flowOf r = some (v + 1) ∧ flowOf (callC W 4 ctx [] (stateOf r) [x] [] b []) = some (v + 2) := by
  have hs : skipped S [] [] x = false := not_skipped.2 ⟨by simp, by simp, hx.2, hx.1, .inl hl⟩
  refine ⟨?_, [(x, 1)], ⟨[v, v], []⟩, ?_, ?_, ?_, ?_⟩
  · simp [captures, capList, implicits, explicits, refsSts, refsSt, refsEx, declsSts, declsSt, hs]
  · simp [create, hc, place, fresh, Ans.bind]
  · intro y hy
    simp [emitBody, undeferred, deferred, genSts, genSt, genEx, Sts.append, stsOf, freeSts, freeSt, freeEx] at hy
  · simp [callC, bindParams, emitBody, undeferred, deferred, genSts, genSt, genEx, Sts.append, stsOf,
      execs, exec, eval, binop, load, store, place, Ans.bind, flowOf, bind]
  · simp [callC, bindParams, emitBody, undeferred, deferred, genSts, genSt, genEx, Sts.append, stsOf,
      execs, exec, eval, binop, load, store, place, Ans.bind, flowOf, bind, stateOf]
    omega

end Verif.Closure
