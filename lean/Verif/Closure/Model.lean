import Verif.Basic

/-!
# Lambdas and what they capture

Models `find_var_refs`, `find_declared_vars` and `analyze_lambda_captures`
(/repo/src/parser/parser_expr.c:490-803), the C code of a lambda where it is created
(/repo/src/codegen/codegen.c:62-85 and 147-221) and where it is defined
(/repo/src/codegen/codegen_decl.c:315-411), and the order of the definitions
(/repo/src/parser/parser_utils.c:874-880).

Simplified: all variables are integers, so the types of the captures are left out; the chain of
scopes of the parser is one list for the locals and one for the globals; `malloc` succeeds.
Expressions and statements are those below; members, indices, slices, pointers and `match`
(which the analysis visits) and the other kinds it does not visit are left out.
-/

namespace Verif.Closure

/-- Names of variables and functions. -/
abbrev Name := String

/-! ## Programs -/

/-- Binary operators: `none` stands for undefined results. -/
inductive Op where
  | arith (f : Int → Int → Option Int)
  | and
  | or

mutual
/-- Expressions (/repo/src/ast/ast.h:21-620).  `field`, `setField` and `callField` are the C code
`ctx->x` (or `(*ctx->x)`), an assignment to it and a call of it: programs do not contain them.
`lam` is a lambda with its number, parameters, default mode (`true`: by reference), capture list
and body.  `cond` (`c ? a : b`) and `cast` stand for the kinds `find_var_refs` does not visit. -/
inductive Ex where
  | lit (n : Int)
  | var (x : Name)
  | field (x : Name)
  | bin (o : Op) (a b : Ex)
  | un (f : Int → Int) (a : Ex)
  | asg (x : Name) (e : Ex)
  | setField (x : Name) (e : Ex)
  | call (f : Name) (as : Exs)
  | callField (f : Name) (as : Exs)
  | cond (c a b : Ex)
  | cast (e : Ex)
  | lam (id : Nat) (ps : List Name) (byRef : Bool) (expl : List (Name × Bool)) (body : Sts)
/-- Arguments. -/
inductive Exs where
  | nil
  | cons (e : Ex) (es : Exs)
/-- Statements.  `forr` is `for let x = e; c; s { b }`, `forIn` is `for x in lo..hi { b }`. -/
inductive St where
  | expr (e : Ex)
  | decl (x : Name) (e : Ex)
  | const (x : Name) (e : Ex)
  | ret (e : Ex)
  | ite (c : Ex) (a b : Sts)
  | whil (c : Ex) (b : Sts)
  | forr (x : Name) (e c s : Ex) (b : Sts)
  | forIn (x : Name) (lo hi : Ex) (b : Sts)
  | block (b : Sts)
  | brk
  | cont
  | defer (e : Ex)
/-- A list of statements. -/
inductive Sts where
  | nil
  | cons (s : St) (ss : Sts)
end

/-! ## What the parser finds -/

mutual
/-- `find_var_refs`, parser_expr.c:504-585: lambdas and the other kinds are not looked into. -/
def refsEx : Ex → List Name
  | .var x => [x]
  | .bin _ a b => refsEx a ++ refsEx b
  | .un _ a => refsEx a
  | .asg x e => x :: refsEx e
  | .call f as => f :: refsExs as
  | _ => []
/-- The arguments, parser_expr.c:528-531. -/
def refsExs : Exs → List Name
  | .nil => []
  | .cons e es => refsEx e ++ refsExs es
end

mutual
/-- `find_var_refs` for statements, parser_expr.c:545-584: range loops and `defer` are not looked
into. -/
def refsSt : St → List Name
  | .expr e => refsEx e
  | .decl _ e => refsEx e
  | .const _ e => refsEx e
  | .ret e => refsEx e
  | .ite c a b => refsEx c ++ refsSts a ++ refsSts b
  | .whil c b => refsEx c ++ refsSts b
  | .forr _ e c s b => refsEx e ++ refsEx c ++ refsEx s ++ refsSts b
  | .block b => refsSts b
  | _ => []
/-- `NODE_BLOCK`, parser_expr.c:545-550. -/
def refsSts : Sts → List Name
  | .nil => []
  | .cons s ss => refsSt s ++ refsSts ss
end

mutual
/-- `find_declared_vars`, parser_expr.c:588-646: `const` is no `NODE_VAR_DECL`. -/
def declsSt : St → List Name
  | .decl x _ => [x]
  | .ite _ a b => declsSts a ++ declsSts b
  | .whil _ b => declsSts b
  | .forr x _ _ _ b => x :: declsSts b
  | .block b => declsSts b
  | _ => []
/-- `NODE_BLOCK`, parser_expr.c:617-622. -/
def declsSts : Sts → List Name
  | .nil => []
  | .cons s ss => declsSt s ++ declsSts ss
end

/-- The names the analysis never captures, parser_expr.c:702-707. -/
def builtins : List Name := ["printf", "malloc", "strcmp", "free", "Vec_new", "Vec_push"]

/-- What the parser knows at the end of a lambda: the functions registered so far, the variables
of the scopes around (without the outermost) and those of the outermost. -/
structure Scope where
  funcs : List Name
  locals : List Name
  globals : List Name

/-- The explicit captures, each once, parser_expr.c:669-681. -/
def explicits : List (Name × Bool) → List (Name × Bool) → List (Name × Bool)
  | [], caps => caps
  | (x, m) :: r, caps =>
      explicits r (if caps.any (·.1 = x) then caps else caps ++ [(x, m)])

/-- Whether a name is passed over, parser_expr.c:687-751: the scopes are searched from the inside,
beginning with the parameters; a name found nowhere is not passed over. -/
def skipped (S : Scope) (ps decls : List Name) (x : Name) : Bool :=
  x ∈ ps || x ∈ decls || x ∈ builtins || x ∈ S.funcs || (x ∉ S.locals && x ∈ S.globals)

/-- The implicit captures, parser_expr.c:683-783. -/
def implicits (S : Scope) (ps decls : List Name) (byRef : Bool) :
    List Name → List (Name × Bool) → List (Name × Bool)
  | [], caps => caps
  | x :: r, caps =>
      implicits S ps decls byRef r
        (if skipped S ps decls x || caps.any (·.1 = x) then caps else caps ++ [(x, byRef)])

/-- The list before the sizes of the tables are looked at. -/
def capList (S : Scope) (ps : List Name) (byRef : Bool) (expl : List (Name × Bool)) (body : Sts) :
    List (Name × Bool) :=
  implicits S ps (declsSts body) byRef (refsSts body) (explicits expl [])

/-- `analyze_lambda_captures`, parser_expr.c:649-803: the tables have room for 32 names, and so
has the capture list of `fn[...]` (parser_expr.c:810-846). -/
def captures (S : Scope) (ps : List Name) (byRef : Bool) (expl : List (Name × Bool)) (body : Sts) :
    Res (List (Name × Bool)) :=
  if expl.length ≤ 32 ∧ (capList S ps byRef expl body).length ≤ 32
  then .ok (capList S ps byRef expl body) else .ub

/-! ## The C code of a body -/

mutual
/-- `codegen_var_expr`, codegen.c:62-85, in the body of a lambda that captures `caps`. -/
def genEx (caps : List Name) : Ex → Ex
  | .lit n => .lit n
  | .var x => if x ∈ caps then .field x else .var x
  | .field x => .field x
  | .bin o a b => .bin o (genEx caps a) (genEx caps b)
  | .un f a => .un f (genEx caps a)
  | .asg x e => if x ∈ caps then .setField x (genEx caps e) else .asg x (genEx caps e)
  | .setField x e => .setField x (genEx caps e)
  | .call f as => if f ∈ caps then .callField f (genExs caps as) else .call f (genExs caps as)
  | .callField f as => .callField f (genExs caps as)
  | .cond c a b => .cond (genEx caps c) (genEx caps a) (genEx caps b)
  | .cast e => .cast (genEx caps e)
  | .lam id ps m ex b => .lam id ps m ex b
/-- The arguments (codegen.c:730-800). -/
def genExs (caps : List Name) : Exs → Exs
  | .nil => .nil
  | .cons e es => .cons (genEx caps e) (genExs caps es)
end

mutual
/-- Statements of a body (`codegen_walker`, codegen_decl.c:395-399). -/
def genSt (caps : List Name) : St → St
  | .expr e => .expr (genEx caps e)
  | .decl x e => .decl x (genEx caps e)
  | .const x e => .const x (genEx caps e)
  | .ret e => .ret (genEx caps e)
  | .ite c a b => .ite (genEx caps c) (genSts caps a) (genSts caps b)
  | .whil c b => .whil (genEx caps c) (genSts caps b)
  | .forr x e c s b => .forr x (genEx caps e) (genEx caps c) (genEx caps s) (genSts caps b)
  | .forIn x lo hi b => .forIn x (genEx caps lo) (genEx caps hi) (genSts caps b)
  | .block b => .block (genSts caps b)
  | .brk => .brk
  | .cont => .cont
  | .defer e => .defer (genEx caps e)
/-- Statements of a body (`codegen_walker`, codegen_decl.c:395-399). -/
def genSts (caps : List Name) : Sts → Sts
  | .nil => .nil
  | .cons s ss => .cons (genSt caps s) (genSts caps ss)
end

/-- The deferred expressions of the body itself, last first: `codegen_walker` only remembers
them. -/
def deferred : Sts → List Ex
  | .nil => []
  | .cons (.defer e) ss => deferred ss ++ [e]
  | .cons _ ss => deferred ss

/-- The statements without them. -/
def undeferred : Sts → Sts
  | .nil => .nil
  | .cons (.defer _) ss => undeferred ss
  | .cons s ss => .cons s (undeferred ss)

/-- Statements after others. -/
def Sts.append : Sts → Sts → Sts
  | .nil, t => t
  | .cons s ss, t => .cons s (ss.append t)

/-- Expressions as statements. -/
def stsOf : List Ex → Sts
  | [] => .nil
  | e :: r => .cons (.expr e) (stsOf r)

/-- The C code of the body, codegen_decl.c:395-405: the deferred expressions are written after
`g_current_lambda = NULL`, that is as in a function. -/
def emitBody (caps : List Name) (b : Sts) : Sts :=
  (genSts caps (undeferred b)).append (stsOf (deferred b))

/-! ## Running -/

/-- The outcome of a run: a value, undefined behaviour, a name without a meaning (which the C
compiler rejects), or not enough steps. -/
inductive Ans (α : Type) where
  | val (a : α)
  | ub
  | unbound
  | more

/-- Sequencing. -/
def Ans.bind {α β : Type} : Ans α → (α → Ans β) → Ans β
  | .val a, f => f a
  | .ub, _ => .ub
  | .unbound, _ => .unbound
  | .more, _ => .more

instance : Monad Ans where
  pure := .val
  bind := Ans.bind

/-- Memory, and the calls of functions so far. -/
structure State where
  mem : List Int
  trace : List (Name × List Int)

/-- The functions of the program: `none` if there is none of that name. -/
abbrev World := Name → Option (List Int → Int)

/-- Names and their places (indices in memory), innermost first. -/
abbrev Env := List (Name × Nat)

/-- The place of a name. -/
def place : Env → Name → Option Nat
  | [], _ => none
  | (y, l) :: r, x => if y = x then some l else place r x

/-- Reading a variable. -/
def load (env : Env) (σ : State) (x : Name) : Ans (Int × State) :=
  match place env x with
  | none => .unbound
  | some l => match σ.mem[l]? with
    | none => .ub
    | some v => .val (v, σ)

/-- Writing a variable. -/
def store (env : Env) (σ : State) (x : Name) (v : Int) : Ans (Int × State) :=
  match place env x with
  | none => .unbound
  | some l => if l < σ.mem.length then .val (v, { σ with mem := σ.mem.set l v }) else .ub

/-- A binary operator; `&&` and `||` look at the right operand only if they have to. -/
def binop (o : Op) (v : Int) (rest : Ans (Int × State)) (σ : State) : Ans (Int × State) :=
  match o with
  | .arith f => do
      let (w, σ) ← rest
      match f v w with
      | none => .ub
      | some u => .val (u, σ)
  | .and => if v = 0 then .val (0, σ) else do
      let (w, σ) ← rest
      .val (if w = 0 then 0 else 1, σ)
  | .or => if v ≠ 0 then .val (1, σ) else do
      let (w, σ) ← rest
      .val (if w = 0 then 0 else 1, σ)

/-- A call of a function of the program. -/
def callFn (W : World) (f : Name) (vs : List Int) (σ : State) : Ans (Int × State) :=
  match W f with
  | none => .unbound
  | some g => .val (g vs, { σ with trace := σ.trace ++ [(f, vs)] })

mutual
/-- The value of an expression, of Zen C (with an empty `ctx`) or of C.  `ctx` are the places of
the fields of the context: for a variable captured by value the field, by reference the
variable.  Simplified: a lambda in a body has no value, as the C compiler rejects it
(`nested_violated`). -/
def eval (W : World) (ctx env : Env) (σ : State) : Ex → Ans (Int × State)
  | .lit n => .val (n, σ)
  | .var x => load env σ x
  | .field x => load ctx σ x
  | .bin o a b => (eval W ctx env σ a).bind fun r => binop o r.1 (eval W ctx env r.2 b) r.2
  | .un f a => (eval W ctx env σ a).bind fun r => .val (f r.1, r.2)
  | .asg x e => (eval W ctx env σ e).bind fun r => store env r.2 x r.1
  | .setField x e => (eval W ctx env σ e).bind fun r => store ctx r.2 x r.1
  | .call f as => (evals W ctx env σ as).bind fun r => callFn W f r.1 r.2
  | .callField _ _ => .unbound
  | .cond c a b => (eval W ctx env σ c).bind fun r =>
      if r.1 = 0 then eval W ctx env r.2 b else eval W ctx env r.2 a
  | .cast e => eval W ctx env σ e
  | .lam _ _ _ _ _ => .unbound
/-- The values of arguments, from left to right. -/
def evals (W : World) (ctx env : Env) (σ : State) : Exs → Ans (List Int × State)
  | .nil => .val ([], σ)
  | .cons e es => (eval W ctx env σ e).bind fun r => (evals W ctx env r.2 es).bind fun q =>
      .val (r.1 :: q.1, q.2)
end

/-- How a statement ends. -/
inductive Flow where
  | next
  | ret (v : Int)
  | brk
  | cont

/-- A new variable. -/
def fresh (σ : State) (v : Int) : Nat × State := (σ.mem.length, { σ with mem := σ.mem ++ [v] })

mutual
/-- A statement, in at most `n` steps. -/
def exec (W : World) (ctx : Env) : Nat → Env → State → St → Ans (Flow × State)
  | 0, _, _, _ => .more
  | n + 1, env, σ, s =>
    match s with
    | .expr e => (eval W ctx env σ e).bind fun r => .val (.next, r.2)
    | .decl _ e => (eval W ctx env σ e).bind fun r => .val (.next, r.2)
    | .const _ e => (eval W ctx env σ e).bind fun r => .val (.next, r.2)
    | .ret e => (eval W ctx env σ e).bind fun r => .val (.ret r.1, r.2)
    | .ite c a b => (eval W ctx env σ c).bind fun r =>
        if r.1 = 0 then execs W ctx n env r.2 b else execs W ctx n env r.2 a
    | .whil c b => (eval W ctx env σ c).bind fun r =>
        if r.1 = 0 then .val (.next, r.2)
        else (execs W ctx n env r.2 b).bind fun q =>
          match q.1 with
          | .brk => .val (.next, q.2)
          | .ret v => .val (.ret v, q.2)
          | _ => exec W ctx n env q.2 (.whil c b)
    | .forr x e c s b => (eval W ctx env σ e).bind fun r =>
        loop W ctx n ((x, (fresh r.2 r.1).1) :: env) (fresh r.2 r.1).2 c s b
    | .forIn x lo hi b => (eval W ctx env σ lo).bind fun r =>
        range W ctx n x (fresh r.2 r.1).1 ((x, (fresh r.2 r.1).1) :: env) (fresh r.2 r.1).2 hi b
    | .block b => execs W ctx n env σ b
    | .brk => .val (.brk, σ)
    | .cont => .val (.cont, σ)
    | .defer _ => .unbound
/-- Statements, in at most `n` steps. -/
def execs (W : World) (ctx : Env) : Nat → Env → State → Sts → Ans (Flow × State)
  | 0, _, _, _ => .more
  | _ + 1, _, σ, .nil => .val (.next, σ)
  | n + 1, env, σ, .cons s ss =>
    match s with
    | .decl x e => (eval W ctx env σ e).bind fun r =>
        execs W ctx n ((x, (fresh r.2 r.1).1) :: env) (fresh r.2 r.1).2 ss
    | .const x e => (eval W ctx env σ e).bind fun r =>
        execs W ctx n ((x, (fresh r.2 r.1).1) :: env) (fresh r.2 r.1).2 ss
    | s => (exec W ctx n env σ s).bind fun r =>
        match r.1 with
        | .next => execs W ctx n env r.2 ss
        | f => .val (f, r.2)
/-- The loop of `for`. -/
def loop (W : World) (ctx : Env) : Nat → Env → State → Ex → Ex → Sts → Ans (Flow × State)
  | 0, _, _, _, _, _ => .more
  | n + 1, env, σ, c, s, b => (eval W ctx env σ c).bind fun r =>
      if r.1 = 0 then .val (.next, r.2)
      else (execs W ctx n env r.2 b).bind fun q =>
        match q.1 with
        | .brk => .val (.next, q.2)
        | .ret v => .val (.ret v, q.2)
        | _ => (eval W ctx env q.2 s).bind fun p => loop W ctx n env p.2 c s b
/-- The loop of `for x in`: `for (__auto_type x = lo; x < hi; x++)`, where the `x` of the head is
the new variable. -/
def range (W : World) (ctx : Env) : Nat → Name → Nat → Env → State → Ex → Sts → Ans (Flow × State)
  | 0, _, _, _, _, _, _ => .more
  | n + 1, x, l, env, σ, hi, b => (eval W ctx env σ hi).bind fun r =>
      match r.2.mem[l]? with
      | none => .ub
      | some v =>
        if v < r.1 then
          (execs W ctx n env r.2 b).bind fun q =>
            match q.1 with
            | .brk => .val (.next, q.2)
            | .ret v => .val (.ret v, q.2)
            | _ => match q.2.mem[l]? with
              | none => .ub
              | some v => range W ctx n x l env { q.2 with mem := q.2.mem.set l (v + 1) } hi b
        else .val (.next, r.2)
end

/-- The parameters of a call. -/
def bindParams : List Name → List Int → State → Env → Env × State
  | p :: ps, v :: vs, σ, env => bindParams ps vs (fresh σ v).2 ((p, (fresh σ v).1) :: env)
  | _, _, σ, env => (env, σ)

/-- A call of the C function of a lambda, codegen_decl.c:343-405 and codegen.c:728-769: `ctx` is the
context, `glob` are the global variables. -/
def callC (W : World) (n : Nat) (ctx glob : Env) (σ : State) (caps ps : List Name) (b : Sts)
    (vs : List Int) : Ans (Flow × State) :=
  let r := bindParams ps vs σ glob
  execs W ctx n r.1 r.2 (emitBody caps b)

/-! ## Creating a closure -/

/-- The assignments to the context in a function, codegen.c:151-213: `ctx->x = x;` or
`ctx->x = &x;`.  The name `ctx` means the new context here, of another type. -/
def create (env : Env) : List (Name × Bool) → State → Ans (Env × State)
  | [], σ => .val ([], σ)
  | (x, byRef) :: r, σ =>
      if x = "ctx" then .unbound
      else match place env x with
        | none => .unbound
        | some l =>
          if byRef then (create env r σ).bind fun q => .val ((x, l) :: q.1, q.2)
          else match σ.mem[l]? with
            | none => .ub
            | some v => (create env r (fresh σ v).2).bind fun q =>
                .val ((x, (fresh σ v).1) :: q.1, q.2)

/-- The same in the body of a lambda that captures `outer`, codegen.c:160-189: a variable the outer
lambda captures is written `ctx->x`, but `ctx` means the new context here, whose fields have no
values yet. -/
def createInside (outer : List Name) (env : Env) : List (Name × Bool) → State → Ans (Env × State)
  | [], σ => .val ([], σ)
  | (x, byRef) :: r, σ =>
      if x ∈ outer then .ub
      else (create env [(x, byRef)] σ).bind fun p =>
        (createInside outer env r p.2).bind fun q => .val (p.1 ++ q.1, q.2)

/-! ## The order of the definitions -/

mutual
/-- The lambdas of an expression as `register_lambda` (parser_utils.c:874-880) sees them: a lambda is
registered after its body was read. -/
def regEx : Ex → List Nat
  | .bin _ a b => regEx a ++ regEx b
  | .un _ a => regEx a
  | .asg _ e => regEx e
  | .setField _ e => regEx e
  | .call _ as => regExs as
  | .callField _ as => regExs as
  | .cond c a b => regEx c ++ regEx a ++ regEx b
  | .cast e => regEx e
  | .lam id _ _ _ b => regSts b ++ [id]
  | _ => []
/-- the arguments -/
def regExs : Exs → List Nat
  | .nil => []
  | .cons e es => regEx e ++ regExs es
/-- a statement -/
def regSt : St → List Nat
  | .expr e => regEx e
  | .decl _ e => regEx e
  | .const _ e => regEx e
  | .ret e => regEx e
  | .ite c a b => regEx c ++ regSts a ++ regSts b
  | .whil c b => regEx c ++ regSts b
  | .forr _ e c s b => regEx e ++ regEx c ++ regEx s ++ regSts b
  | .forIn _ lo hi b => regEx lo ++ regEx hi ++ regSts b
  | .block b => regSts b
  | .brk => []
  | .cont => []
  | .defer e => regEx e
/-- statements -/
def regSts : Sts → List Nat
  | .nil => []
  | .cons s ss => regSt s ++ regSts ss
end

/-- `emit_lambda_defs`, codegen_decl.c:315-411: from the head of the list, to which each lambda was
put in front. -/
def emitOrder (program : Sts) : List Nat := (regSts program).reverse

/-! ## What a user expects -/

namespace Spec

mutual
/-- The names an expression uses that are not bound in it, with lexical scoping; `b` are the names
bound around. -/
def freeEx (b : List Name) : Ex → List Name
  | .lit _ => []
  | .var x => if x ∈ b then [] else [x]
  | .field _ => []
  | .bin _ l r => freeEx b l ++ freeEx b r
  | .un _ e => freeEx b e
  | .asg x e => (if x ∈ b then [] else [x]) ++ freeEx b e
  | .setField _ e => freeEx b e
  | .call f as => (if f ∈ b then [] else [f]) ++ freeExs b as
  | .callField _ as => freeExs b as
  | .cond c l r => freeEx b c ++ freeEx b l ++ freeEx b r
  | .cast e => freeEx b e
  | .lam _ ps _ ex body => (ex.map (·.1)).filter (· ∉ b) ++ freeSts (ps ++ b) body
/-- of arguments -/
def freeExs (b : List Name) : Exs → List Name
  | .nil => []
  | .cons e es => freeEx b e ++ freeExs b es
/-- of a statement -/
def freeSt (b : List Name) : St → List Name
  | .expr e => freeEx b e
  | .decl _ e => freeEx b e
  | .const _ e => freeEx b e
  | .ret e => freeEx b e
  | .ite c l r => freeEx b c ++ freeSts b l ++ freeSts b r
  | .whil c l => freeEx b c ++ freeSts b l
  | .forr x e c s l => freeEx b e ++ freeEx (x :: b) c ++ freeEx (x :: b) s ++ freeSts (x :: b) l
  | .forIn x lo hi l => freeEx b lo ++ freeEx (x :: b) hi ++ freeSts (x :: b) l
  | .block l => freeSts b l
  | .brk => []
  | .cont => []
  | .defer e => freeEx b e
/-- of statements: a declaration binds its name in the statements after it -/
def freeSts (b : List Name) : Sts → List Name
  | .nil => []
  | .cons s ss => freeSt b s ++ freeSts (match s with
      | .decl x _ => x :: b
      | .const x _ => x :: b
      | _ => b) ss
end

mutual
/-- The names bound somewhere in a statement. -/
def boundSt : St → List Name
  | .decl x _ => [x]
  | .const x _ => [x]
  | .ite _ a b => boundSts a ++ boundSts b
  | .whil _ b => boundSts b
  | .forr x _ _ _ b => x :: boundSts b
  | .forIn x _ _ b => x :: boundSts b
  | .block b => boundSts b
  | _ => []
/-- The names bound somewhere in statements. -/
def boundSts : Sts → List Name
  | .nil => []
  | .cons s ss => boundSt s ++ boundSts ss
end

mutual
/-- No lambda, and nothing only C has. -/
def PlainEx : Ex → Prop
  | .bin _ a b => PlainEx a ∧ PlainEx b
  | .un _ a => PlainEx a
  | .asg _ e => PlainEx e
  | .call _ as => PlainExs as
  | .cond c a b => PlainEx c ∧ PlainEx a ∧ PlainEx b
  | .cast e => PlainEx e
  | .lit _ => True
  | .var _ => True
  | _ => False
/-- all of them -/
def PlainExs : Exs → Prop
  | .nil => True
  | .cons e es => PlainEx e ∧ PlainExs es
end

mutual
/-- No lambda, no `defer`, and nothing only C has. -/
def PlainSt : St → Prop
  | .expr e => PlainEx e
  | .decl _ e => PlainEx e
  | .const _ e => PlainEx e
  | .ret e => PlainEx e
  | .ite c a b => PlainEx c ∧ PlainSts a ∧ PlainSts b
  | .whil c b => PlainEx c ∧ PlainSts b
  | .forr _ e c s b => PlainEx e ∧ PlainEx c ∧ PlainEx s ∧ PlainSts b
  | .forIn _ lo hi b => PlainEx lo ∧ PlainEx hi ∧ PlainSts b
  | .block b => PlainSts b
  | .brk => True
  | .cont => True
  | .defer _ => False
/-- all of them -/
def PlainSts : Sts → Prop
  | .nil => True
  | .cons s ss => PlainSt s ∧ PlainSts ss
end

mutual
/-- Expressions the analysis looks into. -/
def SeenEx : Ex → Prop
  | .bin _ a b => SeenEx a ∧ SeenEx b
  | .un _ a => SeenEx a
  | .asg _ e => SeenEx e
  | .call _ as => SeenExs as
  | .lit _ => True
  | .var _ => True
  | _ => False
/-- all of them -/
def SeenExs : Exs → Prop
  | .nil => True
  | .cons e es => SeenEx e ∧ SeenExs es
end

mutual
/-- Statements the analysis looks into. -/
def SeenSt : St → Prop
  | .expr e => SeenEx e
  | .decl _ e => SeenEx e
  | .ret e => SeenEx e
  | .ite c a b => SeenEx c ∧ SeenSts a ∧ SeenSts b
  | .whil c b => SeenEx c ∧ SeenSts b
  | .forr _ e c s b => SeenEx e ∧ SeenEx c ∧ SeenEx s ∧ SeenSts b
  | .block b => SeenSts b
  | .brk => True
  | .cont => True
  | _ => False
/-- all of them -/
def SeenSts : Sts → Prop
  | .nil => True
  | .cons s ss => SeenSt s ∧ SeenSts ss
end

mutual
/-- The functions called in an expression. -/
def calledEx : Ex → List Name
  | .bin _ a b => calledEx a ++ calledEx b
  | .un _ a => calledEx a
  | .asg _ e => calledEx e
  | .call f as => f :: calledExs as
  | .cond c a b => calledEx c ++ calledEx a ++ calledEx b
  | .cast e => calledEx e
  | _ => []
/-- in arguments -/
def calledExs : Exs → List Name
  | .nil => []
  | .cons e es => calledEx e ++ calledExs es
end

mutual
/-- in a statement -/
def calledSt : St → List Name
  | .expr e => calledEx e
  | .decl _ e => calledEx e
  | .const _ e => calledEx e
  | .ret e => calledEx e
  | .ite c a b => calledEx c ++ calledSts a ++ calledSts b
  | .whil c b => calledEx c ++ calledSts b
  | .forr _ e c s b => calledEx e ++ calledEx c ++ calledEx s ++ calledSts b
  | .forIn _ lo hi b => calledEx lo ++ calledEx hi ++ calledSts b
  | .block b => calledSts b
  | .defer e => calledEx e
  | _ => []
/-- in statements -/
def calledSts : Sts → List Name
  | .nil => []
  | .cons s ss => calledSt s ++ calledSts ss
end

/-- The variables a lambda has to capture: those its body uses and does not bind, that are neither
parameters nor global, and those of its capture list. -/
def Needs (S : Scope) (ps : List Name) (expl : List (Name × Bool)) (body : Sts) (x : Name) : Prop :=
  x ∈ expl.map (·.1) ∨ (x ∈ freeSts ps body ∧ x ∈ S.locals)

/-- How: as the capture list says, else by default. -/
def ByRef (byRef : Bool) (expl : List (Name × Bool)) (x : Name) (m : Bool) : Prop :=
  (∃ a r, expl = a ++ (x, m) :: r ∧ x ∉ a.map (·.1)) ∨ (x ∉ expl.map (·.1) ∧ m = byRef)

/-- A context as it should be when a closure is created: fields for exactly the needed variables;
by reference the variable itself, by value a new place with its value; nothing else changes. -/
structure Captured (env : Env) (need : Name → Prop) (mode : Name → Bool → Prop) (σ : State)
    (ctx : Env) (σ' : State) : Prop where
  names : ∀ x, (∃ l, place ctx x = some l) ↔ need x
  ref : ∀ x l, place ctx x = some l → mode x true → place env x = some l
  value : ∀ x l, place ctx x = some l → mode x false → σ.mem.length ≤ l ∧
    ∃ k, place env x = some k ∧ k < σ.mem.length ∧ σ'.mem[l]? = σ.mem[k]?
  own : ∀ x y l, place ctx x = some l → place ctx y = some l → σ.mem.length ≤ l → x = y
  old : ∀ l, l < σ.mem.length → σ'.mem[l]? = σ.mem[l]?
  trace : σ'.trace = σ.trace

/-- A call of a closure: the body in the scope of its parameters, its captured variables and the
global variables. -/
def callZ (W : World) (n : Nat) (ctx glob : Env) (σ : State) (ps : List Name) (b : Sts)
    (vs : List Int) : Ans (Flow × State) :=
  let r := bindParams ps vs σ (ctx ++ glob)
  execs W [] n r.1 r.2 b

/-- The C compiler knows every name of the body: variables of the context, parameters, global
variables and functions. -/
def Accepted (S : Scope) (caps ps : List Name) (b : Sts) : Prop :=
  ∀ x ∈ freeSts ps (emitBody caps b), x ∈ S.globals ∨ x ∈ S.funcs ∨ x ∈ builtins

/-- The lambdas the claim is made for. -/
structure Good (S : Scope) (ps : List Name) (expl : List (Name × Bool)) (body : Sts) : Prop where
  seen : SeenSts body
  known : ∀ x ∈ freeSts ps body, x ∈ S.locals ∨ x ∈ S.globals ∨ x ∈ S.funcs ∨ x ∈ builtins
  apart : ∀ x, x ∈ S.locals → x ∉ S.funcs ∧ x ∉ builtins
  bound : ∀ x ∈ boundSts body, x ∉ freeSts ps body ∧ x ∉ expl.map (·.1)
  params : ∀ x ∈ ps, x ∉ expl.map (·.1)
  called : ∀ f ∈ calledSts body, f ∉ S.locals ∧ f ∉ expl.map (·.1) ∧ f ∉ ps ∧ f ∉ boundSts body
  listed : ∀ x ∈ expl.map (·.1), x ∈ S.locals ∨ x ∈ S.globals
  ctx : "ctx" ∉ S.locals ∧ "ctx" ∉ expl.map (·.1) ∧ "ctx" ∉ ps ∧ "ctx" ∉ boundSts body
  few : expl.length ≤ 32 ∧ ∃ l : List Name, (∀ x, Needs S ps expl body x → x ∈ l) ∧ l.length ≤ 32

mutual
/-- The lambdas of an expression, also those in lambdas, with their bodies. -/
def lamsEx : Ex → List (Nat × Sts)
  | .bin _ a b => lamsEx a ++ lamsEx b
  | .un _ a => lamsEx a
  | .asg _ e => lamsEx e
  | .setField _ e => lamsEx e
  | .call _ as => lamsExs as
  | .callField _ as => lamsExs as
  | .cond c a b => lamsEx c ++ lamsEx a ++ lamsEx b
  | .cast e => lamsEx e
  | .lam id _ _ _ b => (id, b) :: lamsSts b
  | _ => []
/-- of arguments -/
def lamsExs : Exs → List (Nat × Sts)
  | .nil => []
  | .cons e es => lamsEx e ++ lamsExs es
/-- of a statement -/
def lamsSt : St → List (Nat × Sts)
  | .expr e => lamsEx e
  | .decl _ e => lamsEx e
  | .const _ e => lamsEx e
  | .ret e => lamsEx e
  | .ite c a b => lamsEx c ++ lamsSts a ++ lamsSts b
  | .whil c b => lamsEx c ++ lamsSts b
  | .forr _ e c s b => lamsEx e ++ lamsEx c ++ lamsEx s ++ lamsSts b
  | .forIn _ lo hi b => lamsEx lo ++ lamsEx hi ++ lamsSts b
  | .block b => lamsSts b
  | .defer e => lamsEx e
  | _ => []
/-- of statements -/
def lamsSts : Sts → List (Nat × Sts)
  | .nil => []
  | .cons s ss => lamsSt s ++ lamsSts ss
end

/-- The C compiler has seen the function of every lambda where it is used in another one. -/
def Declared (program : Sts) (order : List Nat) : Prop :=
  ∀ i b, (i, b) ∈ lamsSts program → ∀ j c, (j, c) ∈ lamsSts b → ∃ p q, order = p ++ i :: q ∧ j ∈ p

end Spec

end Verif.Closure
