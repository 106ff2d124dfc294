/-!
# The use-after-move check

Transcription of `move_check.c` and of the parts of `typecheck.c` that drive it
(/repo/src/analysis/move_check.c, /repo/src/analysis/typecheck.c:79-95, 123-163, 251-293,
496-682, 798-832, 915-983, 1007-1070, 1134-1249, 1375-1408, 1457-1515, 1553-1566).

Simplifications, all of which let the model accept more programs than the code: only
the errors of the move check are modelled; the errors for moving out of references, fields
and elements (/repo/src/analysis/typecheck.c:141-173) and all type errors are left out.
After an error the code goes on and rejects the program in the end; the model stops.
Values do not matter: a test may come out either way.  Not modelled: lambdas, `defer`,
`goto` and pattern bindings.
-/

namespace Verif.Move

mutual
/-- Expressions (/repo/src/ast/ast.h).  `un` stands for every operator, member access, cast or
index whose operands are only read; `bin` for a strict operator; `sc` for `&&` and `||`;
`call` for calls (callee and arguments) and structure initialisers (callee `lit`);
`store x i e` for an assignment to a part of `x`, like `x.f = e` or `x[i] = e`. -/
inductive Expr where
  | lit
  | var (x : String)
  | un (e : Expr)
  | bin (a b : Expr)
  | sc (a b : Expr)
  | assign (x : String) (e : Expr)
  | store (x : String) (i e : Expr)
  | call (f : Expr) (args : Exprs)
  | tern (c a b : Expr)
  | arr (es : Exprs)
/-- Argument lists. -/
inductive Exprs where
  | nil
  | cons (e : Expr) (r : Exprs)
end

mutual
/-- Statements.  `cond1` is `unless` and `guard`; `whil` is `while`, `loop` and the C-like
`for`; `rng` is the range `for`. -/
inductive Stmt where
  | expr (e : Expr)
  | decl (x : String) (e : Expr)
  | ret (e : Expr)
  | brk
  | cont
  | block (b : Stmts)
  | ite (c : Expr) (t e : Stmt)
  | ifOnly (c : Expr) (t : Stmt)
  | cond1 (c : Expr) (b : Stmt)
  | mtch (e : Expr) (a : Arms)
  | whil (c : Expr) (b : Stmt)
  | rng (b : Stmt)
/-- Statement lists. -/
inductive Stmts where
  | nil
  | cons (s : Stmt) (r : Stmts)
/-- Bodies of the arms of a match. -/
inductive Arms where
  | nil
  | cons (b : Stmt) (r : Arms)
end

/-- `MoveState` (/repo/src/analysis/move_check.h): the entries in list order, `true` for
`MOVE_STATE_MOVED`.  The parent is always null: states are made by `move_state_create(NULL)`
(/repo/src/analysis/typecheck.c:924) or cloned from such. -/
abbrev MS := List (String × Bool)

/-- `get_move_status` (/repo/src/analysis/move_check.c:86-104). -/
def getM : MS → String → Bool
  | [], _ => false
  | (y, b) :: m, x => if y = x then b else getM m x

/-- The loop of `mark_moved_in_state` and `mark_valid_in_state`: the first entry of that name
is changed (/repo/src/analysis/move_check.c:67-77). -/
def putM : MS → String → Bool → Option MS
  | [], _, _ => none
  | (y, c) :: m, x, b => if y = x then some ((y, b) :: m) else (putM m x b).map ((y, c) :: ·)

/-- `mark_moved_in_state` and `mark_valid_in_state`
(/repo/src/analysis/move_check.c:60-84, 278-303). -/
def setM (m : MS) (x : String) (b : Bool) : MS := (putM m x b).getD ((x, b) :: m)

/-- One of the two loops of `move_state_merge` (/repo/src/analysis/move_check.c:113-143):
entries of `src` that are moved in `src` or in `other` become moved in `target`. -/
def mergeHalf (other : MS) : MS → MS → MS
  | target, [] => target
  | target, (x, b) :: src =>
      mergeHalf other (if b || getM other x then setM target x true else target) src

/-- `move_state_merge` (/repo/src/analysis/move_check.c:106-144); `[]` for a null state. -/
def merge (target a b : MS) : MS := mergeHalf a (mergeHalf b target a) b

/-- A name in the checker's scopes: `true` for a function parameter, whose symbol has no type
(/repo/src/analysis/typecheck.c:926-932). -/
abbrev Scope := List (String × Bool)

/-- `tc_lookup` (/repo/src/analysis/typecheck.c:79-95). -/
def lookup : Scope → String → Option Bool
  | [], _ => none
  | (y, p) :: g, x => if y = x then some p else lookup g x

section
variable (owned : String → Bool)

/-- `mark_symbol_moved` (/repo/src/analysis/move_check.c:250-276): only symbols found in the
scopes, with a type, that is not `Copy`.  `owned x` says that the type of `x` is not. -/
def markMoved (g : Scope) (m : MS) (x : String) : MS :=
  match lookup g x with
  | some false => if owned x then setM m x true else m
  | _ => m

/-- `mark_symbol_valid` (/repo/src/analysis/move_check.c:305-316). -/
def markValid (g : Scope) (m : MS) (x : String) : MS :=
  match lookup g x with
  | some _ => setM m x false
  | none => m

/-- `check_move_for_rvalue` (/repo/src/analysis/typecheck.c:123-141), and the same test in
declarations and initialisers (/repo/src/analysis/typecheck.c:812-820, 1056-1064). -/
def markRv (g : Scope) (m : MS) : Expr → MS
  | .var x => markMoved owned g m x
  | _ => m

mutual
/-- `check_node` on expressions; `lhs` is `is_assign_lhs`.  `none`: a use of a moved value
was reported. -/
def chkE (g : Scope) (lhs : Bool) : Expr → MS → Option MS
  | .lit, m => some m
  -- check_expr_var, /repo/src/analysis/typecheck.c:970-983, and check_use_validity, move_check.c:215-248
  | .var x, m =>
      if !lhs && (lookup g x).isSome && getM m x then none else some m
  | .un e, m => chkE g lhs e m
  | .bin a b, m => (chkE g lhs a m).bind (chkE g lhs b)
  | .sc a b, m => (chkE g lhs a m).bind (chkE g lhs b)
  -- check_expr_binary, /repo/src/analysis/typecheck.c:251-297
  | .assign x e, m =>
      (chkE g lhs e m).bind fun m => some (markValid g (markRv owned g m e) x)
  | .store _ i e, m =>
      ((chkE g true i m).bind (chkE g lhs e)).bind fun m => some (markRv owned g m e)
  -- check_expr_call, /repo/src/analysis/typecheck.c:496-650
  | .call f as, m => (chkE g lhs f m).bind (chkArgs g lhs as)
  -- /repo/src/analysis/typecheck.c:1493-1496
  | .tern c a b, m => ((chkE g lhs c m).bind (chkE g lhs a)).bind (chkE g lhs b)
  -- /repo/src/analysis/typecheck.c:1457-1465
  | .arr es, m => chkList g lhs es m
/-- Arguments: each is checked, then moved if it is a variable
(/repo/src/analysis/typecheck.c:587-649). -/
def chkArgs (g : Scope) (lhs : Bool) : Exprs → MS → Option MS
  | .nil, m => some m
  | .cons e r, m => (chkE g lhs e m).bind fun m => chkArgs g lhs r (markRv owned g m e)
/-- Elements: each is checked. -/
def chkList (g : Scope) (lhs : Bool) : Exprs → MS → Option MS
  | .nil, m => some m
  | .cons e r, m => (chkE g lhs e m).bind (chkList g lhs r)
end

mutual
/-- `check_node` on statements: the scopes and the state afterwards. -/
def chkS (g : Scope) : Stmt → MS → Option (Scope × MS)
  | .expr e, m => (chkE owned g false e m).map (g, ·)
  -- check_var_decl, /repo/src/analysis/typecheck.c:798-832
  | .decl x e, m => (chkE owned g false e m).map fun m => ((x, false) :: g, markRv owned g m e)
  -- /repo/src/analysis/typecheck.c:1106-1110
  | .ret e, m => (chkE owned g false e m).map (g, ·)
  | .brk, m => some (g, m)
  | .cont, m => some (g, m)
  -- check_block, /repo/src/analysis/typecheck.c:652-682
  | .block b, m => (chkL g b m).map (g, ·)
  -- /repo/src/analysis/typecheck.c:1134-1184
  | .ite c t e, m =>
      (chkE owned g false c m).bind fun m1 =>
        (chkS g t m1).bind fun (_, m2) =>
          (chkS g e m1).map fun (_, m3) => (g, merge m1 m2 m3)
  | .ifOnly c t, m =>
      (chkE owned g false c m).bind fun m1 =>
        (chkS g t m1).map fun (_, m2) => (g, merge m1 m2 [])
  -- /repo/src/analysis/typecheck.c:1375-1408: no copy of the state is made
  | .cond1 c b, m =>
      (chkE owned g false c m).bind fun m1 => (chkS g b m1).map fun (_, m2) => (g, m2)
  -- /repo/src/analysis/typecheck.c:1185-1212
  | .mtch e a, m => (chkE owned g false e m).bind fun m1 => (chkA g a m1).map (g, ·)
  -- /repo/src/analysis/typecheck.c:1213-1249, 1485-1492
  | .whil c b, m =>
      (chkE owned g false c m).bind fun m1 => (chkS g b m1).map fun (_, m2) => (g, m2)
  -- NODE_FOR_RANGE has no case: /repo/src/analysis/typecheck.c:1553-1566
  | .rng _, m => some (g, m)
/-- The statements of a block. -/
def chkL (g : Scope) : Stmts → MS → Option MS
  | .nil, m => some m
  | .cons s r, m => (chkS g s m).bind fun (g', m') => chkL g' r m'
/-- The arms, one after the other on the same state. -/
def chkA (g : Scope) : Arms → MS → Option MS
  | .nil, m => some m
  | .cons b r, m => (chkS g b m).bind fun (_, m') => chkA g r m'
end

/-- `check_function` (/repo/src/analysis/typecheck.c:915-968), moves only: the body starts
with no moved variable and the parameters in scope. -/
def accepts (params : List String) (body : Stmt) : Bool :=
  (chkS owned (params.map (·, true)) body []).isSome

end

namespace Spec

/-- Local variables, innermost first, with the fact whether the value has been moved out. -/
abbrev Env := List (String × Bool)

/-- Whether the variable meant by a name is moved out. -/
def moved : Env → String → Bool
  | [], _ => false
  | (y, b) :: v, x => if y = x then b else moved v x

/-- Changing the variable meant by a name. -/
def setV : Env → String → Bool → Env
  | [], _, _ => []
  | (y, c) :: v, x, b => if y = x then (y, b) :: v else (y, c) :: setV v x b

/-- How an execution ends: `bad` after reading a moved-out variable. -/
inductive Out where
  | normal
  | brk
  | cont
  | ret
  | bad
  deriving DecidableEq

/-- Leaving the scopes entered since `v`. -/
def pop (v v' : Env) : Env := v'.drop (v'.length - v.length)

section
variable (owned : String → Bool)

mutual
/-- `EE e rv v r`: evaluating `e` (its value being taken over if `rv`) may lead from `v` to
`r`; `none` if a moved-out variable is read. -/
inductive EE : Expr → Bool → Env → Option Env → Prop where
  | lit (rv v) : EE .lit rv v (some v)
  | varBad (x rv v) : moved v x = true → EE (.var x) rv v none
  | varOk (x rv v) : moved v x = false →
      EE (.var x) rv v (some (if rv && owned x then setV v x true else v))
  | un (e rv v r) : EE e false v r → EE (.un e) rv v r
  | binBad (a b rv v) : EE a false v none → EE (.bin a b) rv v none
  | bin (a b rv v v1 r) : EE a false v (some v1) → EE b false v1 r → EE (.bin a b) rv v r
  | scBad (a b rv v) : EE a false v none → EE (.sc a b) rv v none
  | scStop (a b rv v v1) : EE a false v (some v1) → EE (.sc a b) rv v (some v1)
  | sc (a b rv v v1 r) : EE a false v (some v1) → EE b false v1 r → EE (.sc a b) rv v r
  | assignBad (x e rv v) : EE e true v none → EE (.assign x e) rv v none
  | assign (x e rv v v1) : EE e true v (some v1) → EE (.assign x e) rv v (some (setV v1 x false))
  | storeBadI (x i e rv v) : EE i false v none → EE (.store x i e) rv v none
  | store (x i e rv v v1 r) : EE i false v (some v1) → EE e true v1 r → EE (.store x i e) rv v r
  | callBad (f as rv v) : EE f false v none → EE (.call f as) rv v none
  | call (f as rv v v1 r) : EE f false v (some v1) → EL as v1 r → EE (.call f as) rv v r
  | ternBad (c a b rv v) : EE c false v none → EE (.tern c a b) rv v none
  | ternT (c a b rv v v1 r) : EE c false v (some v1) → EE a rv v1 r → EE (.tern c a b) rv v r
  | ternF (c a b rv v v1 r) : EE c false v (some v1) → EE b rv v1 r → EE (.tern c a b) rv v r
  | arr (es rv v r) : EL es v r → EE (.arr es) rv v r
/-- Arguments and elements from left to right (C leaves the order open); each is taken over. -/
inductive EL : Exprs → Env → Option Env → Prop where
  | nil (v) : EL .nil v (some v)
  | bad (e r v) : EE e true v none → EL (.cons e r) v none
  | cons (e r v v1 o) : EE e true v (some v1) → EL r v1 o → EL (.cons e r) v o
end

mutual
/-- Executions of a statement. -/
inductive Exec : Stmt → Env → Out → Env → Prop where
  | exprBad (e v) : EE owned e false v none → Exec (.expr e) v .bad v
  | expr (e v v1) : EE owned e false v (some v1) → Exec (.expr e) v .normal v1
  | declBad (x e v) : EE owned e true v none → Exec (.decl x e) v .bad v
  | decl (x e v v1) : EE owned e true v (some v1) → Exec (.decl x e) v .normal ((x, false) :: v1)
  | retBad (e v) : EE owned e true v none → Exec (.ret e) v .bad v
  | ret (e v v1) : EE owned e true v (some v1) → Exec (.ret e) v .ret v1
  | brk (v) : Exec .brk v .brk v
  | cont (v) : Exec .cont v .cont v
  | block (b v o v1) : ExecL b v o v1 → Exec (.block b) v o (pop v v1)
  | iteBad (c t e v) : EE owned c false v none → Exec (.ite c t e) v .bad v
  | iteT (c t e v v1 o v2) : EE owned c false v (some v1) → Exec t v1 o v2 →
      Exec (.ite c t e) v o (pop v v2)
  | iteE (c t e v v1 o v2) : EE owned c false v (some v1) → Exec e v1 o v2 →
      Exec (.ite c t e) v o (pop v v2)
  | ifBad (c t v) : EE owned c false v none → Exec (.ifOnly c t) v .bad v
  | ifT (c t v v1 o v2) : EE owned c false v (some v1) → Exec t v1 o v2 →
      Exec (.ifOnly c t) v o (pop v v2)
  | ifF (c t v v1) : EE owned c false v (some v1) → Exec (.ifOnly c t) v .normal v1
  | condBad (c b v) : EE owned c false v none → Exec (.cond1 c b) v .bad v
  | condT (c b v v1 o v2) : EE owned c false v (some v1) → Exec b v1 o v2 →
      Exec (.cond1 c b) v o (pop v v2)
  | condF (c b v v1) : EE owned c false v (some v1) → Exec (.cond1 c b) v .normal v1
  | mtchBad (e a v) : EE owned e false v none → Exec (.mtch e a) v .bad v
  | mtch (e a v v1 o v2) : EE owned e false v (some v1) → ExecA a v1 o v2 →
      Exec (.mtch e a) v o v2
  | whilBad (c b v) : EE owned c false v none → Exec (.whil c b) v .bad v
  | whilEnd (c b v v1) : EE owned c false v (some v1) → Exec (.whil c b) v .normal v1
  | whilNext (c b v v1 o v2 o' v3) : EE owned c false v (some v1) → Exec b v1 o v2 →
      (o = .normal ∨ o = .cont) → Exec (.whil c b) (pop v v2) o' v3 → Exec (.whil c b) v o' v3
  | whilBrk (c b v v1 v2) : EE owned c false v (some v1) → Exec b v1 .brk v2 →
      Exec (.whil c b) v .normal (pop v v2)
  | whilOut (c b v v1 o v2) : EE owned c false v (some v1) → Exec b v1 o v2 →
      (o = .ret ∨ o = .bad) → Exec (.whil c b) v o (pop v v2)
  | rngEnd (b v) : Exec (.rng b) v .normal v
  | rngNext (b v o v1 o' v2) : Exec b v o v1 → (o = .normal ∨ o = .cont) →
      Exec (.rng b) (pop v v1) o' v2 → Exec (.rng b) v o' v2
  | rngBrk (b v v1) : Exec b v .brk v1 → Exec (.rng b) v .normal (pop v v1)
  | rngOut (b v o v1) : Exec b v o v1 → (o = .ret ∨ o = .bad) → Exec (.rng b) v o (pop v v1)
/-- Executions of a statement list. -/
inductive ExecL : Stmts → Env → Out → Env → Prop where
  | nil (v) : ExecL .nil v .normal v
  | next (s r v v1 o v2) : Exec s v .normal v1 → ExecL r v1 o v2 → ExecL (.cons s r) v o v2
  | stop (s r v o v1) : Exec s v o v1 → o ≠ .normal → ExecL (.cons s r) v o v1
/-- Executions of a match: some arm, or none, is taken. -/
inductive ExecA : Arms → Env → Out → Env → Prop where
  | none (v) : ExecA .nil v .normal v
  | take (b r v o v1) : Exec b v o v1 → ExecA (.cons b r) v o (pop v v1)
  | skip (b r v o v1) : ExecA r v o v1 → ExecA (.cons b r) v o v1
end

/-! The guard of the partial theorem. -/

mutual
/-- Variables assigned by an expression. -/
def asgE : Expr → List String
  | .lit => []
  | .var _ => []
  | .un e => asgE e
  | .bin a b => asgE a ++ asgE b
  | .sc a b => asgE a ++ asgE b
  | .assign x e => x :: asgE e
  | .store _ i e => asgE i ++ asgE e
  | .call f as => asgE f ++ asgEL as
  | .tern c a b => asgE c ++ (asgE a ++ asgE b)
  | .arr es => asgEL es
/-- Of a list. -/
def asgEL : Exprs → List String
  | .nil => []
  | .cons e r => asgE e ++ asgEL r
end

mutual
/-- Variables assigned by a statement. -/
def asgS : Stmt → List String
  | .expr e => asgE e
  | .decl _ e => asgE e
  | .ret e => asgE e
  | .brk => []
  | .cont => []
  | .block b => asgL b
  | .ite c t e => asgE c ++ (asgS t ++ asgS e)
  | .ifOnly c t => asgE c ++ asgS t
  | .cond1 c b => asgE c ++ asgS b
  | .mtch e a => asgE e ++ asgA a
  | .whil c b => asgE c ++ asgS b
  | .rng b => asgS b
/-- Of a list. -/
def asgL : Stmts → List String
  | .nil => []
  | .cons s r => asgS s ++ asgL r
/-- Of arms. -/
def asgA : Arms → List String
  | .nil => []
  | .cons b r => asgS b ++ asgA r
end

mutual
/-- Variables an expression may move out. -/
def mvE : Bool → Expr → List String
  | _, .lit => []
  | rv, .var x => if rv && owned x then [x] else []
  | _, .un e => mvE false e
  | _, .bin a b => mvE false a ++ mvE false b
  | _, .sc a b => mvE false a ++ mvE false b
  | _, .assign _ e => mvE true e
  | _, .store _ i e => mvE false i ++ mvE true e
  | _, .call f as => mvE false f ++ mvEL as
  | rv, .tern c a b => mvE false c ++ (mvE rv a ++ mvE rv b)
  | _, .arr es => mvEL es
/-- Of a list. -/
def mvEL : Exprs → List String
  | .nil => []
  | .cons e r => mvE true e ++ mvEL r
end

mutual
/-- Variables a statement may move out. -/
def mvS : Stmt → List String
  | .expr e => mvE owned false e
  | .decl _ e => mvE owned true e
  | .ret e => mvE owned true e
  | .brk => []
  | .cont => []
  | .block b => mvL b
  | .ite c t e => mvE owned false c ++ (mvS t ++ mvS e)
  | .ifOnly c t => mvE owned false c ++ mvS t
  | .cond1 c b => mvE owned false c ++ mvS b
  | .mtch e a => mvE owned false e ++ mvA a
  | .whil c b => mvE owned false c ++ mvS b
  | .rng b => mvS b
/-- Of a list. -/
def mvL : Stmts → List String
  | .nil => []
  | .cons s r => mvS s ++ mvL r
/-- Of arms. -/
def mvA : Arms → List String
  | .nil => []
  | .cons b r => mvS b ++ mvA r
end

/-- Not an owned variable by itself. -/
def plain : Expr → Bool
  | .var x => !owned x
  | _ => true

/-- The names a statement adds to its scope. -/
def declared : Stmt → Scope
  | .decl x _ => [(x, false)]
  | _ => []

/-- None of the names is declared. -/
def apart (xs : List String) (g : Scope) : Bool := xs.all fun x => (lookup g x).isNone

mutual
/-- Expressions within the guard: owned variables are local variables (not parameters or
globals); an owned variable is not an array element or a branch of `? :`; the operands of
`&&`, `||` and `? :` that may be skipped assign nothing; the place of a partial assignment
reads no owned variable. -/
def safeE (g : Scope) : Expr → Bool
  | .lit => true
  | .var x => !owned x || (lookup g x == some false)
  | .un e => safeE g e
  | .bin a b => safeE g a && safeE g b
  | .sc a b => safeE g a && safeE g b && (asgE b).isEmpty
  | .assign _ e => safeE g e
  | .store _ i e => noOwnedE i && safeE g e
  | .call f as => safeE g f && safeEL g as
  | .tern c a b => safeE g c && safeE g a && safeE g b && plain owned a && plain owned b &&
      (asgE a).isEmpty && (asgE b).isEmpty
  | .arr es => safeArr g es
/-- Arguments. -/
def safeEL (g : Scope) : Exprs → Bool
  | .nil => true
  | .cons e r => safeE g e && safeEL g r
/-- Elements. -/
def safeArr (g : Scope) : Exprs → Bool
  | .nil => true
  | .cons e r => safeE g e && plain owned e && safeArr g r
/-- No owned variable occurs and nothing is assigned. -/
def noOwnedE : Expr → Bool
  | .lit => true
  | .var x => !owned x
  | .un e => noOwnedE e
  | .bin a b => noOwnedE a && noOwnedE b
  | .sc a b => noOwnedE a && noOwnedE b
  | .assign _ _ => false
  | .store _ _ _ => false
  | .call f as => noOwnedE f && noOwnedEL as
  | .tern c a b => noOwnedE c && noOwnedE a && noOwnedE b
  | .arr es => noOwnedEL es
/-- In a list. -/
def noOwnedEL : Exprs → Bool
  | .nil => true
  | .cons e r => noOwnedE e && noOwnedEL r
end

mutual
/-- Statements within the guard: no name is declared while it is in scope; loops neither
move nor assign variables declared outside; bodies of `unless`, `guard` and of match arms
assign no variable declared outside; no range loop. -/
def safeS (g : Scope) : Stmt → Bool
  | .expr e => safeE owned g e
  | .decl x e => safeE owned g e && (lookup g x).isNone
  | .ret e => safeE owned g e
  | .brk => true
  | .cont => true
  | .block b => safeL g b
  | .ite c t e => safeE owned g c && safeS g t && safeS g e
  | .ifOnly c t => safeE owned g c && safeS g t
  | .cond1 c b => safeE owned g c && safeS g b && apart (asgS b) g
  | .mtch e a => safeE owned g e && safeA g a && apart (asgA a) g
  | .whil c b => safeE owned g c && safeS g b && apart (asgE c ++ asgS b) g &&
      apart (mvE owned false c ++ mvS owned b) g
  | .rng _ => false
/-- A list. -/
def safeL (g : Scope) : Stmts → Bool
  | .nil => true
  | .cons s r => safeS g s && safeL (declared s ++ g) r
/-- Arms. -/
def safeA (g : Scope) : Arms → Bool
  | .nil => true
  | .cons b r => safeS g b && safeA g r
end

end

end Spec

end Verif.Move
