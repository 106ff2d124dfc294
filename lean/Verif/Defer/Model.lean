/-!
# Deferred statements and destructors

The translator keeps a compile-time stack of deferred statements and prints them again at every
place where a scope is left.  Modelled here: which C statements are printed (as a list of tokens,
because braces matter), how a C compiler groups them, what the C program then does, and - in
`namespace Spec` - what the Zen-C program is supposed to do.

Expressions are reduced to what matters here: which variables they mention, which variable they
take over (move), which condition they test.  Names, conditions and calls are numbers.
-/

namespace Verif.Defer

abbrev Name := Nat

/-- What a variable holds: an object with a destructor, a plain number, or nothing any more
(zeroed by a move). -/
inductive Val where
  | obj (i : Nat)
  | num (k : Nat)
  | gone
  deriving DecidableEq, Repr

/-- What can be observed of a run: an object is made, a call sees values, a value is taken over by
another variable, a value is handed to somebody else, a destructor runs, a condition is tested. -/
inductive Ev where
  | new (i : Nat)
  | use (a : Nat) (vs : List Val)
  | moved (v : Val)
  | given (v : Val)
  | drop (v : Val)
  | test (c : Nat) (b : Bool)
  deriving DecidableEq, Repr

/-- How a statement ends; `cut` means that the given number of loop turns was not enough. -/
inductive Out where
  | norm | brk | cont | ret | cut
  deriving DecidableEq, Repr

/-- An expression statement: a call that looks at variables, or one that takes a variable with a
destructor over (src/codegen/codegen_utils.c:952-985 `codegen_expression_with_move`). -/
inductive Act where
  | use (a : Nat) (xs : List Name)
  | consume (x : Name)
  deriving DecidableEq, Repr

mutual
/-- Statements as the parser builds them (src/parser/parser_stmt.c:564-622, 1023-1184, 2532-2590).
`guard` stands for both `guard` and `unless`, `loop` for `while`, `for`, `loop`, `repeat` and range
loops (no condition: endless).  `decl x` declares a variable with a destructor, `val x k` one
without, `letMove y x` is `let y = x` for a type with a destructor.  `brkL` is a labelled break.
`retv` returns a value, `retMove` a variable with a destructor, `retSlice` an array literal as a
slice.  `attempt c` is an expression statement `e?`.  `goto`, `match`, `asm` are left out. -/
inductive Stmt where
  | act (a : Act)
  | decl (x : Name)
  | val (x : Name) (k : Nat)
  | letMove (y x : Name)
  | assign (x : Name)
  | defer (a : Act)
  | block (ss : Block)
  | ifS (c : Nat) (t : Stmt)
  | ifElse (c : Nat) (t e : Stmt)
  | guard (c : Nat) (b : Stmt)
  | loop (c : Option Nat) (b : Stmt)
  | doWhile (b : Stmt) (c : Nat)
  | brk
  | cont
  | brkL (l : Nat)
  | ret
  | retv (a : Act)
  | retMove (x : Name)
  | retSlice (a : Act)
  | attempt (c : Nat)
/-- statement lists -/
inductive Block where
  | nil
  | cons (s : Stmt) (ss : Block)
end

/-- C statements without inner structure.  `fresh x` is `int __z_drop_flag_x = 1; T x = ...;`,
`letMove y x` the same with `x` as initialiser followed by the invalidation of `x`, `move x` the
statement expression of `codegen_expression_with_move`, `zero x` the first half of
`return ({ ... _z_ret_mv = x; memset(&x, 0, ...);`, `dropIf x` the synthesised
`if (__z_drop_flag_x) T__Drop_glue(&x);`, `tryRet c` the `({ ...; if (!_try.is_ok) return ...; })`.
Several C statements printed together are one `Prim` where the printer can never separate them. -/
inductive Prim where
  | use (a : Nat) (xs : List Name)
  | move (x : Name)
  | fresh (x : Name)
  | num (x : Name) (k : Nat)
  | letMove (y x : Name)
  | assign (x : Name)
  | zero (x : Name)
  | dropIf (x : Name)
  | tryRet (c : Nat)
  | ret
  | retv (a : Act)
  | brk
  | cont
  | goto (l : Nat)
  deriving DecidableEq, Repr

/-- What is printed: braces, simple statements, and the heads of compound statements. -/
inductive CTok where
  | lb | rb
  | stm (p : Prim)
  | kif (neg : Bool) (c : Nat)
  | kelse
  | kwhile (c : Option Nat)
  | kdo
  | kwend (c : Nat)
  | label (l : Nat)
  deriving DecidableEq, Repr

/-- C text of an expression statement: src/codegen/codegen_utils.c:952-985. -/
def Act.prim : Act → Prim
  | .use a xs => .use a xs
  | .consume x => .move x

/-- An entry of `defer_stack` (src/codegen/codegen_utils.c:15): a statement of the program or the
destructor call synthesised for a variable. -/
inductive Cl where
  | act (a : Act)
  | drop (x : Name)
  deriving DecidableEq, Repr

/-- printing an entry of `defer_stack` -/
def Cl.tok : Cl → CTok
  | .act a => .stm a.prim
  | .drop x => .stm (.dropIf x)

/-- `MAX_DEFER`, src/codegen/codegen.h:97 -/
def maxDefer : Nat := 1024

/-- `MAX_LOOP_DEPTH`, src/codegen/codegen.h:98 -/
def maxLoopDepth : Nat := 64

/-- `if (defer_count < MAX_DEFER) defer_stack[defer_count++] = ...`,
src/codegen/codegen_stmt.c:841-846, 1012-1015.  The head of the list is the top of the stack. -/
def push (d : Cl) (ds : List Cl) : List Cl := if ds.length < maxDefer then d :: ds else ds

/-- `for (int i = defer_count - 1; i >= from; i--) codegen_node_single(ctx, defer_stack[i], out);` -/
def unwind (ds : List Cl) (n : Nat) : List CTok := (ds.take (ds.length - n)).map Cl.tok

mutual
/-- The printer, `codegen_node_single` (src/codegen/codegen_stmt.c:841-846 defer, 951-963 block,
964-1139 declarations, 1168-1243 if/unless/guard/loops, 1244-1281 break/continue, 1307-1318 do,
1558-1686 return; src/codegen/codegen.c:1302-1371 and 1401-1408 for `?`).  `ds` is `defer_stack`,
`bs` the live part of `loop_defer_boundary`, innermost first.  Result: the printed text and the
stack afterwards.  Statements inside `defer` contain no exits: parser_stmt.c:1027, 2538, 2569, 2759. -/
def emit : Stmt → List Cl → List Nat → List CTok × List Cl
  | .act a, ds, _ => ([.stm a.prim], ds)
  | .decl x, ds, _ => ([.stm (.fresh x)], push (.drop x) ds)
  | .val x k, ds, _ => ([.stm (.num x k)], ds)
  | .letMove y x, ds, _ => ([.stm (.letMove y x)], push (.drop y) ds)
  | .assign x, ds, _ => ([.stm (.assign x)], ds)
  | .defer a, ds, _ => ([], push (.act a) ds)
  | .block ss, ds, bs =>
    let r := emitL ss ds bs
    (.lb :: (r.1 ++ unwind r.2 ds.length ++ [.rb]), r.2.drop (r.2.length - ds.length))
  | .ifS c t, ds, bs =>
    let r := emit t ds bs
    (.kif false c :: r.1, r.2)
  | .ifElse c t e, ds, bs =>
    let r := emit t ds bs
    let q := emit e r.2 bs
    (.kif false c :: (r.1 ++ .kelse :: q.1), q.2)
  | .guard c b, ds, bs =>
    let r := emit b ds bs
    (.kif true c :: r.1, r.2)
  | .loop c b, ds, bs =>
    let r := emit b ds (ds.length :: bs)
    (.kwhile c :: r.1, r.2)
  | .doWhile b c, ds, bs =>
    let r := emit b ds (ds.length :: bs)
    (.kdo :: (r.1 ++ [.kwend c]), r.2)
  | .brk, ds, bs =>
    ((match bs with | b :: _ => unwind ds b | [] => []) ++ [.stm .brk], ds)
  | .cont, ds, bs =>
    ((match bs with | b :: _ => unwind ds b | [] => []) ++ [.stm .cont], ds)
  | .brkL l, ds, bs =>
    ((match bs with | b :: _ => unwind ds b | [] => []) ++ [.stm (.goto l)], ds)
  | .ret, ds, _ =>
    if 0 < ds.length then (unwind ds 0 ++ [.stm .ret], ds) else ([.stm .ret], ds)
  | .retv a, ds, _ =>
    if 0 < ds.length then (.lb :: .stm a.prim :: (unwind ds 0 ++ [.stm .ret, .rb]), ds)
    else ([.stm (.retv a)], ds)
  | .retMove x, ds, _ => (.lb :: .stm (.zero x) :: (unwind ds 0 ++ [.stm .ret, .rb]), ds)
  | .retSlice a, ds, _ => ([.lb, .stm a.prim, .stm .ret, .rb], ds)
  | .attempt c, ds, _ => ([.stm (.tryRet c)], ds)
/-- `codegen_walker`: every statement of a list -/
def emitL : Block → List Cl → List Nat → List CTok × List Cl
  | .nil, ds, _ => ([], ds)
  | .cons s ss, ds, bs =>
    let r := emit s ds bs
    let q := emitL ss r.2 bs
    (r.1 ++ q.1, q.2)
end

mutual
/-- the largest value of `loop_depth` while a statement is printed -/
def depth : Stmt → Nat
  | .block ss => depthL ss
  | .ifS _ t => depth t
  | .ifElse _ t e => max (depth t) (depth e)
  | .guard _ b => depth b
  | .loop _ b => depth b + 1
  | .doWhile b _ => depth b + 1
  | _ => 0
/-- the same for lists -/
def depthL : Block → Nat
  | .nil => 0
  | .cons s ss => max (depth s) (depthL ss)
end

/-- declarations of the parameters that have a destructor -/
def params : List Name → Block → Block
  | [], b => b
  | x :: xs, b => .cons (.decl x) (params xs b)

/-- A function: src/codegen/codegen_stmt.c:669, 775-822.  The flags of the parameters, the body (a
block), then what is left on the stack: the same text as for a block that declares the parameters
first. -/
def func (ps : List Name) (body : Block) : Stmt :=
  .block (params ps (.cons (.block body) .nil))

/-- The printed function, or `none` when `loop_defer_boundary[loop_depth++]` is written outside
its 64 entries (src/codegen/codegen_stmt.c:1193 and the other loops; there is no check). -/
def compile (f : Stmt) : Option (List CTok) :=
  if depth f ≤ maxLoopDepth then some (emit f [] []).1 else none

/-! ## C -/

mutual
/-- C statements -/
inductive CStmt where
  | prim (p : Prim)
  | block (ss : CBlock)
  | ifS (neg : Bool) (c : Nat) (t : CStmt)
  | ifElse (neg : Bool) (c : Nat) (t e : CStmt)
  | loop (c : Option Nat) (b : CStmt)
  | doWhile (b : CStmt) (c : Nat)
/-- C statement lists -/
inductive CBlock where
  | nil
  | cons (s : CStmt) (ss : CBlock)
end

mutual
/-- C grammar of statements (C11 6.8): the body of `if`, `else`, `while`, `do` is one statement;
`else` belongs to the nearest `if`.  The first argument bounds the recursion. -/
def parseS : Nat → List CTok → Option (CStmt × List CTok)
  | 0, _ => none
  | _ + 1, .stm p :: r => some (.prim p, r)
  | n + 1, .lb :: r => (parseL n r).map fun q => (.block q.1, q.2)
  | n + 1, .kif neg c :: r =>
    match parseS n r with
    | some (t, .kelse :: r') => (parseS n r').map fun q => (.ifElse neg c t q.1, q.2)
    | some (t, r') => some (.ifS neg c t, r')
    | none => none
  | n + 1, .kwhile c :: r => (parseS n r).map fun q => (.loop c q.1, q.2)
  | n + 1, .kdo :: r =>
    match parseS n r with
    | some (t, .kwend c :: r') => some (.doWhile t c, r')
    | _ => none
  | _ + 1, _ => none
/-- statements up to the closing brace -/
def parseL : Nat → List CTok → Option (CBlock × List CTok)
  | 0, _ => none
  | _ + 1, .rb :: r => some (.nil, r)
  | n + 1, ts =>
    match parseS n ts with
    | some (s, r) => (parseL n r).map fun q => (.cons s q.1, q.2)
    | none => none
end

/-- the C function body as the C compiler groups it -/
def parse (ts : List CTok) : Option CStmt :=
  match parseS (ts.length + 1) ts with
  | some (s, []) => some s
  | _ => none

abbrev Env := List (Name × Nat)

/-- innermost declaration of a name -/
def look (ρ : Env) (x : Name) : Option Nat := ρ.lookup x

/-- Memory: contents of the variables (numbered in the order of their creation), number of
variables and objects so far, number of conditions tested so far. -/
structure Sto where
  val : Nat → Val
  nc : Nat
  no : Nat
  k : Nat

/-- contents of a variable; unknown names do not compile and are given no value here -/
def Sto.get (s : Sto) (ρ : Env) (x : Name) : Val :=
  match look ρ x with
  | some c => s.val c
  | none => .gone

/-- change one entry of a table -/
def upd {α : Type} (f : Nat → α) (c : Nat) (v : α) : Nat → α := fun d => if d = c then v else f d

/-- assignment to a variable -/
def Sto.set (s : Sto) (ρ : Env) (x : Name) (v : Val) : Sto :=
  match look ρ x with
  | some c => { s with val := upd s.val c v }
  | none => s

/-- state of the C program: scopes, memory, drop flags -/
structure CSt where
  env : Env
  sto : Sto
  flag : Nat → Bool

/-- set the flag of a variable -/
def CSt.setFlag (σ : CSt) (x : Name) (b : Bool) : CSt :=
  match look σ.env x with
  | some c => { σ with flag := upd σ.flag c b }
  | none => σ

/-- evaluation of a condition: the `k`-th test of a run has outcome `orc k` -/
def testC (orc : Nat → Bool) (c : Nat) (s : Sto) : Bool × List Ev × Sto :=
  (orc s.k, [.test c (orc s.k)], { s with k := s.k + 1 })

/-- meaning of simple statements, C11 plus the texts cited at `Prim` -/
def runP (orc : Nat → Bool) : Prim → CSt → Out × List Ev × CSt
  | .use a xs, σ => (.norm, [.use a (xs.map (σ.sto.get σ.env))], σ)
  | .move x, σ =>
    (.norm, [.given (σ.sto.get σ.env x)],
      ({ σ with sto := σ.sto.set σ.env x .gone }).setFlag x false)
  | .fresh x, σ =>
    (.norm, [.new σ.sto.no],
      { env := (x, σ.sto.nc) :: σ.env
        sto := { σ.sto with
          val := upd σ.sto.val σ.sto.nc (.obj σ.sto.no), nc := σ.sto.nc + 1, no := σ.sto.no + 1 }
        flag := upd σ.flag σ.sto.nc true })
  | .num x k, σ =>
    (.norm, [],
      { env := (x, σ.sto.nc) :: σ.env
        sto := { σ.sto with val := upd σ.sto.val σ.sto.nc (.num k), nc := σ.sto.nc + 1 }
        flag := upd σ.flag σ.sto.nc false })
  | .letMove y x, σ =>
    let ρ := (y, σ.sto.nc) :: σ.env
    let s : Sto := { σ.sto with
      val := upd σ.sto.val σ.sto.nc (σ.sto.get ρ x), nc := σ.sto.nc + 1 }
    (.norm, [.moved (σ.sto.get ρ x)],
      ({ env := ρ, sto := s.set ρ x .gone, flag := upd σ.flag σ.sto.nc true } : CSt).setFlag x false)
  | .assign x, σ =>
    (.norm, [.new σ.sto.no],
      { σ with sto := { σ.sto.set σ.env x (.obj σ.sto.no) with no := σ.sto.no + 1 } })
  | .zero x, σ =>
    (.norm, [.given (σ.sto.get σ.env x)], { σ with sto := σ.sto.set σ.env x .gone })
  | .dropIf x, σ =>
    match look σ.env x with
    | some c => (.norm, if σ.flag c then [.drop (σ.sto.val c)] else [], σ)
    | none => (.norm, [], σ)
  | .tryRet c, σ =>
    let r := testC orc c σ.sto
    (if r.1 then .norm else .ret, r.2.1, { σ with sto := r.2.2 })
  | .ret, σ => (.ret, [], σ)
  | .retv (.use a xs), σ => (.ret, [.use a (xs.map (σ.sto.get σ.env))], σ)
  | .retv (.consume x), σ =>
    (.ret, [.given (σ.sto.get σ.env x)],
      ({ σ with sto := σ.sto.set σ.env x .gone }).setFlag x false)
  | .brk, σ => (.brk, [], σ)
  | .cont, σ => (.cont, [], σ)
  | .goto _, σ => (.cut, [], σ)

/-- A loop, in C as in Zen-C: at most `n` turns, then the run is cut. -/
def iter {σ : Type} (cond : σ → Bool × List Ev × σ) (body : σ → Out × List Ev × σ) :
    Nat → σ → Out × List Ev × σ
  | 0, s => (.cut, [], s)
  | n + 1, s =>
    let c := cond s
    if c.1 then
      let b := body c.2.2
      match b.1 with
      | .norm | .cont =>
        let r := iter cond body n b.2.2
        (r.1, c.2.1 ++ (b.2.1 ++ r.2.1), r.2.2)
      | .brk => (.norm, c.2.1 ++ b.2.1, b.2.2)
      | o => (o, c.2.1 ++ b.2.1, b.2.2)
    else (.norm, c.2.1, c.2.2)

/-- A loop that tests after its body. -/
def iterDo {σ : Type} (cond : σ → Bool × List Ev × σ) (body : σ → Out × List Ev × σ) :
    Nat → σ → Out × List Ev × σ
  | 0, s => (.cut, [], s)
  | n + 1, s =>
    let b := body s
    match b.1 with
    | .norm | .cont =>
      let c := cond b.2.2
      if c.1 then
        let r := iterDo cond body n c.2.2
        (r.1, b.2.1 ++ (c.2.1 ++ r.2.1), r.2.2)
      else (.norm, b.2.1 ++ c.2.1, c.2.2)
    | .brk => (.norm, b.2.1, b.2.2)
    | o => (o, b.2.1, b.2.2)

/-- an optional condition -/
def testO (orc : Nat → Bool) : Option Nat → Sto → Bool × List Ev × Sto
  | some c, s => testC orc c s
  | none, s => (true, [], s)

/-- a condition tested in a C state -/
def testS (orc : Nat → Bool) (c : Option Nat) (σ : CSt) : Bool × List Ev × CSt :=
  let r := testO orc c σ.sto
  (r.1, r.2.1, { σ with sto := r.2.2 })

mutual
/-- meaning of C statements; a block ends the life of the names declared in it -/
def runC (orc : Nat → Bool) (n : Nat) : CStmt → CSt → Out × List Ev × CSt
  | .prim p, σ => runP orc p σ
  | .block ss, σ =>
    let r := runCL orc n ss σ
    (r.1, r.2.1, { r.2.2 with env := σ.env })
  | .ifS neg c t, σ =>
    let b := testS orc (some c) σ
    if b.1 != neg then
      let r := runC orc n t b.2.2
      (r.1, b.2.1 ++ r.2.1, r.2.2)
    else (.norm, b.2.1, b.2.2)
  | .ifElse neg c t e, σ =>
    let b := testS orc (some c) σ
    if b.1 != neg then
      let r := runC orc n t b.2.2
      (r.1, b.2.1 ++ r.2.1, r.2.2)
    else
      let r := runC orc n e b.2.2
      (r.1, b.2.1 ++ r.2.1, r.2.2)
  | .loop c b, σ => iter (testS orc c) (runC orc n b) n σ
  | .doWhile b c, σ => iterDo (testS orc (some c)) (runC orc n b) n σ
/-- meaning of C statement lists -/
def runCL (orc : Nat → Bool) (n : Nat) : CBlock → CSt → Out × List Ev × CSt
  | .nil, σ => (.norm, [], σ)
  | .cons s ss, σ =>
    let r := runC orc n s σ
    match r.1 with
    | .norm =>
      let q := runCL orc n ss r.2.2
      (q.1, r.2.1 ++ q.2.1, q.2.2)
    | o => (o, r.2.1, r.2.2)
end

/-- before the function starts -/
def sto0 : Sto := ⟨fun _ => .gone, 0, 0, 0⟩

/-- before the function starts -/
def c0 : CSt := ⟨[], sto0, fun _ => false⟩

/-- What the C compiler makes of printed text: every `goto` needs its label. -/
def Linked (ts : List CTok) : Prop := ∀ l, .stm (.goto l) ∈ ts → .label l ∈ ts

/-! ## What the program should do -/

namespace Spec

/-- Something to be done when a scope is left: a deferred statement, with the variables that were
visible where it was written, or the destruction of a variable. -/
inductive Clean where
  | act (a : Act) (ρ : Env)
  | drop (c : Nat)
  deriving DecidableEq, Repr

/-- an expression statement -/
def act : Act → Env → Sto → List Ev × Sto
  | .use a xs, ρ, s => ([.use a (xs.map (s.get ρ))], s)
  | .consume x, ρ, s => ([.given (s.get ρ x)], s.set ρ x .gone)

/-- one cleanup: an object that is still there is destroyed, a moved one is not -/
def clean1 : Clean → Sto → List Ev × Sto
  | .act a ρ, s => act a ρ s
  | .drop c, s =>
    match s.val c with
    | .obj i => ([.drop (.obj i)], s)
    | _ => ([], s)

/-- cleanups, in the order of the list -/
def clean : List Clean → Sto → List Ev × Sto
  | [], s => ([], s)
  | k :: ks, s =>
    let r := clean1 k s
    let q := clean ks r.2
    (r.1 ++ q.1, q.2)

/-- what is known while a scope is executed: visible variables, cleanups registered in this scope
(latest first), memory -/
structure St where
  env : Env
  cl : List Clean
  sto : Sto

/-- Leaving a scope, in whatever way: its cleanups run once, latest first. -/
def leave (r : Out × List Ev × St) : Out × List Ev × Sto :=
  match r.1 with
  | .cut => (.cut, r.2.1, r.2.2.sto)
  | o =>
    let q := clean r.2.2.cl r.2.2.sto
    (o, r.2.1 ++ q.1, q.2)

/-- result of an inner scope seen from the scope around it -/
def back (σ : St) (r : Out × List Ev × Sto) : Out × List Ev × St :=
  (r.1, r.2.1, { σ with sto := r.2.2 })

mutual
/-- meaning of Zen-C statements; every body of a conditional or loop is a scope -/
def run (orc : Nat → Bool) (n : Nat) : Stmt → St → Out × List Ev × St
  | .act a, σ => (.norm, (act a σ.env σ.sto).1, { σ with sto := (act a σ.env σ.sto).2 })
  | .decl x, σ =>
    (.norm, [.new σ.sto.no],
      { env := (x, σ.sto.nc) :: σ.env
        cl := .drop σ.sto.nc :: σ.cl
        sto := { σ.sto with
          val := upd σ.sto.val σ.sto.nc (.obj σ.sto.no), nc := σ.sto.nc + 1, no := σ.sto.no + 1 } })
  | .val x k, σ =>
    (.norm, [],
      { env := (x, σ.sto.nc) :: σ.env
        cl := σ.cl
        sto := { σ.sto with val := upd σ.sto.val σ.sto.nc (.num k), nc := σ.sto.nc + 1 } })
  | .letMove y x, σ =>
    let v := σ.sto.get σ.env x
    let s : Sto := { σ.sto with val := upd σ.sto.val σ.sto.nc v, nc := σ.sto.nc + 1 }
    (.norm, [.moved v],
      { env := (y, σ.sto.nc) :: σ.env, cl := .drop σ.sto.nc :: σ.cl, sto := s.set σ.env x .gone })
  | .assign x, σ =>
    let d := match σ.sto.get σ.env x with
      | .obj i => [Ev.drop (.obj i)]
      | _ => []
    (.norm, .new σ.sto.no :: d,
      { σ with sto := { σ.sto.set σ.env x (.obj σ.sto.no) with no := σ.sto.no + 1 } })
  | .defer a, σ => (.norm, [], { σ with cl := .act a σ.env :: σ.cl })
  | .block ss, σ => back σ (leave (runL orc n ss { σ with cl := [] }))
  | .ifS c t, σ =>
    let b := testC orc c σ.sto
    if b.1 then
      let r := leave (run orc n t ⟨σ.env, [], b.2.2⟩)
      (r.1, b.2.1 ++ r.2.1, { σ with sto := r.2.2 })
    else (.norm, b.2.1, { σ with sto := b.2.2 })
  | .ifElse c t e, σ =>
    let b := testC orc c σ.sto
    if b.1 then
      let r := leave (run orc n t ⟨σ.env, [], b.2.2⟩)
      (r.1, b.2.1 ++ r.2.1, { σ with sto := r.2.2 })
    else
      let r := leave (run orc n e ⟨σ.env, [], b.2.2⟩)
      (r.1, b.2.1 ++ r.2.1, { σ with sto := r.2.2 })
  | .guard c t, σ =>
    let b := testC orc c σ.sto
    if b.1 then (.norm, b.2.1, { σ with sto := b.2.2 })
    else
      let r := leave (run orc n t ⟨σ.env, [], b.2.2⟩)
      (r.1, b.2.1 ++ r.2.1, { σ with sto := r.2.2 })
  | .loop c b, σ =>
    back σ (iter (testO orc c) (fun s => leave (run orc n b ⟨σ.env, [], s⟩)) n σ.sto)
  | .doWhile b c, σ =>
    back σ (iterDo (testC orc c) (fun s => leave (run orc n b ⟨σ.env, [], s⟩)) n σ.sto)
  | .brk, σ => (.brk, [], σ)
  | .cont, σ => (.cont, [], σ)
  | .brkL _, σ => (.brk, [], σ)
  | .ret, σ => (.ret, [], σ)
  | .retv a, σ => (.ret, (act a σ.env σ.sto).1, { σ with sto := (act a σ.env σ.sto).2 })
  | .retMove x, σ =>
    (.ret, [.given (σ.sto.get σ.env x)], { σ with sto := σ.sto.set σ.env x .gone })
  | .retSlice a, σ => (.ret, (act a σ.env σ.sto).1, { σ with sto := (act a σ.env σ.sto).2 })
  | .attempt c, σ =>
    let b := testC orc c σ.sto
    (if b.1 then .norm else .ret, b.2.1, { σ with sto := b.2.2 })
/-- meaning of statement lists -/
def runL (orc : Nat → Bool) (n : Nat) : Block → St → Out × List Ev × St
  | .nil, σ => (.norm, [], σ)
  | .cons s ss, σ =>
    let r := run orc n s σ
    match r.1 with
    | .norm =>
      let q := runL orc n ss r.2.2
      (q.1, r.2.1 ++ q.2.1, q.2.2)
    | o => (o, r.2.1, r.2.2)
end

/-- before the function starts -/
def s0 : St := ⟨[], [], sto0⟩

/-- Every object made is destroyed once or handed over once, never both, never twice. -/
def OnceEach (t : List Ev) : Prop :=
  ∀ i, .new i ∈ t → t.count (.drop (.obj i)) + t.count (.given (.obj i)) = 1

/-- no destructor runs for a variable that was moved out -/
def NoGhost (t : List Ev) : Prop := ∀ v, .drop v ∈ t → ∃ i, v = .obj i

end Spec

/-! ## Programs the printer handles -/

/-- variables mentioned by an expression statement -/
def Act.names : Act → List Name
  | .use _ xs => xs
  | .consume x => [x]

/-- variables mentioned by an entry of the stack -/
def Cl.names : Cl → List Name
  | .act a => a.names
  | .drop x => [x]

/-- Is the printed text of a statement one C statement?  Declarations, `defer`, and exits that
print deferred statements first are not. -/
def single : Stmt → List Cl → List Nat → Bool
  | .decl _, _, _ | .val _ _, _, _ | .letMove _ _, _, _ | .defer _, _, _ | .brkL _, _, _ => false
  | .brk, ds, bs | .cont, ds, bs => bs.head? == some ds.length
  | .ret, ds, _ => ds.isEmpty
  | _, _, _ => true

/-- a block -/
def Stmt.isBlock : Stmt → Bool
  | .block _ => true
  | _ => false

/-- no entry of the stack mentions `x` -/
def clear (x : Name) (ds : List Cl) : Bool := ds.all fun d => !d.names.contains x

mutual
/-- What the theorems assume of a program: bodies are printed as one C statement; `if` bodies are
blocks (the parser makes them so, parser_stmt.c:1113-1149); at most 1024 deferred statements are
live; a declaration does not hide a name that a live deferred statement or destructor mentions;
`?` and slice literals are returned only where nothing is deferred; no labelled break; no
assignment to variables with a destructor. -/
def ok : Stmt → List Cl → List Nat → Bool
  | .act _, _, _ => true
  | .decl x, ds, _ => clear x ds && ds.length < maxDefer
  | .val x _, ds, _ => clear x ds
  | .letMove y x, ds, _ => clear y ds && y != x && ds.length < maxDefer
  | .assign _, _, _ => false
  | .defer _, ds, _ => ds.length < maxDefer
  | .block ss, ds, bs => okL ss ds bs
  | .ifS _ t, ds, bs => t.isBlock && ok t ds bs
  | .ifElse _ t e, ds, bs => t.isBlock && ok t ds bs && single e ds bs && ok e ds bs
  | .guard _ b, ds, bs => single b ds bs && ok b ds bs
  | .loop _ b, ds, bs => single b ds (ds.length :: bs) && ok b ds (ds.length :: bs)
  | .doWhile b _, ds, bs => single b ds (ds.length :: bs) && ok b ds (ds.length :: bs)
  | .brk, _, bs | .cont, _, bs => !bs.isEmpty
  | .brkL _, _, _ => false
  | .ret, _, _ | .retv _, _, _ | .retMove _, _, _ => true
  | .retSlice _, ds, _ | .attempt _, ds, _ => ds.isEmpty
/-- the same for lists -/
def okL : Block → List Cl → List Nat → Bool
  | .nil, _, _ => true
  | .cons s ss, ds, bs => ok s ds bs && okL ss (emit s ds bs).2 bs
end

/-- the observable run of a function's C code: outcome and events, with at most `n` turns of each
loop -/
def behaviour (orc : Nat → Bool) (n : Nat) (f : Stmt) : Option (Out × List Ev) :=
  match compile f with
  | none => none
  | some ts =>
    match parse ts with
    | none => none
    | some s => some ((runC orc n s c0).1, (runC orc n s c0).2.1)

/-- the intended run of a function -/
def Spec.behaviour (orc : Nat → Bool) (n : Nat) (f : Stmt) : Out × List Ev :=
  ((Spec.run orc n f Spec.s0).1, (Spec.run orc n f Spec.s0).2.1)

end Verif.Defer
