import Verif.Basic

/-!
# Model of `if` in expressions

`codegen_expression`, case `NODE_IF` (src/codegen/codegen.c:1219-1301): a C statement expression with a variable `_ifval` whose type is `__typeof__` of the last
expression of the first branch, written in front of the branch; the statements of the branches are written by `codegen_node_single`
(src/codegen/codegen_stmt.c), which keeps `defer` on a stack of the function around (841-846).

Simplified: types are signed integers of four widths, arithmetic wraps; statements are `let`, assignments, `defer` of an expression, and expressions; both branches are
there (src/parser/parser_expr.c:1720-1762); what the C compiler rejects has no result (`none`) when it is reached.
-/

namespace Verif.IfExpr

/-- Signed integers. -/
inductive Ty where
  | i8 | i16 | i32 | i64
  deriving DecidableEq, Repr

/-- Number of values. -/
def Ty.size : Ty → Int
  | .i8 => 256
  | .i16 => 65536
  | .i32 => 4294967296
  | .i64 => 18446744073709551616

/-- The conversion of C to a signed type. -/
def wrap (t : Ty) (n : Int) : Int := (n + t.size / 2) % t.size - t.size / 2

/-- A value with its type. -/
structure Val where
  ty : Ty
  n : Int
  deriving DecidableEq, Repr

/-- A number as a value of a type. -/
def conv (t : Ty) (n : Int) : Val := ⟨t, wrap t n⟩

/-- The type of a sum (integer promotions and usual conversions). -/
def join : Ty → Ty → Ty
  | .i64, _ => .i64
  | _, .i64 => .i64
  | _, _ => .i32

mutual
/-- Expressions: numbers, variables, sums, `log(e)` (which prints its argument and returns it), `if`, and a string literal, which at the end of
a block is a statement that prints it (src/parser/parser_stmt.c:2259-2310). -/
inductive Expr where
  | lit (t : Ty) (n : Int)
  | var (x : Nat)
  | add (a b : Expr)
  | log (a : Expr)
  | str
  | ifE (c : Expr) (ts : Stmts) (t : Expr) (es : Stmts) (e : Expr)
/-- Statements of a block. -/
inductive Stmts where
  | nil
  | letS (x : Nat) (e : Expr) (r : Stmts)
  | assign (x : Nat) (e : Expr) (r : Stmts)
  | deferS (e : Expr) (r : Stmts)
  | exprS (e : Expr) (r : Stmts)
end

/-- Variables in scope, the newest first, and what was printed. -/
structure St where
  env : List (Nat × Val)
  out : List Int
  deriving DecidableEq, Repr

/-- Assign to the newest variable of a name; the value is converted to its type. -/
def set (x : Nat) (n : Int) : List (Nat × Val) → Option (List (Nat × Val))
  | [] => none
  | (y, v) :: r => if y = x then some ((y, conv v.ty n) :: r) else (set x n r).map ((y, v) :: ·)

/-- The end of a block: variables declared in it are gone. -/
def leave (k : Nat) (s : St) : St := { s with env := s.env.drop (s.env.length - k) }

/-- Types of the variables. -/
def tys (env : List (Nat × Val)) : List (Nat × Ty) := env.map fun x => (x.1, x.2.ty)

/-- `__typeof__` where these variables are declared; of a statement expression with `_ifval` the type of that; of a statement there is none. -/
def typeOf (G : List (Nat × Ty)) : Expr → Option Ty
  | .lit t _ => some t
  | .var x => G.lookup x
  | .add a b => do
    let s ← typeOf G a
    let t ← typeOf G b
    some (join s t)
  | .log _ => some .i32
  | .str => none
  | .ifE _ _ t _ _ => typeOf G t

mutual
/-- The C code of an expression (codegen.c:1219-1301). -/
def evalC : Expr → St → Option (Val × St)
  | .lit t n, s => some (conv t n, s)
  | .var x, s => (s.env.lookup x).map fun v => (v, s)
  | .add a b, s => do
    let (v, s) ← evalC a s
    let (w, s) ← evalC b s
    some (conv (join v.ty w.ty) (v.n + w.n), s)
  | .log a, s => do
    let (v, s) ← evalC a s
    some (conv .i32 v.n, { s with out := s.out ++ [wrap .i32 v.n] })
  | .str, _ => none
  | .ifE c ts t es e, s => do
    let ty ← typeOf (tys s.env) t
    let (v, s) ← evalC c s
    let (w, s') ← if v.n ≠ 0 then blockC ts (evalC t) s else blockC es (evalC e) s
    some (conv ty w.n, leave s.env.length s')
/-- The C code of statements, with what follows them; a `defer` is not written here. -/
def blockC {α : Type} : Stmts → (St → Option (α × St)) → St → Option (α × St)
  | .nil, k, s => k s
  | .letS x e r, k, s => do
    let (v, s) ← evalC e s
    blockC r k { s with env := (x, v) :: s.env }
  | .assign x e r, k, s => do
    let (v, s) ← evalC e s
    let env ← set x v.n s.env
    blockC r k { s with env := env }
  | .deferS _ r, k, s => blockC r k s
  | .exprS e r, k, s => do
    let (_, s) ← evalC e s
    blockC r k s
end

mutual
/-- What is left on the stack of `defer` after an expression was written; the end of the first branch is written twice. -/
def pending : Expr → List Expr
  | .lit _ _ => []
  | .var _ => []
  | .add a b => pending a ++ pending b
  | .log a => pending a
  | .str => []
  | .ifE c ts t es e => pending t ++ (pending c ++ (pendings ts ++ (pending t ++ (pendings es ++ pending e))))
/-- The same of statements. -/
def pendings : Stmts → List Expr
  | .nil => []
  | .letS _ e r => pending e ++ pendings r
  | .assign _ e r => pending e ++ pendings r
  | .deferS e r => e :: pendings r
  | .exprS e r => pending e ++ pendings r
end

/-- The body of a function: the statements, then the stack of `defer`, the newest first (src/codegen/codegen_decl.c, codegen_stmt.c:841-846). -/
def runC (b : Stmts) (s : St) : Option St := do
  let (_, s) ← blockC b (fun s => some ((), s)) s
  (pendings b).reverse.foldlM (fun s e => (evalC e s).map (·.2)) s

/-! ## specification -/

namespace Spec

mutual
/-- The value of an expression: that of an `if` is the last value of the branch taken, and what was deferred in the branch is done at its end. -/
def eval : Expr → St → Option (Val × St)
  | .lit t n, s => some (conv t n, s)
  | .var x, s => (s.env.lookup x).map fun v => (v, s)
  | .add a b, s => do
    let (v, s) ← eval a s
    let (w, s) ← eval b s
    some (conv (join v.ty w.ty) (v.n + w.n), s)
  | .log a, s => do
    let (v, s) ← eval a s
    some (conv .i32 v.n, { s with out := s.out ++ [wrap .i32 v.n] })
  | .str, s => some (⟨.i64, 0⟩, s)
  | .ifE c ts t es e, s => do
    let (v, s) ← eval c s
    let (w, s') ← if v.n ≠ 0 then block ts (eval t) s else block es (eval e) s
    some (w, leave s.env.length s')
/-- Statements, with what follows them in their block. -/
def block {α : Type} : Stmts → (St → Option (α × St)) → St → Option (α × St)
  | .nil, k, s => k s
  | .letS x e r, k, s => do
    let (v, s) ← eval e s
    block r k { s with env := (x, v) :: s.env }
  | .assign x e r, k, s => do
    let (v, s) ← eval e s
    let env ← set x v.n s.env
    block r k { s with env := env }
  | .deferS e r, k, s => do
    let (a, s) ← block r k s
    let (_, s) ← eval e s
    some (a, s)
  | .exprS e r, k, s => do
    let (_, s) ← eval e s
    block r k s
end

/-- The body of a function. -/
def run (b : Stmts) (s : St) : Option St := (block b (fun s => some ((), s)) s).map (·.2)

/-- No `defer` among statements. -/
def noDefer : Stmts → Bool
  | .nil => true
  | .letS _ _ r => noDefer r
  | .assign _ _ r => noDefer r
  | .deferS _ _ => false
  | .exprS _ r => noDefer r

mutual
/-- Expressions for which the C code is right, with their type: both branches of an `if` end with the same type, which is also that of the end of the first one
where the branch begins; nothing is deferred in them. -/
def check (G : List (Nat × Ty)) : Expr → Option Ty
  | .lit t _ => some t
  | .var x => G.lookup x
  | .add a b => do
    let s ← check G a
    let t ← check G b
    some (join s t)
  | .log a => do
    let _ ← check G a
    some .i32
  | .str => none
  | .ifE c ts t es e => do
    let _ ← check G c
    let G1 ← checks G ts
    let t1 ← check G1 t
    let G2 ← checks G es
    let t2 ← check G2 e
    if typeOf G t = some t1 ∧ t1 = t2 ∧ noDefer ts = true ∧ noDefer es = true then some t1 else none
/-- Statements, with the variables behind them. -/
def checks (G : List (Nat × Ty)) : Stmts → Option (List (Nat × Ty))
  | .nil => some G
  | .letS x e r => do
    let t ← check G e
    checks ((x, t) :: G) r
  | .assign x e r => do
    let _ ← check G e
    let _ ← G.lookup x
    checks G r
  | .deferS _ r => checks G r
  | .exprS e r => do
    let _ ← check G e
    checks G r
end

/-- The expressions deferred by the statements of a block. -/
def deferred : Stmts → List Expr
  | .nil => []
  | .letS _ _ r => deferred r
  | .assign _ _ r => deferred r
  | .deferS e r => e :: deferred r
  | .exprS _ r => deferred r

end Spec
end Verif.IfExpr
