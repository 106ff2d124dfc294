import Verif.Basic

/-!
# The C types of arrow lambdas

`x -> e`, `(a, b) -> e` and `x: T -> e` (`parse_arrow_lambda_single`, `parse_arrow_lambda_multi`, /repo/src/parser/parser_expr.c:7215-7377) have no written return type and perhaps no
types of parameters.  Types come from operators while the body is parsed (6877-6911), from the arguments of the first call and from the parameter a lambda is passed for
(`check_expr_call`, /repo/src/analysis/typecheck.c:588-640, run without errors in `check_moves_only` too, /repo/src/main.c:552-567), and the C function has them
(`emit_lambda_defs`, /repo/src/codegen/codegen_decl.c:343-387).

Simplified: numbers are integers and rationals, without overflow and rounding; of the operators there are `+`, `*` and `<`; a body is an expression, a block with one `return`, or a
block with other statements and a last `return`; the lambda is in a variable and called in the order of the source.
-/

namespace Verif.ArrowType

/-- The types of numbers: `int` and `double` (`TYPE_INT`, `TYPE_F64`, /repo/src/ast/ast.h:40-77); `none` of `Option Ty` is `TYPE_UNKNOWN`. -/
inductive Ty where
  | int
  | dbl
  deriving DecidableEq, Repr

/-- values of C -/
inductive Val where
  | int (n : Int)
  | dbl (r : Rat)
  deriving DecidableEq

/-- the type of a value -/
def Val.ty : Val → Ty
  | .int _ => .int
  | .dbl _ => .dbl

/-- The operators that are kept (/repo/src/parser/parser_expr.c:6913, 7130-7136). -/
inductive Op where
  | add
  | mul
  | lt
  deriving DecidableEq, Repr

/-- Bodies: parameters by their number, literals, operators (/repo/src/ast/ast.h:120-170). -/
inductive E where
  | x (i : Nat)
  | n (v : Int)
  | q (v : Rat)
  | bin (o : Op) (a b : E)
  deriving DecidableEq

/-- `type == NODE_EXPR_VAR` (/repo/src/parser/parser_expr.c:6880, 6899) -/
def E.isVar : E → Bool
  | .x _ => true
  | _ => false

/-- The type of an operation: `int` for comparisons (/repo/src/parser/parser_expr.c:6913-6915), that of the left operand if one is unknown or they are equal (6986-6990), else the
floating one (7137-7145). -/
def binTy : Op → Option Ty → Option Ty → Option Ty
  | .lt, _, _ => some .int
  | _, none, _ => none
  | _, some a, none => some a
  | _, some a, some b => if a = b then some a else some .dbl

/-- Parsing the body of a lambda with one parameter: the type of the parameter so far, and after it with the type of the expression.  A parameter of unknown type gets the type of the
other operand (/repo/src/parser/parser_expr.c:6877-6911). -/
def infer : Option Ty → E → Option Ty × Option Ty
  | s, .x _ => (s, s)
  | s, .n _ => (s, some .int)
  | s, .q _ => (s, some .dbl)
  | s, .bin o a b =>
    let ra := infer s a
    let rb := infer ra.1 b
    match ra.2, rb.2 with
    | none, some t => if a.isVar then (some t, binTy o (some t) (some t)) else (rb.1, binTy o none (some t))
    | some t, none => if b.isVar then (some t, binTy o (some t) (some t)) else (rb.1, binTy o (some t) none)
    | ta, tb => (rb.1, binTy o ta tb)

/-- Bodies of lambdas: `-> e` or `-> { return e; }`, `-> { ...; return e; }`, `-> { return; }`. -/
inductive Body where
  | simple (e : E)
  | long (e : E)
  | bare
  deriving DecidableEq

/-- Lambdas: with one parameter without a type, or with a list of parameters with or without types; `x: T -> e` is of the second kind
(/repo/src/parser/parser_expr.c:1980-1999). -/
inductive Lam where
  | single (b : Body)
  | multi (ps : List (Option Ty)) (b : Body)
  deriving DecidableEq

/-- The type of a lambda behind its parser: parameters and result.  With one parameter the result is `int` unless there is one `return` with a known type
(/repo/src/parser/parser_expr.c:7229-7299); the test reads the returned value through `NULL` for `return;` (7262-7263).  With a list it is `int` (7318-7337). -/
def parse : Lam → Res (List (Option Ty) × Ty)
  | .single (.simple e) => .ok ([(infer none e).1], ((infer none e).2).getD .int)
  | .single (.long e) => .ok ([(infer none e).1], .int)
  | .single .bare => .ub
  | .multi ps _ => .ok (ps, .int)

/-- C conversion of an argument or a returned value (C11 6.3.1.4); a `double` is cut towards 0. -/
def conv : Ty → Val → Val
  | .int, .dbl r => .int (r.num.tdiv r.den)
  | .dbl, .int n => .dbl n
  | _, v => v

/-- Operators of C on numbers (C11 6.3.1.8, 6.5.6, 6.5.5, 6.5.8). -/
def arith : Op → Val → Val → Val
  | .add, .int a, .int b => .int (a + b)
  | .mul, .int a, .int b => .int (a * b)
  | .lt, .int a, .int b => .int (if a < b then 1 else 0)
  | .add, .int a, .dbl b => .dbl (a + b)
  | .mul, .int a, .dbl b => .dbl (a * b)
  | .lt, .int a, .dbl b => .int (if (a : Rat) < b then 1 else 0)
  | .add, .dbl a, .int b => .dbl (a + b)
  | .mul, .dbl a, .int b => .dbl (a * b)
  | .lt, .dbl a, .int b => .int (if a < (b : Rat) then 1 else 0)
  | .add, .dbl a, .dbl b => .dbl (a + b)
  | .mul, .dbl a, .dbl b => .dbl (a * b)
  | .lt, .dbl a, .dbl b => .int (if a < b then 1 else 0)

/-- The value of an expression for given arguments. -/
def eval (as : List Val) : E → Val
  | .x i => as.getD i (.int 0)
  | .n v => .int v
  | .q v => .dbl v
  | .bin o a b => arith o (eval as a) (eval as b)

/-- the returned expression -/
def Body.expr : Body → Option E
  | .simple e => some e
  | .long e => some e
  | .bare => none

/-- the body of a lambda -/
def Lam.body : Lam → Body
  | .single b => b
  | .multi _ b => b

/-- The types of the parameters behind the check of a call: unknown ones become those of the arguments, `*expected = *actual` (/repo/src/analysis/typecheck.c:632-635); other
differences are errors of the type checker that are not reported by default. -/
def fill : List (Option Ty) → List Ty → List (Option Ty)
  | p :: ps, a :: as => some (p.getD a) :: fill ps as
  | ps, _ => ps

/-- The check of all calls in order. -/
def fillAll (ps : List (Option Ty)) (calls : List (List Val)) : List (Option Ty) :=
  calls.foldl (fun ps as => fill ps (as.map Val.ty)) ps

/-- Arguments as the C function gets them: converted to the types in the pointer by which it is called (/repo/src/codegen/codegen.c:730-772), the same as in its
definition (/repo/src/codegen/codegen_decl.c:365-377). -/
def passArgs : List (Option Ty) → List Val → List Val
  | some t :: ps, a :: as => conv t a :: passArgs ps as
  | none :: ps, a :: as => a :: passArgs ps as
  | [], as => as
  | _, [] => []

/-- All calls of a lambda in a variable: what they return. -/
def callAll (l : Lam) (calls : List (List Val)) : Res (List Val) := do
  let t ← parse l
  match l.body.expr with
  | none => .ok []
  | some e => .ok (calls.map fun as => conv t.2 (eval (passArgs (fillAll t.1 calls) as) e))

/-- A lambda passed for a parameter of type `fn(ps) -> r` and called there: unknown types of its parameters become those of `ps` (/repo/src/analysis/typecheck.c:601-611), its result is
never unknown (612-616).  It is called by a pointer of type `r (*)(void *, ps)` (/repo/src/codegen/codegen.c:730-772): undefined if the types are not those of the C function
(C11 6.3.2.3p8). -/
def callPassed (l : Lam) (ps : List Ty) (r : Ty) (as : List Val) : Res Val := do
  let t ← parse l
  match l.body.expr with
  | none => .ub
  | some e =>
    if fill t.1 ps = ps.map some ∧ t.2 = r then .ok (conv r (eval (passArgs (ps.map some) as) e)) else .ub

namespace Spec

/-- what a lambda is to return -/
def results (e : E) (calls : List (List Val)) : List Val := calls.map fun as => eval as e

/-- the number a value stands for -/
def number : Val → Rat
  | .int n => n
  | .dbl r => r

/-- Only integers in a body. -/
def IntOnly : E → Prop
  | .x _ => True
  | .n _ => True
  | .q _ => False
  | .bin _ a b => IntOnly a ∧ IntOnly b

/-- The parameter is always next to something whose type can be seen. -/
inductive Direct : E → Prop where
  | n (v : Int) : Direct (.n v)
  | q (v : Rat) : Direct (.q v)
  | xl (o : Op) {a : E} : Direct a → Direct (.bin o (.x 0) a)
  | lx (o : Op) {a : E} : Direct a → Direct (.bin o a (.x 0))
  | both (o : Op) {a b : E} : Direct a → Direct b → Direct (.bin o a b)

end Spec

end Verif.ArrowType
