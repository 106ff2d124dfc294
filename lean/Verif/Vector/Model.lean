import Verif.Basic

/-!
# Values of vector types

`@vector(N) struct V { v: T; }` (/repo/src/parser/parser_core.c:206-223, 656-660) is a vector of `N` lanes.  `V{v: e}` is documented to put the value of `e` into
all lanes, `V{e0, e1, ...}` to put one value into each (/repo/README.md:351-363, /repo/docs/std/simd.md).  Modelled: when the parser takes `V{...}` for such a value
(/repo/src/parser/parser_expr.c:2451-2530), what it reads (2639-2725), what the checker says about it (`check_struct_init`, /repo/src/analysis/typecheck.c:1007-1071),
what is printed (/repo/src/codegen/codegen.c:1690-1745), and indexing (1104-1126).

Simplified: lanes are integers; the expressions between the braces are numbers, variables, a sum, a negation and a call that counts; that `parse_expression` reads an
expression as it was written is taken for granted.  C leaves open in which order an initialiser's expressions are evaluated (ISO C 6.7.9p23); here from left to right.
-/

namespace Verif.Vector

/-- Expressions (/repo/src/ast/ast.h); `tick` calls a function that returns how often it was called before. -/
inductive E where
  | num (n : Nat)
  | var (x : String)
  | neg (e : E)
  | add (a b : E)
  | tick
  deriving DecidableEq, Repr

/-- Tokens (/repo/src/zprep.h), as far as they are needed. -/
inductive Tok where
  | ident (s : String)
  | int (n : Nat)
  | minus | plus | lparen | rparen | colon | comma | rbrace
  deriving DecidableEq, Repr

/-- A literal as it is written: `V{x: e, ...}` or `V{e, ...}`. -/
inductive Lit where
  | named (fs : List (String × E))
  | pos (es : List E)
  deriving DecidableEq, Repr

/-- The tokens of an expression; a negation is written `-(e)`. -/
def E.toks : E → List Tok
  | .num n => [.int n]
  | .var x => [.ident x]
  | .neg e => [.minus, .lparen] ++ e.toks ++ [.rparen]
  | .add a b => a.toks ++ [.plus] ++ b.toks
  | .tick => [.ident "tick", .lparen, .rparen]

/-- Items with commas between them, and the closing brace. -/
def items : List (List Tok) → List Tok
  | [] => [.rbrace]
  | [a] => a ++ [.rbrace]
  | a :: b :: r => a ++ [.comma] ++ items (b :: r)

/-- The tokens behind the opening brace. -/
def Lit.toks : Lit → List Tok
  | .named fs => items (fs.map fun f => [.ident f.1, .colon] ++ f.2.toks)
  | .pos es => items (es.map E.toks)

/-- Is this the value of a vector type?  `acc` names a vector type (/repo/src/parser/parser_expr.c:2451-2530): `}` follows, or a name and a colon, or something that
is no name. -/
def isInit : List Tok → Bool
  | .rbrace :: _ => true
  | .ident _ :: .colon :: _ => true
  | .ident _ :: _ => false
  | _ => true

/-- `is_vector_init` (/repo/src/parser/parser_expr.c:2639-2657). -/
def positional : List Tok → Bool
  | .rbrace :: _ => false
  | _ :: .colon :: _ => false
  | _ => true

/-- `_v0`, `_v1`, ... (/repo/src/parser/parser_expr.c:2675-2679). -/
def number : Nat → List E → List (String × E)
  | _, [] => []
  | i, e :: r => ("_v" ++ toString i, e) :: number (i + 1) r

/-- What is read (/repo/src/parser/parser_expr.c:2512-2530, 2639-2725).  `none`: it is not taken for a value, or something else than a name and a colon is found
where they must be. -/
def read (l : Lit) : Option (List (String × E)) :=
  if isInit l.toks then
    match positional l.toks, l with
    | true, .pos es => some (number 0 es)
    | false, .named fs => some fs
    | false, .pos [] => some []
    | true, .named [] => some []
    | _, _ => none
  else none

/-- `check_struct_init` (/repo/src/analysis/typecheck.c:1019-1049), run with `--typecheck` and `zc check` only (/repo/src/main.c:552-565): every name must be the one
of the only field, `v`.  Types are left out. -/
def checked (v : String) (fs : List (String × E)) : Bool := fs.all fun f => f.1 == v

/-- The expressions that are printed between the braces (/repo/src/codegen/codegen.c:1700-1739). -/
def gen (lanes : Nat) : List (String × E) → List E
  | [] => []
  | [f] => List.replicate lanes f.2
  | fs => fs.map (·.2)

/-- The type of the lanes: their bits, and whether they have a sign. -/
structure Lane where
  bits : Nat
  signed : Bool

/-- A number as the lanes hold it (ISO C 6.3.1.3; for signed ones as gcc and clang do it). -/
def Lane.conv (t : Lane) (n : Int) : Int :=
  if t.signed then Int.bmod n (2 ^ t.bits) else n % (2 ^ t.bits : Nat)

/-- Evaluation: the value and how often `tick` was called so far. -/
def E.eval (env : String → Int) : E → Nat → Int × Nat
  | .num n, k => (n, k)
  | .var x, k => (env x, k)
  | .neg e, k => let r := e.eval env k; (-r.1, r.2)
  | .add a b, k => let r := a.eval env k; let q := b.eval env r.2; (r.1 + q.1, q.2)
  | .tick, k => (k, k + 1)

/-- The expressions of an initialiser, from left to right. -/
def evals (env : String → Int) (t : Lane) : List E → Nat → List Int × Nat
  | [], k => ([], k)
  | e :: r, k => let v := e.eval env k; let q := evals env t r v.2; (t.conv v.1 :: q.1, q.2)

/-- `(V){e, ...}`: lanes without an expression are 0 (ISO C 6.7.9p21), more expressions than lanes are an error (6.7.9p2). -/
def init (env : String → Int) (t : Lane) (lanes : Nat) (es : List E) (k : Nat) : Option (List Int × Nat) :=
  if es.length ≤ lanes then
    let r := evals env t es k
    some (r.1 ++ List.replicate (lanes - es.length) 0, r.2)
  else none

/-- A literal, from its text to its value. -/
def run (env : String → Int) (t : Lane) (lanes : Nat) (l : Lit) (k : Nat) : Option (List Int × Nat) :=
  (read l).bind fun fs => init env t lanes (gen lanes fs) k

/-- The type that the parser gives to something that is indexed (/repo/src/ast/ast.h): arrays have their size; a vector is `TYPE_STRUCT` with a name, from the literal
(/repo/src/parser/parser_expr.c:2632) as from a declared type (/repo/src/parser/parser_type.c:553). -/
inductive Ty where
  | array (n : Nat)
  | struct
  deriving DecidableEq, Repr

/-- `a[i]` (/repo/src/codegen/codegen.c:1104-1126; `_z_check_bounds`, /repo/src/codegen/codegen_decl.c:1209): with a size that is known there is a test. -/
def index (t : Ty) (v : List Int) (i : Int) : Res Int :=
  let get : Res Int := if 0 ≤ i ∧ i < v.length then .ok (v.getD i.toNat 0) else .ub
  match t with
  | .array n => if 0 < n then (if i < 0 ∨ i ≥ n then .panic else get) else get
  | .struct => get

namespace Spec

/-- the text of the expression begins with a name -/
def beginsWithName : E → Prop
  | .var _ => True
  | .tick => True
  | .add a _ => beginsWithName a
  | _ => False

/-- the expression has no effect -/
def pure : E → Prop
  | .neg e => pure e
  | .add a b => pure a ∧ pure b
  | .tick => False
  | _ => True

/-- how often `tick` was called before the `i`-th expression -/
def before (env : String → Int) (es : List E) (i k : Nat) : Nat :=
  (es.take i).foldl (fun k (e : E) => (e.eval env k).2) k

/-- one value in all lanes, evaluated once -/
def Broadcast (env : String → Int) (t : Lane) (lanes : Nat) (e : E) (k : Nat) (r : List Int × Nat) : Prop :=
  r.1.length = lanes ∧ (∀ x ∈ r.1, x = t.conv (e.eval env k).1) ∧ r.2 = (e.eval env k).2

/-- each expression in its lane, evaluated once, in turn; 0 in the others -/
def PerLane (env : String → Int) (t : Lane) (lanes : Nat) (es : List E) (k : Nat) (r : List Int × Nat) : Prop :=
  r.1.length = lanes ∧
    (∀ i (e : E), es[i]? = some e → r.1[i]? = some (t.conv (e.eval env (before env es i k)).1)) ∧
    (∀ i, es.length ≤ i → i < lanes → r.1[i]? = some 0) ∧
    r.2 = before env es es.length k

end Spec

end Verif.Vector
