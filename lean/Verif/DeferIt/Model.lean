/-!
# The `defer` that belongs to a declaration

`let f = open(name) defer close(it);` declares `f` and has `close(f)` run when the scope is
left: `it` stands for the variable just declared.  A `defer` that is a statement of its own has
no such `it`.  Modelled: the end of the parser of declarations, which decides whether a `defer`
belongs to the declaration before it, the replacement of `it`, and the parser of `defer`
statements as far as they take the same input.

Simplified: the type, the initialiser and the attributes of the declaration are left out (the
initialiser is one expression); numbers stand for values.  How a method call on a variable of
unknown type is resolved is not modelled here.
-/

namespace Verif.DeferIt

/-- Expressions as parsed (/repo/src/ast/ast.h:136-171).  `other` stands for the remaining kinds of
expression that hold parts (struct and array initialisers, slices, lambdas). -/
inductive Ex where
  /-- `NODE_EXPR_VAR` -/
  | var (n : String)
  /-- `NODE_EXPR_LITERAL`, a number -/
  | num (v : Int)
  /-- `NODE_EXPR_LITERAL`, a string -/
  | str (s : String)
  /-- `NODE_EXPR_CALL` -/
  | call (f : Ex) (args : List Ex)
  /-- `NODE_EXPR_MEMBER` -/
  | member (e : Ex) (field : String)
  /-- `NODE_EXPR_BINARY` -/
  | bin (op : String) (l r : Ex)
  /-- `NODE_EXPR_UNARY` -/
  | un (op : String) (e : Ex)
  /-- `NODE_EXPR_INDEX` -/
  | index (e i : Ex)
  /-- `NODE_EXPR_CAST` -/
  | cast (ty : String) (e : Ex)
  /-- `NODE_TERNARY` -/
  | tern (c t e : Ex)
  | other (kind : String) (parts : List Ex)

mutual

/-- `replace_it_with_var` (/repo/src/parser/parser_decl.c:277-322): variables, calls, members,
binary and unary operators are entered, all other kinds of expression are left as they are.  (The
branch for blocks is never taken from the one caller, which passes an expression.) -/
def replace (x : String) : Ex → Ex
  | .var n => if n = "it" then .var x else .var n
  | .call f args => .call (replace x f) (replaceAll x args)
  | .member e fd => .member (replace x e) fd
  | .bin op l r => .bin op (replace x l) (replace x r)
  | .un op e => .un op (replace x e)
  | e => e

/-- The loop over the arguments (/repo/src/parser/parser_decl.c:294-299). -/
def replaceAll (x : String) : List Ex → List Ex
  | [] => []
  | e :: es => replace x e :: replaceAll x es

end

/-- What is written in a block, one item per token or phrase that matters here.  `print` is the
statement that consists of a string and prints it. -/
inductive Item where
  /-- `let x = e`, without the semicolon. -/
  | decl (x : String) (e : Ex)
  | semi
  /-- `defer e` where what follows `defer` is no block. -/
  | deferE (e : Ex)
  /-- `defer { … }` -/
  | deferB (body : List Ex)
  /-- Any other expression statement. -/
  | expr (e : Ex)

/-- Statements of the tree. -/
inductive St where
  | decl (x : String) (e : Ex)
  /-- What a deferred single statement became: an expression, or the printing of a string. -/
  | deferE (e : Ex)
  | deferPrint (s : String)
  | deferB (body : List Ex)
  | expr (e : Ex)
  | print (s : String)

/-- An expression where a statement is expected: a string followed by a semicolon, `..` or a
closing brace is printed (/repo/src/parser/parser_stmt.c:2257-2318), everything else is an
expression statement.  (Each expression here is followed by a semicolon or the end of the block;
`..` is left out.) -/
def stmt : Ex → St
  | .str s => .print s
  | e => .expr e

/-- The statement of `parse_defer` (/repo/src/parser/parser_stmt.c:598-622) when no block
follows. -/
def deferStmt : Ex → St
  | .str s => .deferPrint s
  | e => .deferE e

/-- `parse_block` over the items: the loop of statements (/repo/src/parser/parser_stmt.c:2975-3025),
stray semicolons being skipped; a declaration (/repo/src/parser/parser_decl.c:743-746, 786-816) eats
its semicolon if there is one and then takes a following `defer` that is no block, which is parsed
as an expression, and a semicolon after it. -/
def parse : List Item → List St
  | [] => []
  | .decl x e :: .semi :: .deferE d :: is => .decl x e :: .deferE (replace x d) :: parse is
  | .decl x e :: .deferE d :: is => .decl x e :: .deferE (replace x d) :: parse is
  | .decl x e :: is => .decl x e :: parse is
  | .semi :: is => parse is
  | .deferE d :: is => deferStmt d :: parse is
  | .deferB b :: is => .deferB b :: parse is
  | .expr e :: is => stmt e :: parse is

/-! ## What the tree does

Values and the meaning of operators are parameters; an evaluation yields a value and what it has
done, a list of calls in order. -/

/-- The world an expression is evaluated in: the meaning of the operators, and of calls. -/
structure World (V : Type) where
  num : Int → V
  str : String → V
  member : V → String → V
  bin : String → V → V → V
  un : String → V → V
  index : V → V → V
  cast : String → V → V
  truth : V → Bool
  other : String → List V → V
  result : V → List V → V

mutual

/-- Value of an expression and the calls made. -/
def eval {V : Type} (w : World V) (env : String → V) : Ex → V × List (V × List V)
  | .var n => (env n, [])
  | .num v => (w.num v, [])
  | .str s => (w.str s, [])
  | .call f args =>
      let rf := eval w env f
      let ra := evalAll w env args
      (w.result rf.1 ra.1, rf.2 ++ ra.2 ++ [(rf.1, ra.1)])
  | .member e fd => ((w.member (eval w env e).1 fd), (eval w env e).2)
  | .bin op l r => (w.bin op (eval w env l).1 (eval w env r).1, (eval w env l).2 ++ (eval w env r).2)
  | .un op e => (w.un op (eval w env e).1, (eval w env e).2)
  | .index e i => (w.index (eval w env e).1 (eval w env i).1, (eval w env e).2 ++ (eval w env i).2)
  | .cast ty e => (w.cast ty (eval w env e).1, (eval w env e).2)
  | .tern c t e =>
      let rc := eval w env c
      if w.truth rc.1 then ((eval w env t).1, rc.2 ++ (eval w env t).2)
      else ((eval w env e).1, rc.2 ++ (eval w env e).2)
  | .other k ps => (w.other k (evalAll w env ps).1, (evalAll w env ps).2)

def evalAll {V : Type} (w : World V) (env : String → V) : List Ex → List V × List (V × List V)
  | [] => ([], [])
  | e :: es =>
      ((eval w env e).1 :: (evalAll w env es).1, (eval w env e).2 ++ (evalAll w env es).2)

end

/-! ## Specification -/

namespace Spec

/-- The expression where `it` means the variable `x`. -/
def withIt {V : Type} (env : String → V) (x : String) : String → V :=
  fun n => if n = "it" then env x else env n

mutual

/-- `it` occurs. -/
def HasIt : Ex → Prop
  | .var n => n = "it"
  | .num _ => False
  | .str _ => False
  | .call f args => HasIt f ∨ HasItAny args
  | .member e _ => HasIt e
  | .bin _ l r => HasIt l ∨ HasIt r
  | .un _ e => HasIt e
  | .index e i => HasIt e ∨ HasIt i
  | .cast _ e => HasIt e
  | .tern c t e => HasIt c ∨ HasIt t ∨ HasIt e
  | .other _ ps => HasItAny ps

def HasItAny : List Ex → Prop
  | [] => False
  | e :: es => HasIt e ∨ HasItAny es

end

mutual

/-- No `it` below an index, a cast, a conditional or another kind of expression. -/
def Plain : Ex → Prop
  | .var _ => True
  | .num _ => True
  | .str _ => True
  | .call f args => Plain f ∧ PlainAll args
  | .member e _ => Plain e
  | .bin _ l r => Plain l ∧ Plain r
  | .un _ e => Plain e
  | .index e i => ¬ HasIt e ∧ ¬ HasIt i
  | .cast _ e => ¬ HasIt e
  | .tern c t e => ¬ HasIt c ∧ ¬ HasIt t ∧ ¬ HasIt e
  | .other _ ps => ¬ HasItAny ps

def PlainAll : List Ex → Prop
  | [] => True
  | e :: es => Plain e ∧ PlainAll es

end

/-- What a deferred statement does when it runs: calls, and strings printed. -/
inductive Act (V : Type) where
  | call (f : V) (args : List V)
  | print (s : String)

/-- The calls of an expression as actions. -/
def acts {V : Type} (cs : List (V × List V)) : List (Act V) := cs.map fun c => .call c.1 c.2

/-- What a statement `defer e` of its own does: a string is printed, everything else evaluated;
`it` is a variable like any other. -/
def own {V : Type} (w : World V) (env : String → V) : Ex → List (Act V)
  | .str s => [.print s]
  | e => acts (eval w env e).2

/-- What a `defer e` that belongs to the declaration of `x` does. -/
def attached {V : Type} (w : World V) (env : String → V) (x : String) (e : Ex) : List (Act V) :=
  own w (withIt env x) e

/-- The deferred actions of a block as written, in the order written: a `defer` belongs to a
declaration if nothing stands between them; after a semicolon it is a statement of its own. -/
def written {V : Type} (w : World V) (env : String → V) : List Item → List (List (Act V))
  | [] => []
  | .decl x _ :: .deferE d :: is => attached w env x d :: written w env is
  | .deferE d :: is => own w env d :: written w env is
  | .deferB b :: is => (b.flatMap fun e => own w env e) :: written w env is
  | .decl _ _ :: is => written w env is
  | .semi :: is => written w env is
  | .expr _ :: is => written w env is

/-- The deferred actions of a tree. -/
def done {V : Type} (w : World V) (env : String → V) : List St → List (List (Act V))
  | [] => []
  | .deferE e :: ss => acts (eval w env e).2 :: done w env ss
  | .deferPrint s :: ss => [.print s] :: done w env ss
  | .deferB b :: ss => (b.flatMap fun e => own w env e) :: done w env ss
  | .decl _ _ :: ss => done w env ss
  | .expr _ :: ss => done w env ss
  | .print _ :: ss => done w env ss

/-- Blocks for which the claim holds: a `defer` directly after a declaration is plain, one
after the semicolon of a declaration does not mention `it`, and neither is a string. -/
def Fine : List Item → Prop
  | [] => True
  | .decl _ _ :: .semi :: .deferE d :: is => (¬ HasIt d ∧ ∀ s, d ≠ .str s) ∧ Fine is
  | .decl _ _ :: .deferE d :: is => (Plain d ∧ ∀ s, d ≠ .str s) ∧ Fine is
  | _ :: is => Fine is

end Spec

end Verif.DeferIt
