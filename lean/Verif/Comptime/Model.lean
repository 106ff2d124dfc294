import Verif.Forth.Model

/-!
# Blocks run at compile time (`/repo/src/parser/parser_stmt.c:3894-4103`)

`run_comptime_block` takes the text of the block, parses it on its own, writes a C program from it and from the
`@comptime` functions parsed so far, compiles and runs it, and gives back what it has printed, which is parsed in the
place of the block.

Simplifications: tokens carry the blanks and comments before them; parsing and the C text of nodes are left out, a node
is what it declares and which names it uses; the C compiler accepts a program when every name is declared before it is
used, as C11 demands; the statements run are any functions on a state.  Functions, structs and enums
(`parser_stmt.c:3974-3989`) cannot be in a block, since `parse_statement` does not know them, and are left out; so are
temporary files, which are named by a seeded random number and removed.
-/

namespace Verif.Comptime

abbrev Str := Forth.Str

/-- Tokens as far as they matter here. -/
inductive Kind where
  | lbrace
  | rbrace
  | other
  deriving DecidableEq

/-- A token with the blanks and comments before it. -/
structure Tok where
  kind : Kind
  pre : Str
  text : Str

/-- The loop over the tokens behind the opening brace, with the depth and the text passed: the text up to and with the
closing brace, and what is behind it.  /repo/src/parser/parser_stmt.c:3902-3918. -/
def pass : Nat → Str → List Tok → Option (Str × List Tok)
  | _, _, [] => none
  | depth, s, t :: ts =>
    let depth := if t.kind = .lbrace then depth + 1 else depth
    let depth := if t.kind = .rbrace then depth - 1 else depth
    let s := s ++ t.pre ++ t.text
    if depth = 0 then some (s, ts) else pass depth s ts

/-- The text of the block: up to the position behind the brace, less one.
/repo/src/parser/parser_stmt.c:3921-3924. -/
def blockText (ts : List Tok) : Option (Str × List Tok) := (pass 1 [] ts).map fun x => (x.1.dropLast, x.2)

/-- What the block is parsed from.  /repo/src/parser/parser_stmt.c:3926-3929. -/
def wrapped (s : Str) : Str := "{ ".toList ++ s ++ " }".toList

/-- A statement: the name it declares, if any, and the names it uses. -/
structure Stmt where
  decl : Option Str
  uses : List Str

/-- The nodes of a block: `def`, `impl`, and statements. -/
inductive Node where
  | const (name : Str) (uses : List Str)
  | impl (methods : List Str)
  | stmt (s : Stmt)

/-- A function of the program: its name, the names it uses, and whether it is `@comptime`. -/
structure Fn where
  name : Str
  uses : List Str
  comptime : Bool

/-- The items of a C program before `main`. -/
inductive Item where
  | global (name : Str) (uses : List Str)
  | proto (name : Str)
  | func (name : Str) (uses : List Str)

/-- A C program. -/
structure Prog where
  items : List Item
  main : List Stmt

/-- The items of the nodes.  /repo/src/parser/parser_stmt.c:3969-3997. -/
def nodeItems : List Node → List Item
  | [] => []
  | .const n us :: ns => .global n us :: nodeItems ns
  | .impl _ :: ns => nodeItems ns
  | .stmt _ :: ns => nodeItems ns

/-- The statements that go to `main`.  /repo/src/parser/parser_stmt.c:3998-4014. -/
def nodeStmts : List Node → List Stmt
  | [] => []
  | .stmt s :: ns => s :: nodeStmts ns
  | .const _ _ :: ns => nodeStmts ns
  | .impl _ :: ns => nodeStmts ns

/-- The `@comptime` functions, from the list of functions that have been parsed, latest first: each is declared and
defined in turn.  /repo/src/parser/parser_stmt.c:4018-4031, /repo/src/parser/parser_utils.c:771-777. -/
def helpers : List Fn → List Item
  | [] => []
  | f :: fs => if f.comptime then .proto f.name :: .func f.name f.uses :: helpers fs else helpers fs

/-- The program.  /repo/src/parser/parser_stmt.c:3951-4047. -/
def program (parsed : List Fn) (ns : List Node) : Prog := ⟨nodeItems ns ++ helpers parsed, nodeStmts ns⟩

/-- How compiling goes on. -/
inductive Res where
  | source (s : Str)
  | failed

/-- Compiling, running and reading what was printed.  /repo/src/parser/parser_stmt.c:4049-4093. -/
def run (compiles : Prog → Bool) (exec : List Stmt → Str × Nat) (p : Prog) : Res :=
  if compiles p then
    let (out, code) := exec p.main
    if code = 0 then .source out else .failed
  else .failed

/-! ## Specification -/

namespace Spec

/-- Balanced tokens. -/
inductive Bal : List Tok → Prop
  | nil : Bal []
  | tok {t ts} : t.kind = .other → Bal ts → Bal (t :: ts)
  | block {o a c b} : o.kind = .lbrace → Bal a → c.kind = .rbrace → Bal b → Bal (o :: (a ++ c :: b))

/-- The source text of tokens. -/
def source (ts : List Tok) : Str := ts.flatMap fun t => t.pre ++ t.text

/-- C11: in the items each name is declared before it is used; the names known behind them. -/
def Items : List Str → List Item → Prop
  | _, [] => True
  | k, .global n us :: is => us ⊆ k ∧ Items (n :: k) is
  | k, .proto n :: is => Items (n :: k) is
  | k, .func n us :: is => us ⊆ n :: k ∧ Items (n :: k) is

/-- The names items declare. -/
def names : List Item → List Str
  | [] => []
  | .global n _ :: is => n :: names is
  | .proto n :: is => n :: names is
  | .func n _ :: is => n :: names is

/-- The same for statements. -/
def Stmts : List Str → List Stmt → Prop
  | _, [] => True
  | k, s :: ss => s.uses ⊆ k ∧ Stmts (s.decl.toList ++ k) ss

/-- A program in which each name is declared before it is used, where `base` is known from the beginning. -/
def Valid (base : List Str) (p : Prog) : Prop :=
  Items base p.items ∧ Stmts (names p.items ++ base) p.main

/-- Statements in turn on a state: what they print; the first that ends the program with a code ends them. -/
def perform {σ : Type} (step : Stmt → σ → σ × Str × Option Nat) : σ → List Stmt → Str × Nat
  | _, [] => ([], 0)
  | x, s :: ss =>
    match step s x with
    | (_, o, some c) => (o, c)
    | (y, o, none) => (o ++ (perform step y ss).1, (perform step y ss).2)

end Spec

end Verif.Comptime
