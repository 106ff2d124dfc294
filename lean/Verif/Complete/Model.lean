import Verif.Forth.Model

/-!
# The language server: completion and the outline of a file

Models, from `/repo/src/lsp/lsp_analysis.c`, `lsp_completion` (411-692) with `find_local_in_func` (306-384) and
`resolve_local_type` (387-409), and `ast_to_symbol` and `lsp_document_symbol` (694-815); from `/repo/src/parser/`, what
the parser leaves for them: the lines of nodes (parser_stmt.c:2481-2502, 2929), the places of declarations
(parser_decl.c:199, 748, 908; parser_struct.c:894, 1016, 1251), the nodes of imported files (parser_stmt.c:3854-3891), and
the lists of functions, structs and globals, which grow with every change of a file (parser_utils.c:612-627, 787-793,
1062-1069; /repo/src/lsp/lsp_project.c:142-181).

Simplifications: texts are lists of characters; the JSON around the names is left out (see the units `Lsp` and `CJson`);
expressions are left out of statements, no variable is declared in them that the code looks at; programs are parsed
without errors.
-/

namespace Verif.Complete

/-- A text: its characters. -/
abbrev Str := Forth.Str

/-! ## Functions -/

/-- What a node is to the two searches.  `other` stands for the nodes they do not enter: `loop`, `for … in`, `match`,
`defer`, `unsafe`, `guard`, `unless`, `repeat`, destructuring and all expressions. -/
inductive Kind where
  | var (n : Str) (ty : Option Str) (line : Nat)
  | block | ifs | whiles | fors
  | other

/-- A statement with the statements inside it, in the order they are put into the queue: the statements of a block,
the two branches of an `if`, the body of a `while`, the first part and the body of a `for`. -/
inductive Node where
  | mk (k : Kind) (cs : List Node)

/-- What a node is. -/
def Node.kind : Node → Kind
  | .mk k _ => k

/-- The nodes a node puts into the queue.  lsp_analysis.c:339-379 and 628-682. -/
def Node.children : Node → List Node
  | .mk .block cs | .mk .ifs cs | .mk .whiles cs | .mk .fors cs => cs
  | _ => []

/-- The line of the node of a declaration: `parse_statement` sets it behind its `switch` only, which `let` and `static let`
leave before; `autofree let` does not.  Lines count from 1.  parser_stmt.c:2336-2355, 2481-2502, 2927-2930. -/
def stamp (autofree : Bool) (line : Nat) : Nat := if autofree then line else 0

/-- The nodes taken out of the queue, in turn: `queue[1024]` with `q_tail` places used.  A node that finds no place is left
out, and with the last place taken the search ends.  lsp_analysis.c:329-382 and 619-683. -/
def visit : Nat → List Node → Nat → List Node
  | 0, _, _ => []
  | _ + 1, [], _ => []
  | k + 1, n :: q, tail =>
      if tail < 1024 then
        let new := n.children.take (1024 - tail)
        n :: visit k (q ++ new) (tail + new.length)
      else []

/-- All nodes of a function that are taken: there are 1024 places. -/
def visited (body : Node) : List Node := visit 1024 [body] 1

/-- A function: its name, the line and column of its name, its parameters with the texts of their types, and its body. -/
structure Fn where
  name : Str
  line : Nat
  col : Nat
  params : List (Str × Option Str)
  body : Option Node

/-- `find_local_in_func`: the text of the type of the variable.  lsp_analysis.c:306-384. -/
def findLocal (f : Fn) (x : Str) : Option (Option Str) :=
  match f.body with
  | none => none
  | some b =>
      if (f.params.map (·.1)).contains x then none
      else (visited b).findSome? fun n =>
        match n.kind with
        | .var y ty _ => if y = x then some ty else none
        | _ => none

/-- `resolve_local_type` and the text the parser has for the type: lsp_analysis.c:387-409 and 479-492. (`var_decl.type_info`
is set nowhere, so it is the text always.) -/
def localType (f : Option Fn) (x : Str) : Option Str :=
  match f with
  | none => none
  | some f =>
      match (f.params.find? fun p => p.1 = x).bind (·.2) with
      | some t => some t
      | none => (findLocal f x).join

/-- The names offered for a function: its parameters, then its variables whose node is of a line before the place.
lsp_analysis.c:604-684. -/
def locals (f : Fn) (line : Nat) : List Str :=
  f.params.map (·.1) ++
    match f.body with
    | none => []
    | some b => (visited b).filterMap fun n =>
        match n.kind with
        | .var y _ l => if l < line then some y else none
        | _ => none

/-! ## Files -/

/-- A declaration of a file.  `generic` is a generic function, which leaves no node; `other` an `impl`, a trait, an alias, a
test, or raw code. -/
inductive Item where
  | fn (f : Fn)
  | generic (n : Str)
  | struct (n : Str) (fields : List (Str × Str))
  | enum (n : Str)
  | var (n : Str) (line col : Nat)
  | const (n : Str)
  | other (n : Str)
  | imports (fs : List Item)

mutual
/-- The nodes one declaration leaves: an `import` leaves the nodes of the file imported, when it is read for the first time.
parser_stmt.c:3854-3891, parser_decl.c:213-221. -/
def nodesOf : Item → List Item
  | .generic _ => []
  | .imports fs => nodes fs
  | .fn f => [.fn f]
  | .struct n fs => [.struct n fs]
  | .enum n => [.enum n]
  | .var n l c => [.var n l c]
  | .const n => [.const n]
  | .other n => [.other n]
/-- The nodes of a file, in turn.  /repo/src/parser/parser_core.c:9-950. -/
def nodes : List Item → List Item
  | [] => []
  | i :: is => nodesOf i ++ nodes is
end

/-- The functions of the index, in turn.  Nodes of `impl` are not entered.
/repo/src/lsp/lsp_index.c:117-254. -/
def functions (is : List Item) : List Fn :=
  (nodes is).filterMap fun i => match i with | .fn f => some f | _ => none

/-- The function is below the best one so far. -/
def below (best : Option Fn) (f : Fn) : Bool :=
  match best with
  | none => true
  | some b => decide (b.line < f.line)

/-- The search for the function, with the best one so far.  lsp_analysis.c:423-440. -/
def search (line : Nat) : List Fn → Option Fn → Option Fn
  | [], best => best
  | f :: fs, best =>
      if 0 < f.line ∧ f.line - 1 ≤ line ∧ below best f = true then search line fs (some f) else search line fs best

/-- The function completion is for: the first of those whose name is on the latest line that is not behind the place; lines
of the index count from 0.  lsp_analysis.c:423-440. -/
def target (fs : List Fn) (line : Nat) : Option Fn := search line fs none

/-- What the parser keeps for the whole project, latest first. -/
structure Ctx where
  globals : List Str := []
  structs : List (Str × List (Str × Str)) := []
  funcs : List Str := []
  /-- `all_symbols`: names with the texts of their types -/
  symbols : List (Str × Option Str) := []

/-- What one declaration adds.  parser_decl.c:141-147, 779-782, 914-917; parser_struct.c:265, 1061-1065. Methods add their
mangled names, which are left out. -/
def add (c : Ctx) : Item → Ctx
  | .fn f => { c with funcs := f.name :: c.funcs }
  | .struct n fs => { c with structs := (n, fs) :: c.structs }
  | .var n _ _ => { c with globals := n :: c.globals }
  | .const n => { c with globals := n :: c.globals }
  | _ => c

/-- A file is opened or changed: the parser goes on with what it has.  lsp_project.c:142-181. -/
def update (c : Ctx) (is : List Item) : Ctx := (nodes is).foldl add c

/-! ## Behind a dot -/

/-- `isalnum` or `_`, in the C locale. -/
def isIdent (c : Char) : Bool :=
  ('a' ≤ c && c ≤ 'z') || ('A' ≤ c && c ≤ 'Z') || ('0' ≤ c && c ≤ '9') || c == '_'

/-- ` ` or tab -/
def isBlank (c : Char) : Bool := c == ' ' || c == '\t'

/-- The text behind so many line feeds.  lsp_analysis.c:446-455. -/
def fromLine : Nat → Str → Str
  | 0, s => s
  | _ + 1, [] => []
  | k + 1, c :: s => if c = '\n' then fromLine k s else fromLine (k + 1) s

/-- The name before a dot: `s` is the text of the line before the dot.  lsp_analysis.c:459-477. -/
def nameBefore (s : Str) : Str := ((s.reverse.dropWhile isBlank).takeWhile isIdent).reverse

/-- The name of the struct in the text of a type.  lsp_analysis.c:508-521. -/
def cleanName (t : Str) : Str :=
  (if "struct ".toList.isPrefixOf t then t.drop 7 else t).takeWhile (· ≠ '*')

/-- What becomes of a request. -/
inductive Answer where
  /-- the fields of a struct, with their types -/
  | fields (fs : List (Str × Str))
  /-- the general list -/
  | names (ns : List Str)
  /-- the server writes or reads outside its buffers -/
  | ub

/-- The words offered.  lsp_analysis.c:560-566. -/
def keywords : List Str := [
  "fn".toList, "struct".toList, "enum".toList, "alias".toList, "return".toList, "if".toList, "else".toList,
  "for".toList, "while".toList, "break".toList, "continue".toList, "true".toList, "false".toList, "int".toList,
  "char".toList, "bool".toList, "string".toList, "void".toList, "import".toList, "module".toList, "test".toList,
  "assert".toList, "defer".toList, "sizeof".toList, "opaque".toList, "unsafe".toList, "asm".toList, "trait".toList,
  "impl".toList, "u8".toList, "u16".toList, "u32".toList, "u64".toList, "i8".toList, "i16".toList, "i32".toList,
  "i64".toList, "f32".toList, "f64".toList, "usize".toList, "isize".toList, "const".toList, "let".toList,
  "mut".toList]

/-- The general list.  lsp_analysis.c:557-685. -/
def general (c : Ctx) (f : Option Fn) (line : Nat) : List Str :=
  keywords ++ c.globals ++ c.structs.map (·.1) ++ c.funcs ++
    match f with
    | none => []
    | some f => locals f line

/-- The text of the type of a name: of the function, or else of the latest symbol of that name.
lsp_analysis.c:479-503. -/
def typeText (c : Ctx) (f : Option Fn) (x : Str) : Option Str :=
  match localType f x with
  | some t => some t
  | none => ((c.symbols.find? fun s => s.1 = x).bind (·.2))

/-- The fields found behind a dot, if any.  lsp_analysis.c:505-553. -/
def fieldsOf (c : Ctx) (t : Str) : Option (List (Str × Str)) :=
  (c.structs.find? fun s => s.1 = cleanName t).map (·.2)

/-- `lsp_completion`: `src` is the text of the file, line and column count from 0.  Buffers: `var_name[256]`,
`clean_name[256]`, `detail[256]`.  lsp_analysis.c:411-692. -/
def completion (c : Ctx) (is : List Item) (src : Str) (line col : Nat) : Answer :=
  let f := target (functions is) line
  let rest := fromLine line src
  if 0 < col then
    if rest.length < col - 1 then .ub
    else if rest[col - 1]? = some '.' then
      let x := nameBefore (rest.take (col - 1))
      if x = [] then .names (general c f line)
      else if 256 ≤ x.length then .ub
      else
        match typeText c f x with
        | none => .names (general c f line)
        | some t =>
            if 256 ≤ (cleanName t).length then .ub
            else
              match fieldsOf c t with
              | none => .names (general c f line)
              | some fs =>
                  if fs.all (fun p => decide (p.2.length + 6 < 256)) then .fields fs else .ub
    else .names (general c f line)
  else .names (general c f line)

/-! ## The outline -/

/-- An entry: name, kind, line and column from 0, and the entries in it (names and places of fields). -/
structure Entry where
  name : Str
  kind : Nat
  line : Nat
  col : Nat
  fields : List Str

/-- `ast_to_symbol`.  Structs, enums and constants and fields have no token, so their place is the first of the file; the
range is as long as the token.  lsp_analysis.c:694-774; parser_decl.c:199, 748, 908; parser_struct.c:894-902, 977-980, 1016-1052. -/
def entry : Item → Option Entry
  | .fn f => some ⟨f.name, 12, f.line - 1, f.col - 1, []⟩
  | .struct n fs => some ⟨n, 23, 0, 0, fs.map (·.1)⟩
  | .enum n => some ⟨n, 10, 0, 0, []⟩
  | .var n l c => some ⟨n, 13, l - 1, c - 1, []⟩
  | .const n => some ⟨n, 14, 0, 0, []⟩
  | _ => none

/-- `lsp_document_symbol`.  lsp_analysis.c:776-815. -/
def outline (is : List Item) : List Entry := (nodes is).filterMap entry

/-! ## What is meant -/

namespace Spec

/-- Where the place of the cursor is: in a block behind `before` and before `after`, or inside a statement, which has the
statements `before` and `after` beside the one with the cursor. -/
inductive Place where
  | here (before after : List Node)
  | within (k : Kind) (before : List Node) (p : Place) (after : List Node)

/-- The statement with the cursor in it. -/
def Place.node : Place → Node
  | .here b a => .mk .block (b ++ a)
  | .within k b p a => .mk k (b ++ p.node :: a)

/-- The statements whose variables are known at the cursor: those before it in its block and in the blocks around it,
and the first part of a `for`. -/
inductive Before : Place → Node → Prop where
  | here {b a n} : n ∈ b → Before (.here b a) n
  | block {b p a n} : n ∈ b → Before (.within .block b p a) n
  | first {b p a n} : n ∈ b → Before (.within .fors b p a) n
  | inner {k b p a n} : Before p n → Before (.within k b p a) n

/-- A variable in scope at the cursor. -/
def InScope (p : Place) (x : Str) : Prop := ∃ ty l cs, Before p (.mk (.var x ty l) cs)

/-- All statements around the cursor are blocks, `if`, `while` or `for`. -/
def Plain : Place → Prop
  | .here _ _ => True
  | .within k _ p _ => (k = .block ∨ k = .ifs ∨ k = .whiles ∨ k = .fors) ∧ Plain p

mutual
/-- The number of statements the searches can come to. -/
def size : Node → Nat
  | .mk .block cs | .mk .ifs cs | .mk .whiles cs | .mk .fors cs => 1 + sizes cs
  | .mk _ _ => 1
/-- … in a list -/
def sizes : List Node → Nat
  | [] => 0
  | n :: ns => size n + sizes ns
end

/-- A variable is declared in a statement, at any depth, through blocks, `if`, `while` and `for` only. -/
inductive Decl : Node → Str → Option Str → Nat → Prop where
  | var {x ty l cs} : Decl (.mk (.var x ty l) cs) x ty l
  | block {cs n x ty l} : n ∈ cs → Decl n x ty l → Decl (.mk .block cs) x ty l
  | ifs {cs n x ty l} : n ∈ cs → Decl n x ty l → Decl (.mk .ifs cs) x ty l
  | whiles {cs n x ty l} : n ∈ cs → Decl n x ty l → Decl (.mk .whiles cs) x ty l
  | fors {cs n x ty l} : n ∈ cs → Decl n x ty l → Decl (.mk .fors cs) x ty l

end Spec

end Verif.Complete
