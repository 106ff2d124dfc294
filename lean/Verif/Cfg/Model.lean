import Verif.Basic

/-!
# Conditional compilation: `@cfg(...)`

Models, from `/repo/src/parser/parser_core.c`, the branch of the attribute loop that reads
`@cfg(NAME)`, `@cfg(not(NAME))`, `@cfg(any(...))` and `@cfg(all(...))` and builds the text of
a C preprocessor condition, and the end of the declaration loop that hangs this condition on
the parsed node; and, from `/repo/src/codegen/codegen_decl.c` and
`/repo/src/codegen/codegen_main.c`, which `#if` / `#endif` lines are printed around the C text
of each kind of declaration.

Simplified: attributes other than `@cfg` are not read (`.other` tokens end the loop here);
the text of a condition is kept as a list of preprocessor tokens, spaces dropped; the C text
of a declaration is a list of parts tagged with the declaration, not its characters; templates
and their instances are left out; forward `typedef struct S S;` lines, which are never guarded
and define nothing, are left out; the topological order of structs is left out (its order of
emission is the order of declaration here).
-/

namespace Verif.Cfg

/-- The tokens the attribute loop looks at (types `TOK_AT`, `TOK_IDENT`, `TOK_LPAREN`,
`TOK_RPAREN`, `TOK_COMMA` of /repo/src/zprep.h; every other type is `other`).  The end of the
file is the end of the list. -/
inductive Tok where
  | at
  | ident (s : String)
  | lparen | rparen | comma
  | other
  deriving DecidableEq, Repr

/-- The pieces the `sprintf` calls of /repo/src/parser/parser_core.c:265-490 write:
`defined(NAME)`, `!`, `&&`, `||`, `(`, `)`. -/
inductive CTok where
  | defined (s : String)
  | bang | andand | oror | lp | rp
  deriving DecidableEq, Repr

/-- The text of `cfg_condition`, as tokens. -/
abbrev Cond := List CTok

/-- `if (!cond) sprintf(cond, "%s", x) else sprintf(cond, "%s && %s", old, x)`: the idiom of
/repo/src/parser/parser_core.c:266-279, 310-322, 334-347, 365-379, 405-417, 429-441, 458-472,
477-490.  `sep` is the operator written between. -/
def join (sep : CTok) (old : Option Cond) (x : Cond) : Cond :=
  match old with
  | none => x
  | some o => o ++ sep :: x

/-- The `while (1)` of `any(...)` and `all(...)`,
/repo/src/parser/parser_core.c:296-357 and 390-451 (the two copies differ in the operator
only).  `t` is the token of the enclosing attribute loop, whose type the second test looks
at. -/
def items (sep : CTok) (t : Tok) (acc : Option Cond) : List Tok → Res (Cond × List Tok)
  | [] =>
    match t with
    | .ident n => .ok (join sep acc [.defined n], [])
    | _ => .panic
  | inner :: rest =>
    if inner = .ident "not" then
      match rest with
      | .lparen :: .ident n :: .rparen :: .comma :: r =>
        items sep t (some (join sep acc [.bang, .defined n])) r
      | .lparen :: .ident n :: .rparen :: r => .ok (join sep acc [.bang, .defined n], r)
      | _ => .panic
    else
      match t with
      | .ident n =>
        match rest with
        | .comma :: r => items sep t (some (join sep acc [.defined n])) r
        | r => .ok (join sep acc [.defined n], r)
      | _ => .panic

/-- `@cfg` has been read: the parenthesised condition,
/repo/src/parser/parser_core.c:250-505.  `t` is the token the loop was entered with. -/
def cfgArgs (t : Tok) (c : Option Cond) : List Tok → Res (Cond × List Tok)
  | .lparen :: .ident s :: rest =>
    if s = "not" then
      match rest with
      | .lparen :: .ident n :: .rparen :: .rparen :: r =>
        .ok (join .andand c [.bang, .defined n], r)
      | _ => .panic
    else if s = "any" then
      match rest with
      | .lparen :: r => do
        let (x, r) ← items .oror t none r
        match r with
        | .rparen :: .rparen :: r => .ok (join .andand c (.lp :: x ++ [.rp]), r)
        | _ => .panic
      | _ => .panic
    else if s = "all" then
      match rest with
      | .lparen :: r => do
        let (x, r) ← items .andand t none r
        match r with
        | .rparen :: .rparen :: r => .ok (join .andand c (.lp :: x ++ [.rp]), r)
        | _ => .panic
      | _ => .panic
    else
      match rest with
      | .rparen :: r => .ok (join .andand c [.defined s], r)
      | _ => .panic
  | _ => .panic

/-- `while (t.type == TOK_AT) { ... t = lexer_peek(l); }`,
/repo/src/parser/parser_core.c:104-625, for `@cfg` attributes: every pass is entered with a
token `t` of type `TOK_AT`.  Simplified: the fuel bounds the number of attributes (callers
give the number of tokens); another attribute is outside the model and stops the loop. -/
def attrs : Nat → Option Cond → List Tok → Res (Option Cond × List Tok)
  | fuel + 1, c, .at :: .ident s :: rest =>
    if s = "cfg" then do
      let (c', r) ← cfgArgs .at c rest
      attrs fuel (some c') r
    else .ok (c, .at :: .ident s :: rest)
  | _, c, ts => .ok (c, ts)

/-- Kinds of top-level declarations that reach C (`NODE_FUNCTION`, `NODE_STRUCT`, `NODE_ENUM`,
`NODE_TRAIT`, `NODE_VAR_DECL`/`NODE_CONST`, `NODE_IMPL`, `NODE_IMPL_TRAIT`, `NODE_TYPE_ALIAS`,
`NODE_RAW_STMT`, `NODE_TEST`, `NODE_INCLUDE`).  A struct carries whether it `has_drop`. -/
inductive Kind where
  | fn | struct (hasDrop : Bool) | enum | trait | global | impl | implTrait
  | alias | raw | test | include
  deriving DecidableEq, Repr

/-- A parsed top-level node: `ASTNode` with its `cfg_condition`, /repo/src/ast/ast.h:204.
`body` stands for the rest of the node. -/
structure Decl where
  kind : Kind
  name : String
  body : Nat
  cond : Option Cond
  deriving DecidableEq, Repr

/-- The parts of a declaration's C text. -/
inductive Part where
  | include | enumProto | alias | trait | raw | typeDef | global | proto | vtable | dropGlue
  | test | code
  deriving DecidableEq, Repr

/-- A line (or run of lines) of the generated C file. -/
inductive Line where
  | ifc (c : Cond)
  | endif
  | text (p : Part) (name : String) (body : Nat)
  deriving DecidableEq, Repr

/-- `if (node->cfg_condition) fprintf("#if ...")`, the text,
`if (node->cfg_condition) fprintf("#endif")`. -/
def guarded (p : Part) (d : Decl) : List Line :=
  match d.cond with
  | none => [.text p d.name d.body]
  | some c => [.ifc c, .text p d.name d.body, .endif]

/-- The text without any guard. -/
def bare (p : Part) (d : Decl) : List Line := [.text p d.name d.body]

/-- Is it one of the three kinds merged into `merged_funcs`,
/repo/src/codegen/codegen_main.c:630-696? -/
def Kind.isFunc : Kind → Bool
  | .fn | .impl | .implTrait => true
  | _ => false

/-- `emit_includes_and_aliases`, /repo/src/codegen/codegen_decl.c:222-243. -/
def emitInclude (d : Decl) : List Line :=
  if d.kind = .include then bare .include d else []

/-- `emit_enum_protos`, /repo/src/codegen/codegen_decl.c:279-312. -/
def emitEnumProto (d : Decl) : List Line :=
  if d.kind = .enum then guarded .enumProto d else []

/-- `emit_global_aliases`, /repo/src/codegen/codegen_decl.c:268-276: from the registered
aliases (`register_type_alias`, /repo/src/parser/parser_decl.c:945), which carry no
condition. -/
def emitGlobalAlias (d : Decl) : List Line :=
  if d.kind = .alias then bare .alias d else []

/-- `emit_type_aliases`, /repo/src/codegen/codegen_decl.c:246-266. -/
def emitTypeAlias (d : Decl) : List Line :=
  if d.kind = .alias then guarded .alias d else []

/-- `emit_trait_defs`, /repo/src/codegen/codegen_decl.c:611-744. -/
def emitTrait (d : Decl) : List Line :=
  if d.kind = .trait then guarded .trait d else []

/-- The two passes over raw statements, /repo/src/codegen/codegen_main.c:529-551 and 558-580.
Simplified: both passes are put together (they differ in the first character of the text) and
the removal of repeated texts is left out. -/
def emitRaw (d : Decl) : List Line :=
  if d.kind = .raw then bare .raw d else []

/-- `emit_struct_defs`, /repo/src/codegen/codegen_decl.c:415-585. -/
def emitTypeDef (d : Decl) : List Line :=
  match d.kind with
  | .struct _ | .enum => guarded .typeDef d
  | _ => []

/-- The merge of `parsed_globals_list`, /repo/src/codegen/codegen_main.c:586-623: a global
whose name is already in the merged list is left out, whatever its condition.  The list has
the latest declaration first (`add_to_global_list`, /repo/src/parser/parser_utils.c:787-793)
and the merged list is built by prepending. -/
def mergeGlobals : List Decl → List Decl → List Decl
  | merged, [] => merged
  | merged, d :: ds =>
    if merged.any (fun g => g.name == d.name) then mergeGlobals merged ds
    else mergeGlobals (d :: merged) ds

/-- `emit_globals` over the merged list, /repo/src/codegen/codegen_decl.c:747-797 and
/repo/src/codegen/codegen_main.c:625. -/
def emitGlobals (p : List Decl) : List Line :=
  (mergeGlobals [] (p.filter fun d => d.kind = .global).reverse).flatMap (guarded .global)

/-- `emit_protos`, /repo/src/codegen/codegen_decl.c:800-991: the branch of `NODE_IMPL_TRAIT`
(lines 923-988) prints no `#endif`. -/
def emitProto (d : Decl) : List Line :=
  match d.kind with
  | .fn | .impl => guarded .proto d
  | .implTrait =>
    match d.cond with
    | none => [.text .proto d.name d.body]
    | some c => [.ifc c, .text .proto d.name d.body]
  | _ => []

/-- `emit_impl_vtables`, /repo/src/codegen/codegen_decl.c:994-1133.  Simplified: the removal of
repeated pairs is left out. -/
def emitVtable (d : Decl) : List Line :=
  if d.kind = .implTrait then bare .vtable d else []

/-- `emit_auto_drop_glues`, /repo/src/codegen/codegen_main.c:295-336. -/
def emitDropGlue (d : Decl) : List Line :=
  if d.kind = .struct true then bare .dropGlue d else []

/-- `emit_tests_and_runner`, /repo/src/codegen/codegen_decl.c:1136-1168. -/
def emitTest (d : Decl) : List Line :=
  if d.kind = .test then bare .test d else []

/-- The last loop over `merged_funcs`, /repo/src/codegen/codegen_main.c:706-807. -/
def emitCode (d : Decl) : List Line :=
  if d.kind.isFunc then guarded .code d else []

/-- The functions, then the impls, in the order of `merged_funcs`,
/repo/src/codegen/codegen_main.c:630-696 (both lists have the latest declaration first). -/
def mergedFuncs (p : List Decl) : List Decl :=
  (p.filter fun d => d.kind = .fn).reverse ++
    (p.filter fun d => d.kind = .impl ∨ d.kind = .implTrait).reverse

/-- `codegen_node` on the root, /repo/src/codegen/codegen_main.c:339-830: the passes in their
order. -/
def emit (p : List Decl) : List Line :=
  p.flatMap emitInclude ++
  p.flatMap emitEnumProto ++
  p.flatMap emitGlobalAlias ++
  p.flatMap emitTypeAlias ++
  p.flatMap emitTrait ++
  p.flatMap emitRaw ++
  p.flatMap emitTypeDef ++
  emitGlobals p ++
  (mergedFuncs p).flatMap emitProto ++
  p.reverse.flatMap emitVtable ++
  p.flatMap emitDropGlue ++
  p.flatMap emitTest ++
  (mergedFuncs p).flatMap emitCode

/-- `s->cfg_condition = cfg_condition`, /repo/src/parser/parser_core.c:925-941: the parsed
declaration is a list of nodes (an import is the nodes of the imported file, a struct with
`@derive` is followed by its impls); the condition is stored in the first. -/
def attach (c : Option Cond) : List Decl → List Decl
  | [] => []
  | d :: ds => { d with cond := c } :: ds

/-! ## Specification -/

namespace Spec

/-- The names given with `-D`. -/
abbrev Env := String → Bool

/-- One entry of `any(...)` / `all(...)` as documented: a name or `not(name)`. -/
inductive Item where
  | pos (n : String)
  | neg (n : String)
  deriving DecidableEq, Repr

/-- One documented `@cfg` attribute (README, "Conditional Compilation"). -/
inductive Attr where
  | name (n : String)
  | not (n : String)
  | any (is : List Item)
  | all (is : List Item)
  deriving DecidableEq, Repr

/-- Meaning of an entry. -/
def Item.holds (D : Env) : Item → Bool
  | .pos n => D n
  | .neg n => !D n

/-- Meaning of an attribute, from the table of the README. -/
def Attr.holds (D : Env) : Attr → Bool
  | .name n => D n
  | .not n => !D n
  | .any is => is.any (·.holds D)
  | .all is => is.all (·.holds D)

/-- "Multiple `@cfg` on one declaration are ANDed." -/
def holds (D : Env) (as : List Attr) : Bool := as.all (·.holds D)

/-- How an entry is written. -/
def Item.toks : Item → List Tok
  | .pos n => [.ident n]
  | .neg n => [.ident "not", .lparen, .ident n, .rparen]

/-- Entries separated by commas. -/
def itemsToks : List Item → List Tok
  | [] => []
  | [i] => i.toks
  | i :: is => i.toks ++ .comma :: itemsToks is

/-- How an attribute is written. -/
def Attr.toks : Attr → List Tok
  | .name n => [.at, .ident "cfg", .lparen, .ident n, .rparen]
  | .not n => [.at, .ident "cfg", .lparen, .ident "not", .lparen, .ident n, .rparen, .rparen]
  | .any is => [.at, .ident "cfg", .lparen, .ident "any", .lparen] ++ itemsToks is ++ [.rparen, .rparen]
  | .all is => [.at, .ident "cfg", .lparen, .ident "all", .lparen] ++ itemsToks is ++ [.rparen, .rparen]

/-- An attribute list as written before a declaration. -/
def toks (as : List Attr) : List Tok := as.flatMap Attr.toks

/-- A use of the forms that has a meaning: entries are not empty, and a bare name is not one
of the three words with a meaning of their own. -/
def Attr.Proper : Attr → Prop
  | .name n => n ≠ "not" ∧ n ≠ "any" ∧ n ≠ "all"
  | .not _ => True
  | .any is => is ≠ [] ∧ ∀ n, .pos n ∈ is → n ≠ "not"
  | .all is => is ≠ [] ∧ ∀ n, .pos n ∈ is → n ≠ "not"

/-- Does the attribute list a plain name inside `any` or `all`? -/
def Attr.hasPlain : Attr → Bool
  | .name _ | .not _ => false
  | .any is | .all is => is.any fun | .pos _ => true | .neg _ => false

/-! The C preprocessor: the value of a controlling expression made of `defined(X)`, `!`,
`&&`, `||` and parentheses (C11 6.10.1, 6.5.13, 6.5.14: `!` binds tightest, then `&&`, then
`||`), by recursive descent; the fuel bounds the depth of the descent. -/

mutual

/-- logical-OR-expression -/
def orE (D : Env) : Nat → Cond → Option (Bool × Cond)
  | 0, _ => none
  | f + 1, ts =>
    match andE D f ts with
    | some (a, .oror :: r) =>
      match orE D f r with
      | some (b, r) => some (a || b, r)
      | none => none
    | x => x

/-- logical-AND-expression -/
def andE (D : Env) : Nat → Cond → Option (Bool × Cond)
  | 0, _ => none
  | f + 1, ts =>
    match unE D f ts with
    | some (a, .andand :: r) =>
      match andE D f r with
      | some (b, r) => some (a && b, r)
      | none => none
    | x => x

/-- unary and primary expressions -/
def unE (D : Env) : Nat → Cond → Option (Bool × Cond)
  | 0, _ => none
  | f + 1, ts =>
    match ts with
    | .defined n :: r => some (D n, r)
    | .bang :: r =>
      match unE D f r with
      | some (b, r) => some (!b, r)
      | none => none
    | .lp :: r =>
      match orE D f r with
      | some (b, .rp :: r) => some (b, r)
      | _ => none
    | _ => none

end

/-- The value of a whole `#if` line, if it is well formed. -/
def evalIf (D : Env) (c : Cond) : Option Bool :=
  match orE D (3 * c.length + 3) c with
  | some (b, []) => some b
  | _ => none

/-- What the C compiler sees after preprocessing: the texts outside false groups, or nothing
if the directives do not balance or a condition is malformed.  `st` is the stack of the open
groups' values. -/
def preprocess (D : Env) : List Bool → List Line → Option (List (Part × String × Nat))
  | [], [] => some []
  | _ :: _, [] => none
  | st, .ifc c :: r =>
    match evalIf D c with
    | some v => preprocess D (v :: st) r
    | none => none
  | [], .endif :: _ => none
  | _ :: st, .endif :: r => preprocess D st r
  | st, .text p n b :: r =>
    if st.all id then (preprocess D st r).map ((p, n, b) :: ·) else preprocess D st r

/-- A declaration as the user writes it, with its attributes. -/
structure Src where
  attrs : List Attr
  kind : Kind
  name : String
  body : Nat
  deriving DecidableEq, Repr

/-- The program with the excluded declarations deleted and the attributes erased. -/
def select (D : Env) (p : List Src) : List Src :=
  (p.filter fun d => holds D d.attrs).map fun d => { d with attrs := [] }

/-- The part of a declaration's C text without which the declaration is not there: the body of
a function, the definition of a type, of a global, and so on. -/
def essential : Kind → Part
  | .fn | .impl | .implTrait => .code
  | .struct _ | .enum => .typeDef
  | .trait => .trait
  | .global => .global
  | .alias => .alias
  | .raw => .raw
  | .test => .test
  | .include => .include

end Spec

/-- A declaration read by the compiler: its attributes are parsed from their tokens
(/repo/src/parser/parser_core.c:104-625), its node gets the condition (925-941). -/
def parseDecl (s : Spec.Src) : Res (List Decl) := do
  let ts := Spec.toks s.attrs
  let (c, _) ← attrs ts.length none ts
  .ok (attach c [⟨s.kind, s.name, s.body, none⟩])

/-- `parse_program_nodes`, /repo/src/parser/parser_core.c:70-950: declarations in order. -/
def parseProg : List Spec.Src → Res (List Decl)
  | [] => .ok []
  | s :: ss => do
    let d ← parseDecl s
    let ds ← parseProg ss
    .ok (d ++ ds)

/-- `@cfg(...) import "file";`, /repo/src/parser/parser_core.c:695-698 with 925-941: the nodes
of the file (`parse_program_nodes` on it) are the declaration.  Simplified: the file is read
and not read before; no selective import, no alias. -/
def parseImport (as : List Spec.Attr) (file : List Spec.Src) : Res (List Decl) := do
  let ts := Spec.toks as
  let (c, _) ← attrs ts.length none ts
  let ds ← parseProg file
  .ok (attach c ds)

/-- What the C compiler sees of a program. -/
def compile (D : Spec.Env) (p : List Spec.Src) :
    Res (Option (List (Part × String × Nat))) := do
  let ds ← parseProg p
  .ok (Spec.preprocess D [] (emit ds))

end Verif.Cfg
