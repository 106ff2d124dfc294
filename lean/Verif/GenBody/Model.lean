import Verif.Generics.Model

/-!
# Bodies of generic functions and methods

Models, from `/repo/src/parser/parser_utils.c`, `replace_in_string`, `replace_mangled_part`,
`type_from_string_helper`, `replace_type_formal` and `copy_ast_replacing`: what becomes of the
code of a generic function or method when an instance of it is made.

Simplified: texts are lists of characters; of the parts of a node those are left out that are
copied as they are (tokens, flags) and the `resolved_type` and `type_info` of expressions, which
are replaced like those of declarations; default values of parameters are left out.
-/

namespace Verif.GenBody

open DeclOrder (Prim dim)
open Generics (Name Ty isIdent sanitize parts pick suffixRule replaceTypeStr structKw sliceKw txt cText zText)

/-- `is_ident_char` of a character of a text or of the place before or behind it. -/
def identAt : Option Char → Bool
  | none => false
  | some c => isIdent c

/-- `replace_in_string` for one word, second pass, parser_utils.c:1318-1364.  The first argument
counts the characters of the replaced word still to be skipped, the second is the character
before, the third `in_string`. -/
def rep (old new : Name) : Nat → Option Char → Bool → Name → Name
  | _, _, _, [] => []
  | k + 1, _, b, x :: r => rep old new k (some x) b r
  | 0, prev, b, x :: r =>
    let b' := if x = '"' ∧ prev ≠ some '\\' then !b else b
    if b' = false ∧ old <+: x :: r ∧ identAt prev = false ∧
        identAt ((x :: r).drop old.length).head? = false
    then new ++ rep old new (old.length - 1) (some x) b' r
    else x :: rep old new 0 (some x) b' r

/-- First pass of the same, parser_utils.c:1287-1314: the number of replacements. -/
def count (old : Name) : Nat → Option Char → Bool → Name → Nat
  | _, _, _, [] => 0
  | k + 1, _, b, x :: r => count old k (some x) b r
  | 0, prev, b, x :: r =>
    let b' := if x = '"' ∧ prev ≠ some '\\' then !b else b
    if b' = false ∧ old <+: x :: r ∧ identAt prev = false ∧
        identAt ((x :: r).drop old.length).head? = false
    then count old (old.length - 1) (some x) b' r + 1
    else count old 0 (some x) b' r

/-- The size of the result's buffer, parser_utils.c:1316-1317: `i + cnt * (newWlen - oldWlen) + 1`. -/
def bufSize (old new src : Name) : Int :=
  src.length + count old 0 none false src * ((new.length : Int) - old.length) + 1

/-- `replace_in_string`, parser_utils.c:1227-1365; several words one after the other
(1234-1281). -/
def replaceWords (p c src : Name) : Name :=
  if ',' ∈ p then ((parts p).zip (parts c)).foldl (fun s q => rep q.1 q.2 0 none false s) src
  else rep p c 0 none false src

/-- `replace_mangled_part`, parser_utils.c:1856-1911, without its buffer; arguments as for
`rep`. -/
def mangledPart (p c : Name) : Nat → Option Char → Name → Name
  | _, _, [] => []
  | k + 1, _, x :: r => mangledPart p c k (some x) r
  | 0, prev, x :: r =>
    let next := ((x :: r).drop p.length).head?
    if p <+: x :: r ∧ (prev = some '_' ∨ identAt prev = false) ∧
        (next = some '_' ∨ identAt next = false) ∧ (prev = some '_' ∨ next = some '_')
    then c ++ mangledPart p c (p.length - 1) (some x) r
    else x :: mangledPart p c 0 (some x) r

/-- `replace_mangled_part`, parser_utils.c:1848-1913, with its buffer of 4096 bytes. -/
def replaceMangled (p c src : Name) : Res Name :=
  if 4096 ≤ (mangledPart p c 0 none src).length then .ub -- the final 0 is outside
  else .ok (mangledPart p c 0 none src)

/-- Step of both: the name of the struct around, parser_utils.c:1942-1947 and 2009-2014. -/
def selfWords (st : Option (Name × Name)) (s : Name) : Name :=
  match st with
  | some (os, ns) => replaceWords os ns s
  | none => s

/-- Raw statements, parser_utils.c:2006-2027, and the parameters of a function, 1940-1954. -/
def rawText (p c : Name) (st : Option (Name × Name)) (src : Name) : Res Name :=
  replaceMangled p (sanitize c) (selfWords st (replaceWords p c src))

/-- Names in expressions, parser_utils.c:2057-2082. -/
def varText (p c : Name) (st : Option (Name × Name)) (src : Name) : Res Name := do
  let n ← replaceMangled p (sanitize c) src
  match st with
  | some (os, ns) => if os ++ ['_', '_'] <+: n then .ok (ns ++ n.drop os.length) else .ok n
  | none => .ok n

/-- A type as the code generator gets it: `Type`, /repo/src/ast/ast.h:78-110, with the arguments of
generics in the name.  `named kw n`: `kw` is `is_explicit_struct`. -/
inductive Form where
  | prim (p : Prim)
  | named (kw : Bool) (n : Name)
  | ptr (t : Form)
  | arr (t : Form) (size : Nat)
  | slice (t : Form)
  | const (t : Form)
  | fn (ret arg : Form)
  deriving DecidableEq, Repr

/-- What the parser makes of a type, /repo/src/parser/parser_type.c:556-775: parameters and
instances are structs. -/
def Form.of : Ty → Form
  | .prim p => .prim p
  | .name n => .named false n
  | .par n => .named false n
  | .ptr t => .ptr (of t)
  | .arr t n => .arr (of t) n
  | .slice t => .slice (of t)
  | .app g t => .named false (g ++ '_' :: sanitize (zText t))
  | .app2 g t u => .named false (g ++ '_' :: sanitize (zText t) ++ '_' :: sanitize (zText u))
  | .const t => .const (of t)
  | .rawFn r a => .fn (of r) (of a)

/-- `type_to_c_string` (`true`) and `type_to_string` of them, as in `Generics.txt`. -/
def Form.txt : Bool → Form → Name → Name
  | c, .prim p, d => (if c then p.cText else p.zText).toList ++ d
  | c, .named kw n, d => (if c && kw then structKw else []) ++ n ++ d
  | c, .ptr t, d => txt c t [] ++ '*' :: d
  | c, .arr t n, d => txt c t (d ++ dim n)
  | _, .slice t, d => sliceKw ++ txt false t [] ++ d
  | c, .const t, d => "const ".toList ++ txt c t [] ++ d
  | true, .fn r a, d => txt true r [] ++ " (*)(".toList ++ txt true a [] ++ ')' :: d
  | false, .fn r a, d =>
      "fn*(".toList ++ txt false a [] ++ ") -> ".toList ++ txt false r [] ++ d

/-- The names `type_from_string_helper` knows, parser_utils.c:1606-1696.  (`float` is
`TYPE_FLOAT`, with the text of `f32`; `rune` and `byte` have the texts of `i32` and `u8`.) -/
def known (c : Name) : Option Prim :=
  (table.find? (fun e => e.1.toList = c)).map (·.2)
where
  /-- name and type -/
  table : List (String × Prim) :=
    [("int", .int), ("float", .f32), ("void", .void), ("string", .string), ("bool", .bool),
     ("char", .char), ("I8", .i8), ("i8", .i8), ("U8", .u8), ("u8", .u8), ("I16", .i16),
     ("i16", .i16), ("U16", .u16), ("u16", .u16), ("I32", .i32), ("i32", .i32),
     ("int32_t", .i32), ("U32", .u32), ("u32", .u32), ("uint32_t", .u32), ("I64", .i64),
     ("i64", .i64), ("int64_t", .i64), ("U64", .u64), ("u64", .u64), ("uint64_t", .u64),
     ("f32", .f32), ("double", .f64), ("f64", .f64), ("I128", .i128), ("i128", .i128),
     ("U128", .u128), ("u128", .u128), ("rune", .i32), ("uint", .uint), ("byte", .u8),
     ("usize", .usize), ("isize", .isize)]

/-- `type_from_string_helper`, parser_utils.c:1577-1704. -/
def fromString (c : Name) : Form :=
  if _h : c.getLast? = some '*' then .ptr (fromString c.dropLast)
  else if structKw <+: c then .named true (sanitize (c.drop 7))
  else match known c with
    | some p => .prim p
    | none => .named false (sanitize c)
termination_by c.length
decreasing_by
  have : c ≠ [] := by rintro rfl; cases _h
  have := List.length_pos_iff.2 this
  simp only [List.length_dropLast]; omega

/-- The argument of a parameter, parser_utils.c:1715-1760. -/
def argOf (p c n : Name) : Option Name :=
  if ',' ∈ p then pick n (parts p) (parts c) else if n = p then some c else none

/-- The instance for the struct around, parser_utils.c:1762-1768. -/
def asSelf (st : Option (Name × Name)) (n : Name) : Option Name :=
  match st with
  | some (os, ns) => if n = os then some ns else none
  | none => none

/-- `replace_type_formal`, parser_utils.c:1706-1846.  `const` is a flag of the copied node; of a
function type the parameters are replaced, the result type (`inner`) is not (1829-1843). -/
def replaceFormal (p c : Name) (st : Option (Name × Name)) : Form → Form
  | .prim k => .prim k
  | .named kw n =>
    match argOf p c n with
    | some a => fromString a
    | none =>
      match asSelf st n with
      | some ns => .named kw ns
      | none =>
        match suffixRule p c n with
        | some m => .named kw m
        | none => .named kw n
  | .ptr t => .ptr (replaceFormal p c st t)
  | .arr t n => .arr (replaceFormal p c st t) n
  | .slice t => .slice (replaceFormal p c st t)
  | .const t =>
    match t with
    | .named kw n =>
      match argOf p c n with
      | some a => fromString a
      | none => .const (replaceFormal p c st (.named kw n))
    | t => .const (replaceFormal p c st t)
  | .fn r a => .fn r (replaceFormal p c st a)

/-- The kinds of nodes `copy_ast_replacing` has no case for, parser_utils.c:2207 and
/repo/src/ast/ast.h:115-178 (those that occur in bodies and have parts).  `match` is one of them, so
that the case for `NODE_MATCH_CASE` (2150-2175) is never reached. -/
inductive Other where
  | constant | forRange | loop | repeat_ | unless_ | guard | match_ | arrayLiteral | slice | assert
  | defer | destruct | ternary | lambda | plugin | doWhile | typeof | try_ | reflection | await
  | vaArg
  deriving DecidableEq, Repr

/-- Nodes, /repo/src/ast/ast.h:183-620: `nil` is `NULL`, the last part of every other is `next`.
`τ` are texts of types, `ι` types, `ν` names in expressions, `ρ` raw texts. -/
inductive Node (τ ι ν ρ : Type) where
  | nil
  | function (name : Name) (ret : τ) (retInfo : ι) (args : ρ) (argInfo : List ι) (body next : Node τ ι ν ρ)
  | block (stmts next : Node τ ι ν ρ)
  | raw (content : ρ) (next : Node τ ι ν ρ)
  | varDecl (name : Name) (type : τ) (info : ι) (init next : Node τ ι ν ρ)
  | ret (value next : Node τ ι ν ρ)
  | binary (op : Name) (left right next : Node τ ι ν ρ)
  | unary (op : Name) (operand next : Node τ ι ν ρ)
  | call (callee args next : Node τ ι ν ρ)
  | var (name : ν) (next : Node τ ι ν ρ)
  | int (val : Nat) (next : Node τ ι ν ρ)
  | str (val : Name) (next : Node τ ι ν ρ)
  | member (target : Node τ ι ν ρ) (field : Name) (next : Node τ ι ν ρ)
  | index (array idx next : Node τ ι ν ρ)
  | cast (type : τ) (info : ι) (expr next : Node τ ι ν ρ)
  | structInit (name : τ) (fields next : Node τ ι ν ρ)
  | ite (cond then_ else_ next : Node τ ι ν ρ)
  | while_ (cond body next : Node τ ι ν ρ)
  | for_ (init cond step body next : Node τ ι ν ρ)
  | sizeofType (type : τ) (next : Node τ ι ν ρ)
  | sizeofExpr (expr next : Node τ ι ν ρ)
  | other (k : Other) (type : Option τ) (a b c next : Node τ ι ν ρ)

/-- `is_primitive_type_name`, parser_utils.c:168-188. -/
def isPrimitive (n : Name) : Bool :=
  (["int", "i32", "u8", "i8", "i16", "u16", "u32", "i64", "u64", "f32", "float", "f64", "double",
    "void", "bool", "char", "usize", "isize", "uint", "byte", "int8_t", "uint8_t", "int16_t",
    "uint16_t", "int32_t", "uint32_t", "int64_t", "uint64_t", "size_t", "ptrdiff_t"].map
      String.toList).contains n

/-- no node -/
def Node.isNil {τ ι ν ρ : Type} : Node τ ι ν ρ → Bool
  | .nil => true
  | _ => false

/-- `copy_ast_replacing`, parser_utils.c:1915-2211.  In a `sizeof` the result is sanitized if it
has a `<`, which no type text has here (left out). -/
def copy (p c : Name) (st : Option (Name × Name)) :
    Node Name Form Name Name → Res (Node Name Form Name Name)
  | .nil => .ok .nil
  | .function n r ri as ais b nx => do
    let nx ← copy p c st nx
    let as ← rawText p c st as
    let b ← copy p c st b
    .ok (.function n (replaceTypeStr p c st r) (replaceFormal p c st ri) as
      (ais.map (replaceFormal p c st)) b nx)
  | .block b nx => do
    let nx ← copy p c st nx
    let b ← copy p c st b
    .ok (.block b nx)
  | .raw s nx => do
    let nx ← copy p c st nx
    let s ← rawText p c st s
    .ok (.raw s nx)
  | .varDecl n t i e nx => do
    let nx ← copy p c st nx
    let e ← copy p c st e
    .ok (.varDecl n (replaceTypeStr p c st t) (replaceFormal p c st i) e nx)
  | .ret e nx => do
    let nx ← copy p c st nx
    let e ← copy p c st e
    .ok (.ret e nx)
  | .binary o l r nx => do
    let nx ← copy p c st nx
    let l ← copy p c st l
    let r ← copy p c st r
    .ok (.binary o l r nx)
  | .unary o e nx => do
    let nx ← copy p c st nx
    let e ← copy p c st e
    .ok (.unary o e nx)
  | .call f a nx => do
    let nx ← copy p c st nx
    let f ← copy p c st f
    let a ← copy p c st a
    .ok (.call f a nx)
  | .var n nx => do
    let nx ← copy p c st nx
    let n ← varText p c st n
    .ok (.var n nx)
  | .int v nx => do
    let nx ← copy p c st nx
    .ok (.int v nx)
  | .str v nx => do
    let nx ← copy p c st nx
    .ok (.str v nx)
  | .member e f nx => do
    let nx ← copy p c st nx
    let e ← copy p c st e
    .ok (.member e f nx)
  | .index e i nx => do
    let nx ← copy p c st nx
    let e ← copy p c st e
    let i ← copy p c st i
    .ok (.index e i nx)
  | .cast t i e nx => do
    let nx ← copy p c st nx
    let e ← copy p c st e
    .ok (.cast (replaceTypeStr p c st t) (replaceFormal p c st i) e nx)
  | .structInit t fs nx => do
    let nx ← copy p c st nx
    let t := replaceTypeStr p c st t
    if (t.getLast? = some '*' ∨ isPrimitive t = true) ∧ fs.isNil = true then .ok (.int 0 nx)
    else do
      let fs ← copy p c st fs
      .ok (.structInit t fs nx)
  | .ite e a b nx => do
    let nx ← copy p c st nx
    let e ← copy p c st e
    let a ← copy p c st a
    let b ← copy p c st b
    .ok (.ite e a b nx)
  | .while_ e b nx => do
    let nx ← copy p c st nx
    let e ← copy p c st e
    let b ← copy p c st b
    .ok (.while_ e b nx)
  | .for_ i e s b nx => do
    let nx ← copy p c st nx
    let i ← copy p c st i
    let e ← copy p c st e
    let s ← copy p c st s
    let b ← copy p c st b
    .ok (.for_ i e s b nx)
  | .sizeofType t nx => do
    let nx ← copy p c st nx
    .ok (.sizeofType (replaceTypeStr p c st t) nx)
  | .sizeofExpr e nx => do
    let nx ← copy p c st nx
    let e ← copy p c st e
    .ok (.sizeofExpr e nx)
  | .other k t a b e nx => do
    let nx ← copy p c st nx
    .ok (.other k t a b e nx)

namespace Spec

/-- Pieces of a C text: words (identifiers, keywords, numbers), string literals with the text
between their quotes, other characters. -/
inductive Piece where
  | word (w : Name)
  | mark (c : Char)
  | str (body : Name)
  deriving DecidableEq, Repr

/-- the text of a piece -/
def Piece.text : Piece → Name
  | .word w => w
  | .mark c => [c]
  | .str b => '"' :: b ++ ['"']

/-- the text of some pieces -/
def text (ps : List Piece) : Name := ps.flatMap Piece.text

/-- The text between the quotes of a string literal. -/
inductive Body : Name → Prop
  | nil : Body []
  | esc (c : Char) {s : Name} : Body s → Body ('\\' :: c :: s)
  | char (c : Char) {s : Name} : c ≠ '"' → c ≠ '\\' → Body s → Body (c :: s)

/-- Pieces are what they seem. -/
def Piece.WF : Piece → Prop
  | .word w => w ≠ [] ∧ ∀ c ∈ w, isIdent c = true
  | .mark c => isIdent c = false ∧ c ≠ '"'
  | .str b => Body b

/-- Pieces that can follow each other: words are separated; no backslash before a string. -/
def Next : Piece → Piece → Prop
  | .word _, .word _ => False
  | .mark c, .str _ => c ≠ '\\'
  | _, _ => True

/-- A text of pieces. -/
inductive Code : List Piece → Prop
  | nil : Code []
  | one {a : Piece} : a.WF → Code [a]
  | cons {a b : Piece} {ps : List Piece} : a.WF → Next a b → Code (b :: ps) → Code (a :: b :: ps)

/-- Parts between underscores. -/
def segs : Name → List Name
  | [] => [[]]
  | c :: r =>
    if c = '_' then [] :: segs r
    else match segs r with
      | [] => [[c]]
      | w :: ws => (c :: w) :: ws

/-- with underscores between them -/
def join : List Name → Name
  | [] => []
  | [w] => w
  | w :: ws => w ++ '_' :: join ws

/-- Put `c` in for the part `p` of a name of several parts: `Vec_T__new` is `Vec_int__new` for
`T = int`. -/
def inName (p c w : Name) : Name :=
  if 2 ≤ (segs w).length then join ((segs w).map fun s => if s = p then c else s) else w

/-- Names and other characters of a text. -/
def tokens : Name → List Piece
  | [] => []
  | c :: r =>
    if isIdent c then
      match tokens r with
      | .word w :: ts => .word (c :: w) :: ts
      | ts => .word [c] :: ts
    else .mark c :: tokens r

/-- `p` is no part of a name of several parts -/
def Apart (p w : Name) : Prop := 2 ≤ (segs w).length → p ∉ segs w

/-- A name in an expression: a variable or function, or a method of a type `o::m`. -/
inductive VName where
  | plain (n : Name)
  | static (o : Ty) (m : Name)
  deriving DecidableEq, Repr

/-- the name in C -/
def VName.text : VName → Name
  | .plain n => n
  | .static o m => sanitize (zText o) ++ '_' :: '_' :: m

/-- Code as written: types, names and raw texts as they are meant. -/
abbrev Src := Node Ty Ty VName (List Piece)

/-- change the parts of a node -/
def map {τ ι ν ρ τ' ι' ν' ρ' : Type} (f : τ → τ') (g : ι → ι') (h : ν → ν') (k : ρ → ρ') :
    Node τ ι ν ρ → Node τ' ι' ν' ρ'
  | .nil => .nil
  | .function n r ri as ais b nx =>
    .function n (f r) (g ri) (k as) (ais.map g) (map f g h k b) (map f g h k nx)
  | .block b nx => .block (map f g h k b) (map f g h k nx)
  | .raw s nx => .raw (k s) (map f g h k nx)
  | .varDecl n t i e nx => .varDecl n (f t) (g i) (map f g h k e) (map f g h k nx)
  | .ret e nx => .ret (map f g h k e) (map f g h k nx)
  | .binary o l r nx => .binary o (map f g h k l) (map f g h k r) (map f g h k nx)
  | .unary o e nx => .unary o (map f g h k e) (map f g h k nx)
  | .call e a nx => .call (map f g h k e) (map f g h k a) (map f g h k nx)
  | .var n nx => .var (h n) (map f g h k nx)
  | .int v nx => .int v (map f g h k nx)
  | .str v nx => .str v (map f g h k nx)
  | .member e m nx => .member (map f g h k e) m (map f g h k nx)
  | .index e i nx => .index (map f g h k e) (map f g h k i) (map f g h k nx)
  | .cast t i e nx => .cast (f t) (g i) (map f g h k e) (map f g h k nx)
  | .structInit t fs nx => .structInit (f t) (map f g h k fs) (map f g h k nx)
  | .ite e a b nx => .ite (map f g h k e) (map f g h k a) (map f g h k b) (map f g h k nx)
  | .while_ e b nx => .while_ (map f g h k e) (map f g h k b) (map f g h k nx)
  | .for_ i e s b nx =>
    .for_ (map f g h k i) (map f g h k e) (map f g h k s) (map f g h k b) (map f g h k nx)
  | .sizeofType t nx => .sizeofType (f t) (map f g h k nx)
  | .sizeofExpr e nx => .sizeofExpr (map f g h k e) (map f g h k nx)
  | .other o t a b c nx =>
    .other o (t.map f) (map f g h k a) (map f g h k b) (map f g h k c) (map f g h k nx)

/-- the nodes the parser makes of it, with the types as C sees them in place of `Form` -/
def seen (n : Node Name Form Name Name) : Node Name Name Name Name :=
  map id (fun t => t.txt true []) id id n

/-- the nodes the parser makes of code -/
def nodes (s : Src) : Node Name Form Name Name := map zText Form.of VName.text text s

/-- the same, with types as C sees them -/
def meant (s : Src) : Node Name Name Name Name := map zText cText VName.text text s

/-- Types without parts: `T {}` is zero. -/
def isValue : Ty → Bool
  | .prim _ => true
  | .ptr _ => true
  | _ => false

/-- Initializers without fields of such types are 0. -/
def zeros : Src → Src
  | .nil => .nil
  | .function n r ri as ais b nx => .function n r ri as ais (zeros b) (zeros nx)
  | .block b nx => .block (zeros b) (zeros nx)
  | .raw s nx => .raw s (zeros nx)
  | .varDecl n t i e nx => .varDecl n t i (zeros e) (zeros nx)
  | .ret e nx => .ret (zeros e) (zeros nx)
  | .binary o l r nx => .binary o (zeros l) (zeros r) (zeros nx)
  | .unary o e nx => .unary o (zeros e) (zeros nx)
  | .call e a nx => .call (zeros e) (zeros a) (zeros nx)
  | .var n nx => .var n (zeros nx)
  | .int v nx => .int v (zeros nx)
  | .str v nx => .str v (zeros nx)
  | .member e m nx => .member (zeros e) m (zeros nx)
  | .index e i nx => .index (zeros e) (zeros i) (zeros nx)
  | .cast t i e nx => .cast t i (zeros e) (zeros nx)
  | .structInit t fs nx =>
    if isValue t = true ∧ fs.isNil = true then .int 0 (zeros nx)
    else .structInit t (zeros fs) (zeros nx)
  | .ite e a b nx => .ite (zeros e) (zeros a) (zeros b) (zeros nx)
  | .while_ e b nx => .while_ (zeros e) (zeros b) (zeros nx)
  | .for_ i e s b nx => .for_ (zeros i) (zeros e) (zeros s) (zeros b) (zeros nx)
  | .sizeofType t nx => .sizeofType t (zeros nx)
  | .sizeofExpr e nx => .sizeofExpr (zeros e) (zeros nx)
  | .other o t a b c nx => .other o t (zeros a) (zeros b) (zeros c) (zeros nx)

end Spec

end Verif.GenBody
