import Verif.Basic

/-!
# The order of type definitions in the generated C file

Models, from `/repo/src/codegen/codegen_main.c`, `struct_depends_on`, `topo_sort_structs` and
the part of `codegen_node` that collects the structs and enums of a program; from
`/repo/src/codegen/codegen_decl.c`, `print_type_defs`, `emit_enum_protos`,
`emit_global_aliases` and `emit_struct_defs` as far as they decide *which* names a declaration
of the C file declares, completes and mentions, and in which order; and from
`/repo/src/ast/ast.c`, the texts `type_to_c_string` and `type_to_string` give to types.

Simplified: bit-precise integers, varying function types (a raw function type has one
parameter here) and vectors without a name are left out; `@cfg` guards are C59; the layout
attributes and field names are left out; a variant without a payload mentions only its own
enum and is left out; the fields of a tuple are taken to be the element types (how the element
types are recovered from the signature is C61).
-/

namespace Verif.DeclOrder

/-- The characters of a C string, without the final 0. -/
abbrev Name := List Char

/-- Types without parts: `TypeKind` of /repo/src/ast/ast.h:21-76. -/
inductive Prim where
  | void | bool | string | char | i8 | u8 | i16 | u16 | i32 | u32 | i64 | u64 | f32 | f64
  | usize | isize | i128 | u128 | uint | cint | clong | clonglong | cshort | cuchar | int | closure
  deriving DecidableEq, Repr

/-- `type_to_c_string` on them, /repo/src/ast/ast.c:508-590 and 733. -/
def Prim.cText : Prim → String
  | .void => "void" | .bool => "bool" | .string => "string" | .char => "char"
  | .i8 => "int8_t" | .u8 => "uint8_t" | .i16 => "int16_t" | .u16 => "uint16_t"
  | .i32 => "int32_t" | .u32 => "uint32_t" | .i64 => "int64_t" | .u64 => "uint64_t"
  | .f32 => "float" | .f64 => "double" | .usize => "size_t" | .isize => "ptrdiff_t"
  | .i128 => "__int128" | .u128 => "unsigned __int128" | .uint => "unsigned int"
  | .cint => "int" | .clong => "long" | .clonglong => "long long" | .cshort => "short"
  | .cuchar => "unsigned char" | .int => "int32_t" | .closure => "z_closure_T"

/-- `type_to_string` on them, /repo/src/ast/ast.c:249-318 and 450. -/
def Prim.zText : Prim → String
  | .cint => "c_int" | .clong => "c_long" | .clonglong => "c_long_long" | .cshort => "c_short"
  | .cuchar => "c_uchar" | .int => "int"
  | p => p.cText

/-- A type of the program, after parsing: `Type` of /repo/src/ast/ast.h:78-110.  `named kw n` is
a struct, enum, named vector, tuple (`Tuple_...`) or instance of a generic, `kw` when it was
written `struct n`; `arr` has a size, `slice` none; `alias` is an opaque alias (a transparent
one is replaced when it is read, /repo/src/parser/parser_type.c:33-53). -/
inductive Ty where
  | prim (p : Prim)
  | named (kw : Bool) (n : Name)
  | ptr (t : Ty)
  | arr (t : Ty) (size : Nat)
  | slice (t : Ty)
  | rawFn (ret arg : Ty)
  | const (t : Ty)
  | alias (n : Name) (t : Ty)
  deriving DecidableEq, Repr

/-- `[%d]` -/
def dim (n : Nat) : Name := '[' :: (toString n).toList ++ [']']

/-- `type_to_string`, /repo/src/ast/ast.c:224-476; `dims` are the sizes of the arrays around.
Simplified: `struct` is dropped as there; arguments of generics are part of the name. -/
def zTextD : Ty → Name → Name
  | .prim p, d => p.zText.toList ++ d
  | .named _ n, d => n ++ d
  | .ptr t, d => zTextD t [] ++ '*' :: d
  | .arr t n, d => zTextD t (d ++ dim n)
  | .slice t, d => "Slice_".toList ++ zTextD t [] ++ d
  | .rawFn r a, d => "fn*(".toList ++ zTextD a [] ++ ") -> ".toList ++ zTextD r [] ++ d
  | .const t, d => "const ".toList ++ zTextD t [] ++ d
  | .alias n _, d => n ++ d

/-- `type_to_string` -/
def zText (t : Ty) : Name := zTextD t []

/-- `type_to_c_string`, /repo/src/ast/ast.c:482-755; `dims` are the sizes of the arrays around.
Simplified: the star of a pointer to a function type goes behind the text, not inside the
parentheses. -/
def cTextD : Ty → Name → Name
  | .prim p, d => p.cText.toList ++ d
  | .named kw n, d => (if kw then "struct ".toList else []) ++ n ++ d
  | .ptr t, d => cTextD t [] ++ '*' :: d
  | .arr t n, d => cTextD t (d ++ dim n)
  | .slice t, d => "Slice_".toList ++ zText t ++ d
  | .rawFn r a, d => cTextD r [] ++ " (*)(".toList ++ cTextD a [] ++ [')'] ++ d
  | .const t, d => "const ".toList ++ cTextD t [] ++ d
  | .alias _ t, d => cTextD t [] ++ d

/-- `type_to_c_string` -/
def cText (t : Ty) : Name := cTextD t []

/-- Kinds of nodes the sort looks at: `NODE_STRUCT` (`vector` when its `type_info` is a
`TYPE_VECTOR`), `NODE_ENUM`, `NODE_TRAIT`. -/
inductive Kind where
  | struct | vector | enum | trait
  deriving DecidableEq, Repr

/-- A struct, union, enum or trait node; `fields` are the types of the fields, or the payloads of
the variants. -/
structure Node where
  kind : Kind
  name : Name
  fields : List Ty
  template : Bool
  incomplete : Bool
  deriving DecidableEq, Repr

/-- `isspace` in the C locale. -/
def isSpace (c : Char) : Bool :=
  c = ' ' || c = '\t' || c = '\n' || c.toNat = 11 || c.toNat = 12 || c = '\r'

/-- The prefixes removed from a type text, /repo/src/codegen/codegen_main.c:33-45, 76-88. -/
def clean (s : Name) : Name :=
  if "struct ".toList.isPrefixOf s then s.drop 7
  else if "enum ".toList.isPrefixOf s then s.drop 5
  else if "union ".toList.isPrefixOf s then s.drop 6
  else s

/-- `strncmp(clean, target, len) == 0` and the next character is 0, `[` or a space,
/repo/src/codegen/codegen_main.c:47-55, 90-99. -/
def leads (target s : Name) : Bool :=
  target.isPrefixOf s && match s.drop target.length with
    | [] => true
    | c :: _ => c = '[' || isSpace c

/-- Does this type text make a dependency on `target`?
/repo/src/codegen/codegen_main.c:23-57, 66-101. -/
def textDepends (s target : Name) : Bool :=
  if s.contains '*' then false else leads target (clean s)

/-- The texts looked at: `field.type`, which is `type_to_c_string` of the field's type
(/repo/src/parser/parser_struct.c:972-979), or `type_to_string` of the payload
(/repo/src/codegen/codegen_main.c:68). -/
def texts (n : Node) : List Name :=
  match n.kind with
  | .struct | .vector => n.fields.map cText
  | .enum => n.fields.map zText
  | .trait => []

/-- `struct_depends_on`, /repo/src/codegen/codegen_main.c:9-109. -/
def dependsOn (n : Node) (target : Name) : Bool := (texts n).any fun s => textDepends s target

/-- Can node `i` be emitted?  /repo/src/codegen/codegen_main.c:168-203.  `order` is what was
emitted: `emitted[j]` is membership in it. -/
def canEmit (ns : List Node) (order : List Nat) (i : Nat) : Bool :=
  match ns[i]? with
  | none => false
  | some n =>
    n.kind = .trait ||
      (List.range ns.length).all fun j =>
        i = j || order.contains j ||
          match ns[j]? with
          | none => true
          | some m => m.kind = .trait || !dependsOn n m.name

/-- One turn of the inner `for`, /repo/src/codegen/codegen_main.c:161-210: the order so far and
`changed`. -/
def visit (ns : List Node) (st : List Nat × Bool) (i : Nat) : List Nat × Bool :=
  if st.1.contains i then st
  else if canEmit ns st.1 i then (st.1 ++ [i], true)
  else st

/-- The `while (changed && iterations < max_iterations)`,
/repo/src/codegen/codegen_main.c:156-211. -/
def loop (ns : List Node) : Nat → List Nat → List Nat
  | 0, o => o
  | f + 1, o =>
    let r := (List.range ns.length).foldl (visit ns) (o, false)
    if r.2 then loop ns f r.1 else r.1

/-- The `order` array of `topo_sort_structs`, /repo/src/codegen/codegen_main.c:149-220.
Simplified: `count * count` does not overflow. -/
def topoOrder (ns : List Node) : List Nat :=
  let o := loop ns (ns.length * ns.length) []
  o ++ (List.range ns.length).filter fun i => !o.contains i

/-- `topo_sort_structs`, /repo/src/codegen/codegen_main.c:112-246, on a list of structs, enums
and traits. -/
def topoSort (ns : List Node) : List Node := (topoOrder ns).filterMap fun i => ns[i]?

/-- What the parser hands over: `ctx->instantiated_structs`, `parsed_structs_list`,
`parsed_enums_list`, the root's children, `used_slices` (oldest first), `used_tuples` (latest
first) and `type_aliases` (latest first; here with the type the alias stands for). -/
structure Program where
  insts : List Node
  structs : List Node
  enums : List Node
  kids : List Node
  slices : List Ty
  tuples : List (List Ty)
  aliases : List (Name × Ty)

/-- Same kind of node: a vector is a `NODE_STRUCT`. -/
def sameKind (a b : Node) : Bool :=
  (if a.kind = .vector then .struct else a.kind) = (if b.kind = .vector then .struct else b.kind)

/-- The children of the root that are not yet in the merged list,
/repo/src/codegen/codegen_main.c:439-478. -/
def mergeKids : List Node → List Node → List Node
  | m, [] => m
  | m, k :: ks =>
    if k.kind ≠ .trait then
      if m.any (fun c => sameKind c k && c.name = k.name) then mergeKids m ks
      else mergeKids (m ++ [k]) ks
    else mergeKids m ks

/-- The list that is sorted, /repo/src/codegen/codegen_main.c:376-478. -/
def merged (p : Program) : List Node := mergeKids (p.insts ++ p.structs ++ p.enums) p.kids

/-- How a C declaration mentions a type name: `val n` needs the size of `n`, `ref n` only that
`n` is a type name. -/
inductive Use where
  | val (n : Name)
  | ref (n : Name)
  deriving DecidableEq, Repr

/-- the name -/
def Use.name : Use → Name
  | .val n => n
  | .ref n => n

/-- Behind a pointer, or in a parameter list, no size is needed. -/
def Use.weak : Use → Use
  | .val n => .ref n
  | .ref n => .ref n

/-- The struct that stands for a slice type. -/
def sliceName (t : Ty) : Name := "Slice_".toList ++ zText t

/-- The names in a type printed with `type_to_c_string`. -/
def uses : Ty → List Use
  | .prim _ => []
  | .named _ n => [.val n]
  | .ptr t => (uses t).map Use.weak
  | .arr t _ => uses t
  | .slice t => [.val (sliceName t)]
  | .rawFn r a => (uses r ++ uses a).map Use.weak
  | .const t => uses t
  | .alias _ t => uses t

/-- The names in a type printed with `type_to_string`: an opaque alias appears under its own
name. -/
def usesZ : Ty → List Use
  | .prim _ => []
  | .named _ n => [.val n]
  | .ptr t => (usesZ t).map Use.weak
  | .arr t _ => usesZ t
  | .slice t => [.val (sliceName t)]
  | .rawFn r a => (usesZ r ++ usesZ a).map Use.weak
  | .const t => usesZ t
  | .alias n _ => [.val n]

/-- The joined element types of a tuple, /repo/src/parser/parser_type.c:739-766. -/
def tupleSig : List Ty → Name
  | [] => []
  | [t] => zText t
  | t :: ts => zText t ++ "__".toList ++ tupleSig ts

/-- The struct that stands for a tuple type. -/
def tupleName (ts : List Ty) : Name := "Tuple_".toList ++ tupleSig ts

/-- Declarations of the C file: `typedef struct n n;`, `typedef <type> n;`, a function prototype
mentioning some names, and the definition of `n` with members using some names. -/
inductive CDecl where
  | fwd (n : Name)
  | typedef (us : List Use) (n : Name)
  | proto (us : List Use)
  | defn (n : Name) (us : List Use)
  deriving DecidableEq, Repr

/-- A slice struct, /repo/src/codegen/codegen_decl.c:1232-1239. -/
def emitSlice (t : Ty) : List CDecl :=
  [.fwd (sliceName t), .defn (sliceName t) ((usesZ t).map Use.weak)]

/-- A tuple struct, /repo/src/codegen/codegen_decl.c:1240-1266. -/
def emitTuple (ts : List Ty) : List CDecl :=
  [.fwd (tupleName ts), .defn (tupleName ts) (ts.flatMap usesZ)]

/-- The typedefs of local structs and enums, /repo/src/codegen/codegen_decl.c:1272-1297. -/
def emitFwd (n : Node) : List CDecl :=
  if n.template then []
  else match n.kind with
    | .struct | .enum => [.fwd n.name]
    | .vector | .trait => []

/-- `emit_enum_protos`, /repo/src/codegen/codegen_decl.c:279-312. -/
def emitProto (n : Node) : List CDecl :=
  if n.template then []
  else match n.kind with
    | .enum => n.fields.map fun t => .proto (.ref n.name :: (uses t).map Use.weak)
    | _ => []

/-- `emit_global_aliases`, /repo/src/codegen/codegen_decl.c:268-276: the text of the alias is
`type_to_string` (/repo/src/parser/parser_decl.c:932, /repo/src/parser/parser_type.c:958-963). -/
def emitAlias (a : Name × Ty) : CDecl := .typedef (usesZ a.2) a.1

/-- `emit_struct_defs`, /repo/src/codegen/codegen_decl.c:415-585. -/
def emitDef (n : Node) : List CDecl :=
  if n.template then []
  else match n.kind with
    | .struct => if n.incomplete then [] else [.defn n.name (n.fields.flatMap uses)]
    | .vector => if n.incomplete then [] else [.defn n.name []]
    | .enum => [.defn n.name (n.fields.flatMap uses)]
    | .trait => []

/-- `codegen_node` on the root, the part about types:
/repo/src/codegen/codegen_main.c:480-487, 555-561 and
/repo/src/codegen/codegen_decl.c:1170-1298. -/
def emit (p : Program) : List CDecl :=
  let sorted := topoSort (merged p)
  p.slices.flatMap emitSlice ++ (p.tuples.flatMap emitTuple ++ (sorted.flatMap emitFwd ++
    (sorted.flatMap emitProto ++ (p.aliases.map emitAlias ++ sorted.flatMap emitDef))))

namespace Spec

/-- Names a list of C declarations makes known as type names. -/
def declares (ds : List CDecl) : List Name :=
  ds.flatMap fun
    | .fwd n => [n]
    | .typedef _ n => [n]
    | .proto _ => []
    | .defn n _ => [n]

/-- Names whose size is known after them. -/
def completes (ds : List CDecl) : List Name :=
  ds.flatMap fun
    | .defn n _ => [n]
    | _ => []

/-- The rule of C for one declaration behind the declarations `before` (C11 6.2.5, 6.7.2.1,
6.7.2.3): type names are declared before they are used, a member's type is complete, and no
struct is defined twice.  `ext` are the types the included headers define. -/
def Legal (ext : List Name) (before : List CDecl) : CDecl → Prop
  | .fwd _ => True
  | .typedef us _ => ∀ u ∈ us, u.name ∈ ext ∨ u.name ∈ declares before
  | .proto us => ∀ u ∈ us, u.name ∈ ext ∨ u.name ∈ declares before
  | .defn n us => n ∉ completes before ∧
      (∀ m, .val m ∈ us → m ∈ ext ∨ m ∈ completes before) ∧
      (∀ m, .ref m ∈ us → m ∈ ext ∨ m ∈ declares before)

/-- A C compiler accepts the declarations: each is legal where it stands. -/
def Accepts (ext : List Name) (ds : List CDecl) : Prop :=
  ∀ a d b, ds = a ++ d :: b → Legal ext a d

/-- an identifier -/
def Ident (n : Name) : Prop := n ≠ [] ∧ ∀ c ∈ n, c.isAlphanum = true ∨ c = '_'

/-- Words that cannot be the name of a type of the program: C's own and the standard names. -/
def reserved : List Name :=
  ["void", "bool", "string", "char", "int8_t", "uint8_t", "int16_t", "uint16_t", "int32_t",
   "uint32_t", "int64_t", "uint64_t", "float", "double", "size_t", "ptrdiff_t", "__int128",
   "unsigned", "int", "long", "short", "z_closure_T", "c_int", "c_long", "c_long_long", "c_short",
   "c_uchar", "const", "struct", "enum", "union"].map String.toList

/-- All types of the program. -/
def all (p : Program) : List Node := p.insts ++ p.structs ++ p.enums ++ p.kids

/-- Types a field contains by value. -/
def contains (n : Node) (m : Name) : Prop := ∃ t ∈ n.fields, .val m ∈ uses t

/-- The types of the program can be laid out: names are distinct identifiers, and every type a
type contains by value is known from the headers, is a slice or a tuple, or is a defined type of
the program of lower rank — so that no type contains itself. -/
structure Layout (ext : List Name) (p : Program) : Prop where
  same : ∀ a ∈ all p, ∀ b ∈ all p, a.name = b.name → a = b
  nodup : ((p.insts ++ p.structs ++ p.enums).map Node.name).Nodup
  noTrait : ∀ n ∈ all p, n.kind ≠ .trait
  ident : ∀ n ∈ all p, Ident n.name ∧ n.name ∉ reserved
  own : ∀ n ∈ all p, n.name ∉ ext ∧ n.name ∉ p.slices.map sliceName ∧
    n.name ∉ p.tuples.map tupleName
  ranked : ∃ rank : Name → Nat, ∀ n ∈ all p, n.template = false → ∀ m, contains n m →
    m ∈ ext ∨ m ∈ p.slices.map sliceName ∨ m ∈ p.tuples.map tupleName ∨
      ∃ k ∈ all p, k.name = m ∧ k.template = false ∧ (k.incomplete = false ∨ k.kind = .enum) ∧
        rank m < rank n.name
  known : ∀ n ∈ all p, n.template = false → ∀ t ∈ n.fields, ∀ m, .ref m ∈ uses t →
    m ∈ ext ∨ m ∈ p.slices.map sliceName ∨ m ∈ p.tuples.map tupleName ∨
      ∃ k ∈ all p, k.name = m ∧ k.template = false

end Spec
end Verif.DeclOrder
