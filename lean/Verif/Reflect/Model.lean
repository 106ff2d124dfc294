import Verif.Mixin.Lemmas

/-!
# Reflection: model

`@type_name(T)` and `@fields(T)`: the parser's node (/repo/src/parser/parser_expr.c:1580-1622), the copy
of it in an instance of a generic function (/repo/src/parser/parser_utils.c:1915-2202), the C text
(/repo/src/codegen/codegen.c:1598-1639) with the names of types of /repo/src/ast/ast.c:482-753, and what
the C compiler makes of it.

The layout of structs is that of the unit `Mixin` (System V ABI, to the bit).

Not modelled: `const`, arrays, slices, vectors, function types, `_BitInt`, the types of C (`c_int` and
the like), aliases, enums, generic structs, attributes other than `@packed`, structs of imported C
headers (which are not found, like names that are declared nowhere).
-/

namespace Verif.Reflect
open Verif
open Verif.Mixin (Fld SDef)

/-- Texts are lists of characters. -/
abbrev Text := List Char

/-- The scalar types (ast.h, `TypeKind`). -/
inductive Prim where
  | bool | string | char | i8 | u8 | i16 | u16 | i32 | u32 | i64 | u64 | f32 | f64 | usize | isize
  | byte | rune | int | float
  deriving DecidableEq, Repr

/-- Types; `param` is a parameter of a generic function, seen in its body. -/
inductive Ty where
  | prim (p : Prim)
  | struct (n : Text)
  | param (n : Text)
  | ptr (t : Ty)
  deriving DecidableEq, Repr

/-- The names in C (ast.c:525-600). -/
def primText : Prim → Text
  | .bool => "bool".toList
  | .string => "string".toList
  | .char => "char".toList
  | .i8 => "int8_t".toList
  | .u8 => "uint8_t".toList
  | .i16 => "int16_t".toList
  | .u16 => "uint16_t".toList
  | .i32 => "int32_t".toList
  | .u32 => "uint32_t".toList
  | .i64 => "int64_t".toList
  | .u64 => "uint64_t".toList
  | .f32 => "float".toList
  | .f64 => "double".toList
  | .usize => "size_t".toList
  | .isize => "ptrdiff_t".toList
  | .byte => "uint8_t".toList
  | .rune => "int32_t".toList
  | .int => "int32_t".toList
  | .float => "float".toList

/-- `type_to_c_string` (ast.c:482-753); a pointer adds a star (ast.c:620-649, no function types here). -/
def cText : Ty → Text
  | .prim p => primText p
  | .struct n => n
  | .param n => n
  | .ptr t => cText t ++ ['*']

/-- A field of a struct with its type, and its size, alignment and width in bits as in `Mixin`
(parser_struct.c:970-992: the text of the type is that of `type_to_c_string`). -/
structure Field where
  c : Fld
  ty : Ty
  deriving DecidableEq, Repr

/-- A struct or union (`node->strct`). -/
structure Def where
  name : Text
  fields : List Field
  union : Bool
  packed : Bool
  deriving DecidableEq, Repr

/-- The struct for the C compiler (codegen_decl.c:457-484). -/
def Def.sdef (d : Def) : SDef := ⟨String.ofList d.name, d.fields.map (·.c), d.union, d.packed, []⟩

/-- `find_struct_def` (parser_utils.c:1071-1111), simplified to the list of the structs parsed. -/
def find (env : List Def) (n : Text) : Option Def := env.find? (fun d => d.name == n)

/-- One row of the table: name, type, offset; a null pointer is `none`. -/
abbrev Row := Option String × Option Text × Nat

/-- `__builtin_offsetof(struct S, f)`, in bytes: an error if `S` is the tag of a union, if there is no
field of that name or if it is a bit field (C11 7.19p3, GCC: "attempt to take address of bit-field"). -/
def offsetOf (d : Def) (n : String) : Option Nat :=
  if d.union then none
  else
    match (Mixin.places d.sdef).find? (fun p => p.1.name == n) with
    | some p => if p.1.width = 0 then some (p.2 / 8) else none
    | none => none

/-- The rows of the fields (codegen.c:1626-1635); `none` if the C compiler refuses one. -/
def rows (d : Def) : List Field → Option (List Row)
  | [] => some []
  | f :: r =>
    match offsetOf d f.c.name, rows d r with
    | some o, some t => some ((some f.c.name, some (cText f.ty), o) :: t)
    | _, _ => none

/-- What `@fields(T)` is in the program that is compiled. -/
inductive Out where
  | null
  | table (t : List Row)
  | refused
  deriving DecidableEq, Repr

/-- `@fields(T)` (codegen.c:1607-1637): the rows and one of zeros.  A parameter of a generic function is
a name without a definition. -/
def fields (env : List Def) : Ty → Out
  | .struct n =>
    match find env n with
    | none => .null
    | some d =>
      match rows d d.fields with
      | some t => .table (t ++ [(none, none, 0)])
      | none => .refused
  | _ => .null

/-- `@type_name(T)` (codegen.c:1601-1606). -/
def typeName (t : Ty) : Text := cText t

/-- The type in the node of a reflection after `copy_ast_replacing` (parser_utils.c:1915-2202) made the
instance of a generic function for `p` = `c`: there is no case for these nodes, the type is the one of
the template. -/
def copied (_p : Text) (_c : Ty) (t : Ty) : Ty := t

/-- A program reading the table: up to the first row without a name. -/
def walk : List Row → List Row
  | [] => []
  | (some n, r) :: t => (some n, r) :: walk t
  | (none, _) :: _ => []

/-! ## What is meant -/

namespace Spec

/-- The type a parameter stands for. -/
def subst (p : Text) (c : Ty) : Ty → Ty
  | .prim q => .prim q
  | .struct n => .struct n
  | .param n => if n = p then c else .param n
  | .ptr t => .ptr (subst p c t)

/-- A struct of ordinary fields with different names. -/
def Plain (d : Def) : Prop :=
  d.union = false ∧ (∀ f ∈ d.fields, f.c.width = 0) ∧ (d.fields.map (·.c.name)).Nodup

/-- `o` is where the program finds the field: the bytes from `o` on are what `x.f` reads, and writing
them is writing `x.f`. -/
def At (d : Def) (f : Field) (o : Nat) : Prop :=
  (∀ m, Mixin.run d.sdef (.read f.c.name .ret) m = some (Mixin.get m (8 * o) (8 * f.c.size), m)) ∧
  ∀ m v w, Mixin.run d.sdef (.write f.c.name v (.ret w)) m =
    some (w, Mixin.put m (8 * o) (8 * f.c.size) v)

/-- The scalar types that C does not tell apart: `byte` is `u8`, `rune` and `int` are `i32`, `float` is
`f32`. -/
def canon : Ty → Ty
  | .prim .byte => .prim .u8
  | .prim .rune => .prim .i32
  | .prim .int => .prim .i32
  | .prim .float => .prim .f32
  | .ptr t => .ptr (canon t)
  | t => t

/-- Types whose structs are named as a program can name them: not like a scalar type of C, and without
stars. -/
def Named : Ty → Prop
  | .prim _ => True
  | .struct n => '*' ∉ n ∧ ∀ p, primText p ≠ n
  | .param _ => False
  | .ptr t => Named t

end Spec

end Verif.Reflect
