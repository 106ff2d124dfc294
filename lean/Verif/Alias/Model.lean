import Verif.Basic

/-!
# Aliases of types: model

`alias A = T;` keeps the text of `T` as `type_to_string` prints it (src/parser/parser_decl.c:922-950,
src/parser/parser_type.c:958-963, src/ast/ast.c:224-475), and every use of `A` reads that text again
(src/parser/parser_type.c:32-54).  The same table is filled with the structs of imported C headers
(src/parser/parser_stmt.c:3250-3302).

Simplified: texts are lists of tokens.  Left out: `A::B`, instances of generic types (their names are
plain identifiers once read), tuples (likewise), `iN`/`uN` of other widths, array sizes that are
expressions, `const` on an inner array, and the flag `is_explicit_struct`.
-/

namespace Verif.Alias
open Verif

/-- Tokens of types -/
inductive Tok where
  | ident (w : String) | num (n : Nat) | star | lbrack | rbrack | lp | rp | comma | arrow | semi | other
  deriving DecidableEq, Repr

/-- The primitive kinds that `parse_type_base` makes (src/parser/parser_type.c:106-514) -/
inductive Prim where
  | void | bool | str | chr | i8 | u8 | i16 | u16 | i32 | u32 | i64 | u64 | f32 | f64 | usize | isize | byte
  | i128 | u128 | rune | cInt | cUint | cLong | cUlong | cLongLong | cUlongLong | cShort | cUshort | cChar | cUchar
  deriving DecidableEq, Repr

mutual
/-- Types (`Type`, src/ast/ast.h:78-110): an array of size 0 is a slice; `raw` a function pointer `fn*`;
`closure` a function type; `opq` the wrapper of an opaque alias -/
inductive Ty where
  | prim (p : Prim)
  | named (n : String)
  | ptr (t : Ty)
  | arr (n : Nat) (t : Ty)
  | raw (args : Tys) (ret : Ty)
  | closure (args : Tys) (ret : Ty)
  | const (t : Ty)
  | restrict (t : Ty)
  | opq (n : String) (t : Ty)
  | unknown
  deriving DecidableEq
inductive Tys where
  | nil
  | cons (t : Ty) (ts : Tys)
  deriving DecidableEq
end

/-! ## Printing -/

/-- `type_to_string_impl` of primitive types (src/ast/ast.c:250-315), word by word -/
def primText : Prim → List String
  | .void => ["void"] | .bool => ["bool"] | .str => ["string"] | .chr => ["char"]
  | .i8 => ["int8_t"] | .u8 => ["uint8_t"] | .i16 => ["int16_t"] | .u16 => ["uint16_t"]
  | .i32 => ["int32_t"] | .u32 => ["uint32_t"] | .i64 => ["int64_t"] | .u64 => ["uint64_t"]
  | .f32 => ["float"] | .f64 => ["double"] | .usize => ["size_t"] | .isize => ["ptrdiff_t"]
  | .byte => ["uint8_t"] | .i128 => ["__int128"] | .u128 => ["unsigned", "__int128"] | .rune => ["int32_t"]
  | .cInt => ["c_int"] | .cUint => ["c_uint"] | .cLong => ["c_long"] | .cUlong => ["c_ulong"]
  | .cLongLong => ["c_long_long"] | .cUlongLong => ["c_ulong_long"] | .cShort => ["c_short"]
  | .cUshort => ["c_ushort"] | .cChar => ["c_char"] | .cUchar => ["c_uchar"]

/-- `[%d]` for each size (src/ast/ast.c:398-403) -/
def dimToks : List Nat → List Tok
  | [] => []
  | d :: ds => .lbrack :: .num d :: .rbrack :: dimToks ds

/-- `Slice_%s` (src/ast/ast.c:363-369) -/
def sliceToks : List Tok → List Tok
  | .ident w :: r => .ident ("Slice_" ++ w) :: r
  | r => .ident "Slice_" :: r

mutual
/-- `type_to_string` (src/ast/ast.c:224-475) of an element type, followed by the sizes of the arrays
around it -/
def printD : Ty → List Nat → List Tok
  | .prim p, ds => (primText p).map .ident ++ dimToks ds
  | .named n, ds => .ident n :: dimToks ds
  | .ptr t, ds => printD t [] ++ .star :: dimToks ds
  | .arr 0 t, ds => sliceToks (printD t []) ++ dimToks ds
  | .arr (n + 1) t, ds => printD t (ds ++ [n + 1])
  | .raw args ret, ds => .ident "fn" :: .star :: .lp :: printArgs args ++ .rp :: .arrow :: printD ret [] ++ dimToks ds
  | .closure _ _, ds => .ident "z_closure_T" :: dimToks ds
  | .const t, ds => .ident "const" :: printD t [] ++ dimToks ds
  | .restrict (.ptr t), ds => printD t [] ++ .star :: .ident "__restrict" :: dimToks ds
  | .restrict t, ds => printD t ds
  | .opq n _, ds => .ident n :: dimToks ds
  | .unknown, ds => .ident "unknown" :: dimToks ds
/-- the parameters of `fn*` (src/ast/ast.c:421-437) -/
def printArgs : Tys → List Tok
  | .nil => []
  | .cons t .nil => printD t []
  | .cons t ts => printD t [] ++ .comma :: printArgs ts
end

/-- `type_to_string` -/
def print (t : Ty) : List Tok := printD t []

/-! ## Reading -/

/-- the primitive names (src/parser/parser_type.c:106-514) -/
def primOf : String → Option Prim
  | "U0" => some .void | "u0" => some .void | "I8" => some .i8 | "U8" => some .u8 | "I16" => some .i16
  | "U16" => some .u16 | "I32" => some .i32 | "U32" => some .u32 | "I64" => some .i64 | "U64" => some .u64
  | "F32" => some .f32 | "f32" => some .f32 | "F64" => some .f64 | "f64" => some .f64 | "usize" => some .usize
  | "isize" => some .isize | "byte" => some .byte | "I128" => some .i128 | "U128" => some .u128 | "i8" => some .i8
  | "u8" => some .u8 | "i16" => some .i16 | "u16" => some .u16 | "i32" => some .i32 | "u32" => some .u32
  | "i64" => some .i64 | "u64" => some .u64 | "i128" => some .i128 | "u128" => some .u128 | "rune" => some .rune
  | "uint" => some .u32 | "int" => some .i32 | "float" => some .f32 | "double" => some .f64 | "void" => some .void
  | "string" => some .str | "bool" => some .bool | "char" => some .chr | "long" => some .i64 | "short" => some .i16
  | "unsigned" => some .u32 | "signed" => some .i32 | "int8_t" => some .i8 | "uint8_t" => some .u8
  | "int16_t" => some .i16 | "uint16_t" => some .u16 | "int32_t" => some .i32 | "uint32_t" => some .u32
  | "int64_t" => some .i64 | "uint64_t" => some .u64 | "size_t" => some .usize | "ssize_t" => some .isize
  | "c_int" => some .cInt | "c_uint" => some .cUint | "c_long" => some .cLong | "c_ulong" => some .cUlong
  | "c_long_long" => some .cLongLong | "c_ulong_long" => some .cUlongLong | "c_short" => some .cShort
  | "c_ushort" => some .cUshort | "c_char" => some .cChar | "c_uchar" => some .cUchar
  | _ => none

/-- The table of aliases, the last one first: name, opaque or not, text
(`TypeAlias`, src/parser/parser_utils.c:730-740) -/
abbrev Table := List (String × Bool × List Tok)

/-- `find_type_alias_node` (src/parser/parser_utils.c:748-761) -/
def find : Table → String → Option (Bool × List Tok)
  | [], _ => none
  | (a, o, t) :: r, n => if a = n then some (o, t) else find r n

/-- A reader of types -/
abbrev Rd := List Tok → Res (Ty × List Tok)

/-- a name (src/parser/parser_type.c:29-54, 106-560); what is left of the text of an alias is not looked
at -/
def name (P : Rd) (al : Table) (n : String) (r : List Tok) : Res (Ty × List Tok) :=
  match find al n with
  | some (o, text) => do
      let (t, _) ← P text
      .ok (if o then .opq n t else t, r)
  | none =>
      match primOf n with
      | some p => .ok (.prim p, r)
      | none => .ok (.named n, r)

/-- `parse_type_base` (src/parser/parser_type.c:6-792) -/
def base (P : Rd) (al : Table) : Rd
  | .ident w :: r =>
      if w = "struct" ∨ w = "enum" then
        match r with
        | .ident m :: r => name P al m r
        | _ => .panic
      else name P al w r
  | .lbrack :: r => do
      let (t, r) ← P r
      match r with
      | .semi :: .num n :: .rbrack :: r => .ok (.arr n t, r)
      | .rbrack :: r => .ok (.arr 0 t, r)
      | _ => .panic
  | ts => .ok (.unknown, ts)

/-- `while (peek == '*')` (src/parser/parser_type.c:881-885) -/
def stars (t : Ty) : List Tok → Ty × List Tok
  | .star :: r => stars (.ptr t) r
  | r => (t, r)

/-- the stars behind `fn` (src/parser/parser_type.c:821-826) -/
def countStars : List Tok → Nat × List Tok
  | .star :: r => ((countStars r).1 + 1, (countStars r).2)
  | r => (0, r)

/-- the brackets (src/parser/parser_type.c:891-932) -/
def dims : List Tok → Res (List Nat × List Tok)
  | .lbrack :: .rbrack :: r => do
      let (ds, r) ← dims r
      .ok (0 :: ds, r)
  | .lbrack :: .num n :: .rbrack :: r => do
      let (ds, r) ← dims r
      .ok (n :: ds, r)
  | .lbrack :: _ => .panic
  | r => .ok ([], r)

/-- the parameters up to `)` (src/parser/parser_type.c:844-860); the first argument bounds the turns -/
def args (P : Rd) : Nat → List Tok → Res (Tys × List Tok)
  | _, .rp :: r => .ok (.nil, r)
  | 0, _ => .panic
  | n + 1, ts => do
      let (t, r) ← P ts
      let r := match r with
        | .comma :: r => r
        | r => r
      let (l, r) ← args P n r
      .ok (.cons t l, r)

/-- `-> T`, or nothing (src/parser/parser_type.c:863-871) -/
def ret (P : Rd) : Rd
  | .arrow :: r => P r
  | r => .ok (.prim .void, r)

/-- pointers around a type -/
def ptrs : Nat → Ty → Ty
  | 0, t => t
  | n + 1, t => .ptr (ptrs n t)

/-- a function type behind `fn` (src/parser/parser_type.c:819-873) -/
def fnType (P : Rd) (ts : List Tok) : Res (Ty × List Tok) :=
  match countStars ts with
  | (k, .lp :: r) => do
      let (as, r) ← args P r.length r
      let (t, r) ← ret P r
      .ok (if k = 0 then .closure as t else ptrs (k - 1) (.raw as t), r)
  | _ => .panic

/-- what comes before the stars (src/parser/parser_type.c:816-878) -/
def core (P : Rd) (al : Table) : Rd
  | .ident "fn" :: r => fnType P r
  | ts => base P al ts

/-- `parse_type_formal` (src/parser/parser_type.c:794-956).  The first argument is the stack: each
alias, parameter or element is one more call -/
def read (al : Table) : Nat → Rd
  | 0, _ => .panic
  | n + 1, ts => do
      let (wrap, ts) : (Ty → Ty) × List Tok :=
        match ts with
        | .ident "restrict" :: r => (Ty.restrict, r)
        | .ident "const" :: r => (Ty.const, r)
        | r => (id, r)
      let (t, r) ← core (read al n) al ts
      let (t, r) := stars t r
      let (ds, r) ← dims r
      .ok (wrap (ds.foldr Ty.arr t), r)

/-- `parse_type_alias` (src/parser/parser_decl.c:922-950): the type `ts` is read and its printed text
kept -/
def declare (fuel : Nat) (al : Table) (a : String) (o : Bool) (ts : List Tok) : Res Table := do
  let (t, _) ← read al fuel ts
  .ok ((a, o, print t) :: al)

/-- What a struct or union of an imported header adds (src/parser/parser_stmt.c:3258, 3298-3302): the
tag with its keyword, or the name behind `}` -/
def header (al : Table) (kw : Option String) (n : String) : Table :=
  match kw with
  | some k => (n, true, [.ident k, .ident n]) :: al
  | none => (n, true, [.ident n]) :: al

/-- `typedef %s %s;` (src/codegen/codegen_decl.c:257): the text in front of the name -/
def typedefText (t : Ty) : List Tok := print t

/-! ## What is expected -/

namespace Spec

/-- Words with a meaning of their own -/
def keywords : List String := ["struct", "enum", "fn", "const", "restrict"]

/-- A simple type -/
inductive Base where
  | prim (p : Prim)
  | named (n : String)

mutual
/-- A type as a user thinks of it: simple types with stars and sizes, or function pointers -/
inductive Q where
  | data (c : Bool) (b : Base) (stars : Nat) (dims : List Nat)
  | fn (c : Bool) (args : Qs) (ret : Q)
inductive Qs where
  | nil
  | cons (q : Q) (qs : Qs)
end

/-- `const` or not -/
def constIf (c : Bool) (t : Ty) : Ty := if c then .const t else t

def Base.ty : Base → Ty
  | .prim p => .prim p
  | .named n => .named n

mutual
/-- the type -/
def Q.ty : Q → Ty
  | .data c b s ds => constIf c (ds.foldr Ty.arr (ptrs s b.ty))
  | .fn c as r => constIf c (.raw as.tys r.ty)
def Qs.tys : Qs → Tys
  | .nil => .nil
  | .cons q qs => .cons q.ty qs.tys
end

/-- the kinds whose printed name is read as the same kind -/
def stable : List Prim :=
  [.void, .bool, .str, .chr, .i8, .u8, .i16, .u16, .i32, .u32, .i64, .u64, .f32, .f64, .usize,
    .cInt, .cUint, .cLong, .cUlong, .cLongLong, .cUlongLong, .cShort, .cUshort, .cChar, .cUchar]

/-- names that mean themselves -/
def Base.Ok (al : Table) : Base → Prop
  | .prim p => p ∈ stable ∧ ∀ w ∈ primText p, find al w = none
  | .named n => find al n = none ∧ primOf n = none ∧ n ∉ keywords

mutual
def Q.Ok (al : Table) : Q → Prop
  | .data _ b _ ds => b.Ok al ∧ ∀ d ∈ ds, d ≠ 0
  | .fn _ as r => as.Ok al ∧ r.Ok al
def Qs.Ok (al : Table) : Qs → Prop
  | .nil => True
  | .cons q qs => q.Ok al ∧ qs.Ok al
end

mutual
/-- how many types are nested -/
def Q.depth : Q → Nat
  | .data .. => 1
  | .fn _ as r => as.depth + r.depth + 1
def Qs.depth : Qs → Nat
  | .nil => 0
  | .cons q qs => q.depth + qs.depth
end

/-- the kinds `c_int`, `c_uint`, ... -/
def cKinds : List Prim :=
  [.cInt, .cUint, .cLong, .cUlong, .cLongLong, .cUlongLong, .cShort, .cUshort, .cChar, .cUchar]

/-- words that no C header and no preamble defines -/
def notC : List String :=
  ["c_int", "c_uint", "c_long", "c_ulong", "c_long_long", "c_ulong_long", "c_short", "c_ushort", "c_char", "c_uchar"]

/-- C: what may stand between `typedef` and the name: words, then stars -/
def TypedefOk (ts : List Tok) : Prop :=
  ∃ (ws : List String) (k : Nat), ws ≠ [] ∧ (∀ w ∈ ws, w ∉ notC) ∧ ts = ws.map Tok.ident ++ List.replicate k Tok.star

end Spec

end Verif.Alias
