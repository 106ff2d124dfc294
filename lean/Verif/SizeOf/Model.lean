import Verif.Alias.Props

/-!
# `sizeof` and `typeof`: model

`parse_sizeof_expr` and `parse_typeof_expr` (src/parser/parser_expr.c:1499-1578) and the C text of the
two (src/codegen/codegen.c:1518-1596).  The operand is read as a type first, and as an expression only
if that gives no type or stops before the closing parenthesis.

Types, their reader and printer are those of `Verif.Alias` (with its simplifications; also an operand in
parentheses of its own, which is read as a tuple type, is left out).  `X` stands for the parser and
printer of expressions.
-/

namespace Verif.SizeOf
open Verif Alias

/-- the words that are replaced when they are the whole type (src/codegen/codegen.c:1523-1577); of
`normalize_type_name` (src/parser/parser_utils.c:4422-4526) only what a printed type or a name that is no
primitive type can be -/
def mapWord : String → List Tok
  | "c_int" => [.ident "int"] | "c_uint" => [.ident "unsigned", .ident "int"] | "c_long" => [.ident "long"]
  | "c_ulong" => [.ident "unsigned", .ident "long"] | "c_long_long" => [.ident "long", .ident "long"]
  | "c_ulong_long" => [.ident "unsigned", .ident "long", .ident "long"] | "c_short" => [.ident "short"]
  | "c_ushort" => [.ident "unsigned", .ident "short"] | "c_char" => [.ident "char"]
  | "c_uchar" => [.ident "unsigned", .ident "char"] | "string" => [.ident "char", .star]
  | "ushort" => [.ident "uint16_t"] | "ulong" => [.ident "uint64_t"]
  | w => [.ident w]

/-- the text of the type in C (src/codegen/codegen.c:1519-1579) -/
def mapText : List Tok → List Tok
  | [.ident w] => mapWord w
  | ts => ts

/-- An expression: its C text and the rest -/
abbrev ExprRd := List Tok → Res (List Tok × List Tok)

/-- the operand, with the printer of types given (src/parser/parser_expr.c:1499-1538, 1541-1578) -/
def operand (out : List Tok → List Tok) (X : ExprRd) (al : Table) (fuel : Nat) :
    List Tok → Res (List Tok × List Tok)
  | .lp :: ts => do
      let (t, r) ← read al fuel ts
      match t, r with
      | .unknown, _ => do
          let (e, r) ← X ts
          match r with
          | .rp :: r => .ok (e, r)
          | _ => .panic
      | t, .rp :: r => .ok (out (print t), r)
      | _, _ => do
          let (e, r) ← X ts
          match r with
          | .rp :: r => .ok (e, r)
          | _ => .panic
  | _ => .panic

/-- `sizeof` -/
def sizeofExpr := operand mapText

/-- `typeof` -/
def typeofExpr := operand id

namespace Spec
open Alias.Spec

/-- the names that stand for a type although the reader knows them not -/
def loose : List String := ["ushort", "ulong"]

/-- the C text of a simple type: the word printed for it, if C or the preamble knows it
(src/codegen/codegen_decl.c:17), and C's own for `c_int` and so on, `string` -/
inductive CBase (G : String → Option Ty) : Base → List Tok → Prop where
  | prim (p : Prim) (h : p ∉ cKinds) : CBase G (.prim p) ((primText p).map .ident)
  | named (n : String) (h : G n = none) (hn : n ∉ notC) (hl : n ∉ loose) : CBase G (.named n) [.ident n]
  | string : CBase G (.prim .str) [.ident "char", .star]
  | cInt : CBase G (.prim .cInt) [.ident "int"]
  | cUint : CBase G (.prim .cUint) [.ident "unsigned", .ident "int"]
  | cLong : CBase G (.prim .cLong) [.ident "long"]
  | cUlong : CBase G (.prim .cUlong) [.ident "unsigned", .ident "long"]
  | cLongLong : CBase G (.prim .cLongLong) [.ident "long", .ident "long"]
  | cUlongLong : CBase G (.prim .cUlongLong) [.ident "unsigned", .ident "long", .ident "long"]
  | cShort : CBase G (.prim .cShort) [.ident "short"]
  | cUshort : CBase G (.prim .cUshort) [.ident "unsigned", .ident "short"]
  | cChar : CBase G (.prim .cChar) [.ident "char"]
  | cUchar : CBase G (.prim .cUchar) [.ident "unsigned", .ident "char"]

/-- What C takes the text between the parentheses for, where the variables have the types `G`: a type,
or a variable, or an element of one -/
inductive Means (G : String → Option Ty) : List Tok → Ty → Prop where
  | type (c : Bool) (b : Base) (bt : List Tok) (s : Nat) (ds : List Nat) (h : CBase G b bt) (ts : List Tok)
      (e : ts = constToks c ++ bt ++ (List.replicate s .star ++ dimToks ds)) :
      Means G ts (constIf c (ds.foldr Ty.arr (ptrs s b.ty)))
  | var (x : String) (t : Ty) (h : G x = some t) : Means G [.ident x] t
  | index (ts : List Tok) (n d : Nat) (t : Ty) (h : Means G ts (.arr d t)) :
      Means G (ts ++ [.lbrack, .num n, .rbrack]) t

end Spec

end Verif.SizeOf
