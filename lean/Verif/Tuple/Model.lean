import Verif.Basic

/-!
# Tuple types and tuple literals

Models the signature of a tuple type (`parse_type_base`, /repo/src/parser/parser_type.c:739-775,
and the payload of an enum variant, /repo/src/parser/parser_struct.c:1138-1172), the recovery of
the element types from it (`register_tuple`, /repo/src/parser/parser_utils.c:996-1055, and
`print_type_defs`, /repo/src/codegen/codegen_decl.c:1240-1266), the tuple literal
`(a, b, ...)` of `parse_primary`, /repo/src/parser/parser_expr.c:3739-3845, and the tuple literal
for a declared type, `parse_tuple_literal`, /repo/src/parser/parser_type.c:1041-1103.

Simplified: element types are their texts (`type_to_string`); of an element's expression only
its node kind and, for literals and names, its content are kept; numbers of a floating literal
are exact decimals `m / 10 ^ k` and `%f` rounds exactly (half up).
-/

namespace Verif.Tuple
open Verif

/-- The characters of a C string, without the final 0. -/
abbrev Text := List Char

/-- the separator `"__"` -/
def sep : Text := ['_', '_']

/-- Joining with `strcat(sig, "__")`: /repo/src/parser/parser_type.c:745-760,
/repo/src/parser/parser_expr.c:3772-3781, /repo/src/parser/parser_struct.c:1152-1163. -/
def join : List Text → Text
  | [] => []
  | [t] => t
  | t :: ts => t ++ sep ++ join ts

/-- A tuple type in a type position: the signature is built in `char sig[256]`,
/repo/src/parser/parser_type.c:742-766. -/
def typeSig (ts : List Text) : Res Text :=
  if (join ts).length ≤ 255 then .ok (join ts) else .ub

/-- The further elements of an enum variant's payload, /repo/src/parser/parser_struct.c:1151-1163:
`strlen(sig)` is taken behind the separator. -/
def variantMore (sig : Text) : List Text → Res Text
  | [] => .ok sig
  | t :: ts =>
    if (sig ++ sep).length + t.length + 2 > 510 then .panic
    else variantMore (sig ++ sep ++ t) ts

/-- The payload of an enum variant with several types: `char sig[512]` with tests,
/repo/src/parser/parser_struct.c:1138-1165. -/
def variantSig : List Text → Res Text
  | [] => .panic
  | t :: ts => if t.length > 250 then .panic else variantMore t ts

/-- `strstr(s, "__")`: the text in front of it and behind it. -/
def cut : Text → Option (Text × Text)
  | [] => none
  | [_] => none
  | c :: d :: r =>
    if c = '_' ∧ d = '_' then some ([], r)
    else (cut (d :: r)).map fun x => (c :: x.1, x.2)

theorem cut_length : ∀ {s a r : Text}, cut s = some (a, r) → r.length < s.length
  | [], _, _, h => by simp [cut] at h
  | [_], _, _, h => by simp [cut] at h
  | c :: d :: s, a, r, h => by
      rw [cut] at h
      split at h
      · cases h; simp; omega
      · cases hc : cut (d :: s) with
        | none => rw [hc] at h; cases h
        | some x =>
            rw [hc] at h
            cases h
            have := cut_length (a := x.1) (r := x.2) hc
            simp only [List.length_cons] at this ⊢; omega

/-- The element types read off the signature, in order: the fields `v0`, `v1`, ... of the struct,
/repo/src/parser/parser_utils.c:1018-1050, /repo/src/codegen/codegen_decl.c:1245-1262. -/
def split (s : Text) : List Text :=
  match _h : cut s with
  | none => [s]
  | some (a, r) => a :: split r
termination_by s.length
decreasing_by exact cut_length _h

/-- The name of the struct, /repo/src/parser/parser_utils.c:1012-1013. -/
def structName (sig : Text) : Text := "Tuple_".toList ++ sig

/-- An element of a tuple literal: `LITERAL_INT` (`int_val` is an `unsigned long long`),
`LITERAL_FLOAT`, `LITERAL_STRING`, `LITERAL_CHAR`, a variable, or any other node; the last
stands for its value. -/
inductive Elem where
  | int (n : Nat)
  | float (m k : Nat)
  | str (s : Text)
  | char (c : Nat)
  | var (x : Text)
  | other (v : Int)
  deriving DecidableEq, Repr

/-- What is printed for an element: a number, a decimal with six digits (in millionths), a string
literal or a name. -/
inductive CExp where
  | num (n : Int)
  | micro (n : Nat)
  | str (s : Text)
  | var (x : Text)
  deriving DecidableEq, Repr

/-- `%lld` -/
def asSigned (n : Nat) : Int :=
  if n % 2 ^ 64 < 2 ^ 63 then ((n % 2 ^ 64 : Nat) : Int) else ((n % 2 ^ 64 : Nat) : Int) - 2 ^ 64

/-- `%f` of `m / 10 ^ k`, in millionths, half up. -/
def micros (m k : Nat) : Nat := (m * 10 ^ 6 * 2 + 10 ^ k) / (2 * 10 ^ k)

/-- One element, /repo/src/parser/parser_expr.c:3796-3829.  The text of a string goes through
`char buf[256]`. -/
def element : Elem → Res CExp
  | .int n => .ok (.num (asSigned n))
  | .float m k => .ok (.micro (micros m k))
  | .str s => if s.length + 2 ≤ 255 then .ok (.str s) else .ub
  | .char _ => .ok (.num 0)
  | .var x => .ok (.var x)
  | .other _ => .ok (.num 0)

/-- The number of characters printed; a node that is not supported also prints a comment
(/repo/src/parser/parser_expr.c:3828). -/
def width (e : Elem) : CExp → Nat
  | .num n => match e with
    | .other _ => "/* complex expr */0".length
    | _ => (toString n).length
  | .micro n => (toString (n / 10 ^ 6)).length + 7
  | .str s => s.length + 2
  | .var x => x.length

/-- `strcat` of the elements to `char *code = xmalloc(4096)`,
/repo/src/parser/parser_expr.c:3786-3831; `used` counts the characters, the final `}` and the 0
included. -/
def elements (used : Nat) : List Elem → Res (List CExp)
  | [] => .ok []
  | [e] => do
    let x ← element e
    if used + width e x ≤ 4096 then .ok [x] else .ub
  | e :: es => do
    let x ← element e
    if used + width e x + 2 ≤ 4096 then do
      let xs ← elements (used + width e x + 2) es
      .ok (x :: xs)
    else .ub

/-- The literal `(e, ...)` with the inferred types of its elements,
/repo/src/parser/parser_expr.c:3742-3839: `elements` and `type_strs` have room for 16,
`char sig[512]`. -/
def literal (es : List (Elem × Text)) : Res (Text × List CExp) :=
  if es.length > 16 then .ub
  else if (join (es.map (·.2))).length > 511 then .ub
  else do
    let name := structName (join (es.map (·.2)))
    let xs ← elements (name.length + 5) (es.map (·.1))
    .ok (name, xs)

/-- The initializer of a variable or a returned value of declared tuple type: the source texts of
the elements are collected in a buffer of `cap` bytes that is doubled once per element when it is
too small, `parse_tuple_literal`, /repo/src/parser/parser_type.c:1063-1097.  The elements are the
source texts up to a comma or the closing parenthesis outside parentheses. -/
def collect (cap : Nat) (c : Text) : List Text → Res Text
  | [] => .ok c
  | t :: ts =>
    let cap' := if c.length + t.length + 5 > cap then 2 * cap else cap
    let c' := if c.length > 0 then c ++ ", ".toList ++ t else c ++ t
    if c'.length + 1 ≤ cap' then collect cap' c' ts else .ub

/-- The whole of `parse_tuple_literal` for the type `tn`: `sprintf(o, "(%s){%s}", tn, c)` into
`strlen(c) + 128` bytes, /repo/src/parser/parser_type.c:1041-1103. -/
def typed (tn : Text) (es : List Text) : Res Text := do
  let c ← collect 128 [] es
  if tn.length + c.length + 5 ≤ c.length + 128 then
    .ok ("(".toList ++ tn ++ "){".toList ++ c ++ "}".toList)
  else .ub

namespace Spec

/-- Two underscores occur in the text. -/
def HasSep (t : Text) : Prop := sep <:+: t

/-- The types of a tuple can be told apart in the signature. -/
inductive Separable : List Text → Prop
  | one (t : Text) : ¬ HasSep t → Separable [t]
  | more (t : Text) (ts : List Text) : ¬ HasSep (t ++ ['_']) → Separable ts → Separable (t :: ts)

/-- Letters, digits and underscores. -/
def IdentChars (n : Text) : Prop := ∀ c ∈ n, c.isAlphanum = true ∨ c = '_'

/-- A value of a tuple element; decimals as `m / 10 ^ k`. -/
inductive Value where
  | int (n : Int)
  | dec (m k : Nat)
  | str (s : Text)

/-- The same value: `m / 10 ^ k = n / 10 ^ j`. -/
def Value.Same : Value → Value → Prop
  | .int a, .int b => a = b
  | .dec m k, .dec n j => m * 10 ^ j = n * 10 ^ k
  | .str s, .str t => s = t
  | _, _ => False

/-- The value the program wrote down. -/
def meaning (env : Text → Value) : Elem → Value
  | .int n => .int n
  | .float m k => .dec m k
  | .str s => .str s
  | .char c => .int c
  | .var x => env x
  | .other v => .int v

/-- The value of the C expression. -/
def value (env : Text → Value) : CExp → Value
  | .num n => .int n
  | .micro n => .dec n 6
  | .str s => .str s
  | .var x => env x

/-- The C expressions have, in order, the values written down. -/
def Agree (env : Text → Value) (xs : List CExp) (es : List Elem) : Prop :=
  xs.length = es.length ∧ ∀ p ∈ xs.zip es, (value env p.1).Same (meaning env p.2)

/-- Texts separated by `", "`. -/
def commas : List Text → Text
  | [] => []
  | [t] => t
  | t :: ts => t ++ ", ".toList ++ commas ts

/-- The length of an element's text. -/
def textLength : Elem → Nat
  | .int n => (toString n).length
  | .float m k => (toString (m / 10 ^ k)).length + 7
  | .str s => s.length + 2
  | .var x => x.length
  | .char _ | .other _ => 0

/-- The text of the initializer `(Tuple_sig){a, b, c}` fits into 4096 bytes. -/
def Fits (es : List (Elem × Text)) : Prop :=
  (join (es.map (·.2))).length + 11 + (es.map fun e => textLength e.1 + 2).sum ≤ 4098

/-- The elements a literal can hold. -/
def Plain : Elem → Prop
  | .int n => n < 2 ^ 63
  | .float _ k => k ≤ 6
  | .str s => s.length ≤ 253
  | .var _ => True
  | .char _ | .other _ => False

end Spec
end Verif.Tuple
