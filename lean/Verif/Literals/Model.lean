import Verif.Lexer.Model

/-!
# Number literals: model

`parse_int_literal` and `is_valid_int_suffix` (src/parser/parser_expr.c), the text of integer and
floating literals in C (src/codegen/codegen.c), on the tokens `Lexer.number` cuts
(src/lexer/token.c:345-442).

Simplified: libc's `strtoull` as C11 7.22.1.4 describes it (the `0b` prefix of C23 for base 2 is not
accepted; locale "C"; a token holds no white space and no sign, so these parts are left out).
Rejection (`zpanic_at`) is `none`.
-/

namespace Verif.Literals

open Verif.Lexer (isDigit isXdigit identChar)
open Verif.Str (Byte)

/-- value of a byte as a digit, 99 if it is none -/
def digVal (c : Byte) : Nat :=
  if 48 ≤ c ∧ c ≤ 57 then c.toNat - 48
  else if 97 ≤ c ∧ c ≤ 122 then c.toNat - 87
  else if 65 ≤ c ∧ c ≤ 90 then c.toNat - 55
  else 99

/-- digits of a base, most significant first -/
def valOf (base : Nat) (ds : List Byte) : Nat := ds.foldl (fun n c => base * n + digVal c) 0

/-- `ULLONG_MAX` -/
def ullMax : Nat := 2 ^ 64 - 1

/-- C11 7.22.1.4p3: in base 16 a leading `0x` may be there (glibc: if a digit follows) -/
def skipHex (base : Nat) (s : List Byte) : List Byte :=
  match s with
  | a :: b :: c :: r =>
      if base = 16 ∧ a = 48 ∧ (b = 120 ∨ b = 88) ∧ digVal c < 16 then c :: r else s
  | _ => s

/-- `strtoull(s, &endptr, base)`: value, text from `endptr` on.  No digit: 0 and the whole text.
Out of range: `ULLONG_MAX` (C11 7.22.1.4p8). -/
def strtoull (base : Nat) (s : List Byte) : Nat × List Byte :=
  let t := skipHex base s
  let ds := t.takeWhile (fun c => digVal c < base)
  if ds = [] then (0, s) else (min (valOf base ds) ullMax, t.dropWhile (fun c => digVal c < base))

/-- the bytes of a text, for the table below -/
def bytes (s : String) : List Byte := s.toList.map fun c => UInt8.ofNat c.toNat

/-- the table of `is_valid_int_suffix` (src/parser/parser_expr.c:1368-1371) -/
def suffixes : List (List Byte) :=
  ["u", "U", "l", "L", "ul", "UL", "uL", "Ul", "lu", "LU", "lU", "Lu", "ll", "LL", "ull", "ULL", "uLL",
    "Ull", "llu", "LLu", "lLu", "llU", "u8", "u16", "u32", "u64", "usize", "i8", "i16", "i32", "i64",
    "isize"].map bytes

/-- `is_valid_int_suffix` (src/parser/parser_expr.c:1361-1380) -/
def validSuffix (s : List Byte) : Bool := s = [] || suffixes.contains s

/-- the base and the digits (src/parser/parser_expr.c:1393-1408): `t.len > 2` and a prefix -/
def strip (t : List Byte) : Nat × List Byte :=
  match t with
  | a :: b :: c :: r =>
      if a = 48 ∧ (b = 98 ∨ b = 66) then (2, c :: r)
      else if a = 48 ∧ (b = 120 ∨ b = 88) then (16, c :: r)
      else if a = 48 ∧ (b = 111 ∨ b = 79) then (8, c :: r)
      else (10, t)
  | _ => (10, t)

/-- `parse_int_literal` (src/parser/parser_expr.c:1383-1424): `int_val`, or rejection -/
def parseInt (t : List Byte) : Option Nat :=
  let b := strip t
  let r := strtoull b.1 b.2
  if validSuffix r.2 then some r.1 else none

/-- decimal digits of a number, as `printf` writes them: least significant last -/
def decF : Nat → Nat → List Byte
  | 0, _ => []
  | f + 1, n => if n < 10 then [UInt8.ofNat (48 + n)] else decF f (n / 10) ++ [UInt8.ofNat (48 + n % 10)]

/-- `%llu` -/
def dec (n : Nat) : List Byte := decF (n + 1) n

/-- integer literals in C (src/codegen/codegen.c:48-57) -/
def emitInt (v : Nat) : List Byte :=
  if v > 9223372036854775807 then dec v ++ [85, 76, 76] else dec v

/-! ## What is meant -/

namespace Spec

/-- `c` stands for digit `d` -/
def Glyph (d : Nat) (c : Byte) : Prop :=
  (d < 10 ∧ c = UInt8.ofNat (48 + d)) ∨ (10 ≤ d ∧ d < 36 ∧ (c = UInt8.ofNat (87 + d) ∨ c = UInt8.ofNat (55 + d)))

/-- the digits `ds` denote `n` in base `b` -/
inductive Numeral (b : Nat) : List Byte → Nat → Prop
  | nil : Numeral b [] 0
  | snoc {ds n d c} : Numeral b ds n → d < b → Glyph d c → Numeral b (ds ++ [c]) (b * n + d)

/-- the four forms: base and prefix -/
inductive Form : Nat → List Byte → Prop
  | dec : Form 10 []
  | hex {x : Byte} : x = 120 ∨ x = 88 → Form 16 [48, x]
  | bin {x : Byte} : x = 98 ∨ x = 66 → Form 2 [48, x]
  | oct {x : Byte} : x = 111 ∨ x = 79 → Form 8 [48, x]

/-- the literal ends before `rest`: no letter, digit or underscore, and no fraction -/
def Ends (rest : List Byte) : Prop :=
  ∀ c r, rest = c :: r → identChar c = false ∧ (c = 46 → ∃ r', r = 46 :: r')

/-- C11 6.4.4.1: a decimal constant with the value `v`: it does not begin with 0 (that would be
octal) unless it is 0, and it has a type: `long long` without suffix, `unsigned long long` with `ULL` -/
inductive CInt : List Byte → Nat → Prop
  | zero : CInt [48] 0
  | plain {c ds n} : Numeral 10 (c :: ds) n → c ≠ 48 → n < 2 ^ 63 → CInt (c :: ds) n
  | ull {c ds n} : Numeral 10 (c :: ds) n → c ≠ 48 → n < 2 ^ 64 → CInt (c :: ds ++ [85, 76, 76]) n

end Spec

end Verif.Literals
