import Verif.Literals.Props
import Mathlib.Data.Rat.Floor
import Mathlib.Algebra.Order.Round
import Mathlib.Tactic.Linarith
import Mathlib.Tactic.NormNum
import Mathlib.Tactic.Positivity
import Mathlib.Tactic.FieldSimp
import Mathlib.Tactic.Ring
import Mathlib.Data.Set.Finite.Lattice
import Mathlib.Algebra.Order.Field.Power
import Mathlib.Data.Finite.Prod
import Mathlib.Data.Set.Finite.Lemmas
import Mathlib.Order.Interval.Finset.Defs
import Mathlib.Order.Interval.Set.Basic
import Mathlib.Data.Int.Interval

/-!
# Floating literals: model

`parse_float_literal` (src/parser/parser_expr.c:1426-1434) reads the literal with `atof`,
`codegen_literal_expr` (src/codegen/codegen.c:44-47) writes it with `%f`.

Doubles are rationals; the rounding of `atof` and of the C compiler is any function `rn` to a nearest
double (the rule for ties is left open, the theorems hold for all).  `%f` prints the double rounded to
six decimals, ties to even, as C11 7.21.6.1p8 and glibc do.  Simplified: `atof` on text beginning with
`0x`, `inf`, `nan` or a sign is left out, as no float token begins so.
-/

namespace Verif.Literals

open Verif.Lexer (isDigit isXdigit identChar identStart)
open Verif.Str (Byte)

/-- the exponent `strtod` reads (C11 7.22.1.3p3); without digits there is none, and it counts as 0 -/
def scanExp (r : List Byte) : Int :=
  match r with
  | [] => 0
  | c :: r =>
      if c = 101 ∨ c = 69 then
        match r with
        | [] => 0
        | s :: ds =>
            if s = 43 then (valOf 10 (ds.takeWhile isDigit) : Nat)
            else if s = 45 then -((valOf 10 (ds.takeWhile isDigit) : Nat) : Int)
            else (valOf 10 ((s :: ds).takeWhile isDigit) : Nat)
      else 0

/-- fraction digits and what follows them -/
def scanFrac (r : List Byte) : List Byte × List Byte :=
  match r with
  | [] => ([], [])
  | c :: r => if c = 46 then (r.takeWhile isDigit, r.dropWhile isDigit) else ([], c :: r)

/-- the number `atof` reads before rounding -/
def scanFloat (s : List Byte) : ℚ :=
  let ip := s.takeWhile isDigit
  let fr := scanFrac (s.dropWhile isDigit)
  (valOf 10 (ip ++ fr.1) : ℚ) * (10 : ℚ) ^ (scanExp fr.2 - (fr.1.length : ℤ))

/-- a `double`: finite or infinite -/
inductive FVal where
  | fin (d : ℚ)
  | inf

/-- from here on numbers round to infinity: the largest double and half a step more -/
def limit : ℚ := (2 ^ 53 - 1) * 2 ^ 971 + 2 ^ 970

/-- rounding to a double -/
def toDouble (rn : ℚ → ℚ) (q : ℚ) : FVal := if q < limit then .fin (rn q) else .inf

/-- `parse_float_literal` (src/parser/parser_expr.c:1426-1434): `atof(t.start)` -/
def parseFloat (rn : ℚ → ℚ) (s : List Byte) : FVal := toDouble rn (scanFloat s)

/-- rounding to an integer, ties to even -/
def roundEven (x : ℚ) : ℤ :=
  let f := ⌊x⌋
  if x - f < 1 / 2 then f else if x - f > 1 / 2 then f + 1 else if f % 2 = 0 then f else f + 1

/-- `n` with leading zeros -/
def pad : Nat → Nat → List Byte
  | 0, _ => []
  | w + 1, n => pad w (n / 10) ++ [UInt8.ofNat (48 + n % 10)]

/-- `k` millionths with a point -/
def fixed6 (k : Nat) : List Byte := dec (k / 1000000) ++ 46 :: pad 6 (k % 1000000)

/-- `fprintf(out, "%f", float_val)` (src/codegen/codegen.c:44-47), for values that are not negative -/
def emitFloat : FVal → List Byte
  | .fin d => fixed6 (roundEven (d * 1000000)).toNat
  | .inf => [105, 110, 102]

/-! ## What is meant -/

namespace Spec

/-- fraction: text and digits -/
inductive Frac : List Byte → List Byte → Prop
  | none : Frac [] []
  | some (fp : List Byte) : Frac (46 :: fp) fp

/-- exponent: text and value -/
inductive Expo : List Byte → Int → Prop
  | none : Expo [] 0
  | pos {c ds n} : c = 101 ∨ c = 69 → Numeral 10 ds n → ds ≠ [] → Expo (c :: ds) n
  | plus {c ds n} : c = 101 ∨ c = 69 → Numeral 10 ds n → ds ≠ [] → Expo (c :: 43 :: ds) n
  | minus {c ds n} : c = 101 ∨ c = 69 → Numeral 10 ds n → ds ≠ [] → Expo (c :: 45 :: ds) (-(n : Int))

/-- `t` is a floating literal (in Zen-C and in C) and denotes `q` -/
def FloatLit (t : List Byte) (q : ℚ) : Prop :=
  ∃ ip fr fp ex e n, t = ip ++ (fr ++ ex) ∧ ip ≠ [] ∧ Frac fr fp ∧ Expo ex e ∧
    Numeral 10 (ip ++ fp) n ∧ q = (n : ℚ) * 10 ^ (e - (fp.length : ℤ)) ∧ (fr ≠ [] ∨ ex ≠ [])

/-- the finite doubles -/
def IsDouble (d : ℚ) : Prop :=
  ∃ m e : ℤ, |m| < 2 ^ 53 ∧ -1074 ≤ e ∧ e ≤ 971 ∧ d = (m : ℚ) * 2 ^ e

/-- `rn` rounds to a nearest double -/
def Nearest (rn : ℚ → ℚ) : Prop :=
  ∀ x, 0 ≤ x → x < limit → IsDouble (rn x) ∧ ∀ d, IsDouble d → |x - rn x| ≤ |x - d|

/-- the literal ends before `rest` -/
def FEnds (rest : List Byte) : Prop := ∀ c r, rest = c :: r → identChar c = false ∧ c ≠ 46

end Spec

end Verif.Literals
