import Verif.Io.Model

/-!
# Model of `readln(...)` and of the prompts `? "..." (...)`

The format that is put together from the types of the arguments (src/parser/parser_expr.c:2846-2958 and
4602-4740), the helpers of the preamble that read a line and scan it (src/codegen/codegen_decl.c:161-200) and
the part of `sscanf` that they use.  Variables are blocks of bytes, least significant byte first.

Simplified: what the C library reads as a floating point number, its bytes, and the address of a text that `%ms`
allocates are parameters with the laws the C standard gives them; an integer that is out of range for `%d` is
undefined behaviour (ISO C 7.21.6.2 p10); the expressions are the variables themselves; what the prompt prints is
left out.
-/

namespace Verif.Input
open Verif Verif.Str

/-- The types the code tells apart (src/parser/parser_expr.c:2886-2924); all other types, and expressions whose
type is not known, are `other` with the size of the variable. -/
inductive Ty where
  | int | i32 | bool | f64 | f32 | float | string | char | i8 | u8 | byte
  | other (size : Nat)
  deriving DecidableEq, Repr

/-- Sizes of the variables in the emitted C. -/
def Ty.size : Ty → Nat
  | .int => 4
  | .i32 => 4
  | .bool => 1
  | .f64 => 8
  | .f32 => 4
  | .float => 4
  | .string => 8
  | .char => 1
  | .i8 => 1
  | .u8 => 1
  | .byte => 1
  | .other n => n

/-- Where the arguments stand: in `readln(...)` or after a prompt. -/
inductive Mode where
  | call
  | prompt
  deriving DecidableEq, Repr

/-- What is appended to the format for one argument (src/parser/parser_expr.c:2886-2924 for `readln`,
4663-4699 for a prompt). -/
def conv : Mode → Ty → List Byte
  | _, .int => [37, 100]
  | _, .i32 => [37, 100]
  | _, .bool => [37, 100]
  | _, .f64 => [37, 108, 102]
  | _, .f32 => [37, 102]
  | _, .float => [37, 102]
  | .call, .string => [37, 115]
  | .prompt, .string => [37, 109, 115]
  | _, .char => [32, 37, 99]
  | _, .i8 => [32, 37, 99]
  | _, .u8 => [32, 37, 99]
  | _, .byte => [32, 37, 99]
  | _, .other _ => [37, 100]

/-- The format (src/parser/parser_expr.c:2877-2929, 4656-4705). -/
def format (m : Mode) : List Ty → List Byte
  | [] => []
  | [t] => conv m t
  | t :: ts => conv m t ++ 32 :: format m ts

/-- Parsing the arguments into `args[16]` and the format into `fmt[256]` (src/parser/parser_expr.c:2849-2929,
4635-4705): more arguments are written past the end of the array. -/
def parseArgs (m : Mode) (ts : List Ty) : Res (List Byte) :=
  if 16 < ts.length then .ub
  else if 256 ≤ (format m ts).length then .ub
  else .ok (format m ts)

/-! ## the part of `sscanf` that is used (ISO C 7.21.6.2) -/

/-- `isspace` -/
def space (c : Byte) : Bool := c == 32 || (9 ≤ c && c ≤ 13)

/-- Directive of white space: all white space of the input. -/
def skip : List Byte → List Byte
  | [] => []
  | c :: s => if space c then skip s else c :: s

/-- `isdigit` -/
def digit (c : Byte) : Bool := 48 ≤ c && c ≤ 57

/-- The value of decimal digits. -/
def value (ds : List Byte) : Nat := ds.foldl (fun v c => 10 * v + (c.toNat - 48)) 0

/-- The least significant `n` bytes of an integer. -/
def enc : Nat → Int → List Byte
  | 0, _ => []
  | n + 1, v => UInt8.ofNat (v % 256).toNat :: enc n (v / 256)

/-- What the C library does with floating point numbers and with the memory of `%ms`. -/
structure Lib where
  /-- the longest beginning that is a floating point number, and the rest -/
  number : List Byte → Option (List Byte × List Byte)
  /-- texts of floating point numbers -/
  IsNumber : List Byte → Prop
  ends : ∀ w rest, IsNumber w → (rest = [] ∨ ∃ c r, rest = c :: r ∧ space c = true) → number (w ++ rest) = some (w, rest)
  starts : ∀ w, IsNumber w → ∃ c r, w = c :: r ∧ space c = false
  /-- the bytes of the number as `double` and as `float` -/
  double : List Byte → List Byte
  double_size : ∀ w, (double w).length = 8
  single : List Byte → List Byte
  single_size : ∀ w, (single w).length = 4
  /-- the address of an allocated copy of the text -/
  address : List Byte → List Byte
  address_size : ∀ w, (address w).length = 8

/-- Outcome of a conversion. -/
inductive Conv where
  /-- these bytes are stored; the rest of the input -/
  | got (bytes : List Byte) (rest : List Byte)
  /-- matching failure -/
  | fail
  /-- undefined behaviour -/
  | ub

/-- Digits after the sign; `neg` for a minus sign. -/
def convDigits (neg : Bool) (s : List Byte) : Conv :=
  let ds := s.takeWhile digit
  if ds = [] then .fail
  else
    let v : Int := if neg then - (value ds : Int) else value ds
    if -2 ^ 31 ≤ v ∧ v < 2 ^ 31 then .got (enc 4 v) (s.dropWhile digit) else .ub

/-- `%d` -/
def convInt : List Byte → Conv
  | 45 :: s => convDigits true s
  | 43 :: s => convDigits false s
  | s => convDigits false s

/-- `%lf` and `%f` -/
def convNumber (L : Lib) (store : List Byte → List Byte) (s : List Byte) : Conv :=
  match L.number s with
  | some (w, rest) => .got (store w) rest
  | none => .fail

/-- `%s` and `%ms`: all that is not white space. -/
def convWord (store : List Byte → List Byte) (s : List Byte) : Conv :=
  .got (store (s.takeWhile fun c => !space c)) (s.dropWhile fun c => !space c)

/-- `%c` -/
def convChar : List Byte → Conv
  | [] => .fail
  | c :: s => .got [c] s

/-- Storing bytes at the address of a variable: past its end is undefined behaviour. -/
def store (bytes old : List Byte) : Res (List Byte) :=
  if bytes.length ≤ old.length then .ok (bytes ++ old.drop bytes.length) else .ub

/-- One conversion: at the end of the input the result is `EOF` (-1) if nothing was converted yet and the number
of conversions otherwise; a matching failure ends the scan; `next` goes on after the conversion. -/
def convert (c : List Byte → Conv) (s : List Byte) (vars : List (List Byte)) (count : Nat)
    (next : List Byte → List (List Byte) → Nat → Res (Int × List (List Byte))) : Res (Int × List (List Byte)) :=
  if s = [] then .ok (if count = 0 then -1 else count, vars)
  else
    match c s with
    | .fail => .ok (count, vars)
    | .ub => .ub
    | .got bytes rest =>
      match vars with
      | [] => .ub
      | v :: vs => do
        let v' ← store bytes v
        let r ← next rest vs (count + 1)
        .ok (r.1, v' :: r.2)

/-- `vsscanf(l, fmt, ap)`: the format, the input, the variables whose addresses are still to come, and the
number of conversions so far; other directives do not occur in the formats (they end the scan here). -/
def scan (L : Lib) : List Byte → List Byte → List (List Byte) → Nat → Res (Int × List (List Byte))
  | [], _, vars, count => .ok (count, vars)
  | 32 :: f, s, vars, count => scan L f (skip s) vars count
  | 37 :: 100 :: f, s, vars, count => convert convInt (skip s) vars count (scan L f)
  | 37 :: 108 :: 102 :: f, s, vars, count => convert (convNumber L L.double) (skip s) vars count (scan L f)
  | 37 :: 102 :: f, s, vars, count => convert (convNumber L L.single) (skip s) vars count (scan L f)
  | 37 :: 115 :: f, s, vars, count => convert (convWord fun w => w ++ [0]) (skip s) vars count (scan L f)
  | 37 :: 109 :: 115 :: f, s, vars, count => convert (convWord L.address) (skip s) vars count (scan L f)
  | 37 :: 99 :: f, s, vars, count => convert convChar s vars count (scan L f)
  | _, _, vars, count => .ok (count, vars)

/-! ## the helpers -/

/-- `_z_readln_raw` (src/codegen/codegen_decl.c:161-193): the same buffer, growth and end as `readln` of
std/io.zc (std/io.zc:83-121), statement by statement. -/
def readlnRaw (input : List Byte) : Res (Option (Mem Byte) × List Byte) := Io.readln input

/-- The C string in a block: up to the first zero byte. -/
def cstring : Mem Byte → List Byte
  | some c :: m => if c = 0 then [] else c :: cstring m
  | _ => []

/-- `_z_scan_helper` (src/codegen/codegen_decl.c:194-199): one line is read and scanned; 0 at the end of the input.
The result is the number, the variables, and the rest of the input. -/
def scanHelper (L : Lib) (fmt : List Byte) (input : List Byte) (vars : List (List Byte)) :
    Res (Int × List (List Byte) × List Byte) := do
  let (r, rest) ← readlnRaw input
  match r with
  | none => .ok (0, vars, rest)
  | some l => do
    let (n, vars') ← scan L fmt (cstring l) vars 0
    .ok (n, vars', rest)

/-- A call `readln(a, b, ...)` or a prompt with variables: the format is made by the compiler, the helper is run
by the program (src/parser/parser_expr.c:2931-2952, 4707-4737). -/
def read (L : Lib) (m : Mode) (ts : List Ty) (input : List Byte) (vars : List (List Byte)) :
    Res (Int × List (List Byte) × List Byte) := do
  let fmt ← parseArgs m ts
  scanHelper L fmt input vars

/-! ## specification -/

namespace Spec

/-- white space that can stand in a line -/
def Blank (s : List Byte) : Prop := ∀ c ∈ s, c = 32 ∨ c = 9 ∨ c = 13

/-- a character that is not white space -/
def Visible (c : Byte) : Prop := c ≠ 32 ∧ ¬ (9 ≤ c ∧ c ≤ 13)

/-- a decimal integer with an optional sign -/
inductive IsInt : List Byte → Int → Prop
  | plain {ds} : ds ≠ [] → (∀ c ∈ ds, 48 ≤ c ∧ c ≤ 57) → IsInt ds (value ds)
  | plus {ds} : ds ≠ [] → (∀ c ∈ ds, 48 ≤ c ∧ c ≤ 57) → IsInt (43 :: ds) (value ds)
  | minus {ds} : ds ≠ [] → (∀ c ∈ ds, 48 ≤ c ∧ c ≤ 57) → IsInt (45 :: ds) (-(value ds : Int))

/-- The text `w` on the line denotes, for a variable of the type, the value with these bytes. -/
inductive Denotes (L : Lib) : Mode → Ty → List Byte → List Byte → Prop
  | int {m w v} : IsInt w v → -2 ^ 31 ≤ v → v < 2 ^ 31 → Denotes L m .int w (enc 4 v)
  | i32 {m w v} : IsInt w v → -2 ^ 31 ≤ v → v < 2 ^ 31 → Denotes L m .i32 w (enc 4 v)
  | f64 {m w} : L.IsNumber w → Denotes L m .f64 w (L.double w)
  | f32 {m w} : L.IsNumber w → Denotes L m .f32 w (L.single w)
  | float {m w} : L.IsNumber w → Denotes L m .float w (L.single w)
  | char {m c} : Visible c → Denotes L m .char [c] [c]
  | string {w} : w ≠ [] → (∀ c ∈ w, Visible c) → Denotes L .prompt .string w (L.address w)

/-- One variable: its type, what stands for it on the line, the white space before it, its value before and
after. -/
structure Item where
  ty : Ty
  gap : List Byte
  word : List Byte
  old : List Byte
  new : List Byte

/-- A line whose words denote values of the variables; all gaps but the first are not empty. -/
def Fits (L : Lib) (m : Mode) (items : List Item) : Prop :=
  (∀ i ∈ items, Denotes L m i.ty i.word i.new ∧ Blank i.gap ∧ i.old.length = i.ty.size) ∧ ∀ i ∈ items.tail, i.gap ≠ []

/-- the text of the items -/
def text (items : List Item) : List Byte := (items.map fun i => i.gap ++ i.word).flatten

end Spec
end Verif.Input
