import Verif.Lexer.Cols

/-!
# Model of error messages and of the printing functions

`strip_ansi_codes` and `zvfprintf` (src/utils/colors.c:19-86), by which every `printf` and `fprintf` of the compiler is replaced
(src/utils/colors.h:22-27), and the messages of `zpanic_at`, `zerror_at` and `zwarn_at`
(src/diagnostics/diagnostics.c:83-136, 188-250, 412-476).

Simplified: allocations succeed and numbers are below 2^31; the JSON form of messages (src/diagnostics/diagnostics.c:6-24) is
left out (see the unit `CJson`).
-/

namespace Verif.Diag
open Verif Verif.Str Verif.Lexer

/-! ## printing -/

/-- `strip_ansi_codes` (src/utils/colors.c:19-42); the flag is set inside an escape sequence. -/
def strip : Bool → List Byte → List Byte
  | _, [] => []
  | true, c :: s => if c = 109 then strip false s else strip true s
  | false, [c] => [c]
  | false, c :: d :: s => if c = 27 ∧ d = 91 then strip true s else c :: strip false (d :: s)

/-- One call of `fprintf` (src/utils/colors.c:44-86) whose text is `s`; the stream is a terminal or not. -/
def write (tty : Bool) (s : List Byte) : List Byte := if tty then s else strip false s

/-! ## messages -/

/-- A colour (src/utils/colors.h:8-14). -/
def sgr (code : List Byte) : List Byte := 27 :: 91 :: code ++ [109]

/-- reset, red, yellow, blue, bold -/
def reset : List Byte := sgr [48]
def red : List Byte := sgr [49, 59, 51, 49]
def yellow : List Byte := sgr [49, 59, 51, 51]
def blue : List Byte := sgr [49, 59, 51, 52]
def bold : List Byte := sgr [49]

/-- `%d` of a number (ISO C 7.21.6.1). -/
def dec (n : Nat) : List Byte := if n < 10 then [UInt8.ofNat (48 + n)] else dec (n / 10) ++ [UInt8.ofNat (48 + n % 10)]

/-- `%-3d` -/
def dec3 (n : Nat) : List Byte := dec n ++ List.replicate (3 - (dec n).length) 32

/-- Errors and warnings: colour and word. -/
inductive Level where
  | error
  | warning
  deriving DecidableEq, Repr

/-- The colour of a level. -/
def Level.colour : Level → List Byte
  | .error => red
  | .warning => yellow

/-- `error: ` and `warning: ` -/
def Level.word : Level → List Byte
  | .error => [101, 114, 114, 111, 114, 58, 32]
  | .warning => [119, 97, 114, 110, 105, 110, 103, 58, 32]

/-- The line that is shown (src/diagnostics/diagnostics.c:108-117, 214-221): from `col - 1` bytes before the token to the end of the line; a
column that reaches before the beginning of the file is undefined behaviour. -/
def context (src : List Byte) (start col : Nat) : Res (List Byte) :=
  if start < col - 1 then .ub
  else .ok ((src.take start).drop (start - (col - 1)) ++ (src.drop start).takeWhile (· ≠ 10))

/-- The calls of `fprintf` of a message (src/diagnostics/diagnostics.c:96-134, 204-234, 425-459). -/
def chunks (lv : Level) (file msg ctx : List Byte) (line col : Nat) : List (List Byte) :=
  [lv.colour ++ lv.word ++ reset ++ bold,
   msg,
   reset ++ [10],
   blue ++ [32, 32, 45, 45, 62, 32] ++ reset ++ file ++ 58 :: dec line ++ 58 :: dec col ++ [10],
   blue ++ [32, 32, 32, 124, 10] ++ reset,
   blue ++ dec3 line ++ [124, 32] ++ reset ++ ctx ++ [10],
   blue ++ [32, 32, 32, 124, 32] ++ reset] ++
  List.replicate (col - 1) [32] ++
  [lv.colour ++ [94, 32, 104, 101, 114, 101] ++ reset ++ [10]] ++
  (match lv with
  | .error => [blue ++ [32, 32, 32, 124, 10] ++ reset]
  | .warning => [blue ++ [32, 32, 32, 124, 10] ++ reset, blue ++ [32, 32, 32, 124, 10] ++ reset])

/-- What appears for a message at a token. -/
def report (tty : Bool) (lv : Level) (file msg src : List Byte) (t : Tok) : Res (List Byte) := do
  let ctx ← context src t.start t.col
  .ok ((chunks lv file msg ctx t.line t.col).map (write tty)).flatten

/-- A string literal in the generated code (src/codegen/codegen.c:39): it goes through the same `fprintf`, to a file. -/
def literal (s : List Byte) : List Byte := write false (34 :: s ++ [34])

/-! ## specification -/

namespace Spec

/-- The lines of a message without colours. -/
def rows (lv : Level) (file msg ctx : List Byte) (line col : Nat) : List (List Byte) :=
  [lv.word ++ msg,
   [32, 32, 45, 45, 62, 32] ++ file ++ 58 :: dec line ++ 58 :: dec col,
   [32, 32, 32, 124],
   dec3 line ++ [124, 32] ++ ctx,
   [32, 32, 32, 124, 32] ++ List.replicate (col - 1) 32 ++ [94, 32, 104, 101, 114, 101],
   [32, 32, 32, 124]] ++
  match lv with
  | .error => []
  | .warning => [[32, 32, 32, 124]]

/-- Lines with their newlines. -/
def plain (ls : List (List Byte)) : List Byte := (ls.map (· ++ [10])).flatten

/-- The column on the screen behind a text that begins in a column: tabs lead to the next multiple of eight, bytes that
continue a character of UTF-8 take no column. -/
def screen : Nat → List Byte → Nat
  | k, [] => k
  | k, c :: s => screen (if c = 9 then (k / 8 + 1) * 8 else if 128 ≤ c ∧ c < 192 then k else k + 1) s

/-- The whole line around a position. -/
def wholeLine (src : List Byte) (p : Nat) : List Byte := Lexer.Spec.lineBefore src p ++ (src.drop p).takeWhile (· ≠ 10)

end Spec
end Verif.Diag
