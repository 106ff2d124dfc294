import Verif.Str.Model

/-!
# Model of `std/io.zc`

`readln`, the formatting functions and the conversions of integers.  Simplified: `malloc` and
`realloc` succeed; what `vsnprintf` renders is a parameter (the text); addresses are below 2^64.
-/

namespace Verif.Io
open Verif Verif.Str

/-- The buffer of `readln` (std/io.zc:73-77): block, capacity and length. -/
structure Buf where
  line : Mem Byte
  cap : Nat
  len : Nat

/-- Growing (std/io.zc:89-97). -/
def grow (s : Buf) : Buf :=
  if s.len + 1 ≥ s.cap then { s with cap := 2 * s.cap % 2 ^ 64, line := Mem.realloc s.line (2 * s.cap % 2 ^ 64) } else s

/-- One character (std/io.zc:99-100). -/
def put (s : Buf) (c : Byte) : Res Buf := do
  let line ← Mem.store s.line s.len c
  .ok { s with line := line, len := s.len + 1 }

/-- The loop (std/io.zc:82-101): the input is what `fgetc` returns, the end of the list is `EOF`.
The result is the buffer, whether the loop ended at the end of the file, and the rest. -/
def loop : List Byte → Buf → Res (Buf × Bool × List Byte)
  | [], s => .ok (s, true, [])
  | c :: input, s =>
    if c = 10 then .ok (s, false, input)
    else do
      let s ← put (grow s) c
      loop input s

/-- `readln` (std/io.zc:73-111): `none` is NULL. -/
def readln (input : List Byte) : Res (Option (Mem Byte) × List Byte) := do
  let (s, eof, rest) ← loop input ⟨Mem.malloc 64, 64, 0⟩
  if s.len = 0 ∧ eof = true then .ok (none, rest)
  else do
    let line ← Mem.store s.line s.len 0
    .ok (some line, rest)

/-- Calling `readln` until it returns NULL; the first argument bounds the calls. -/
def readAll : Nat → List Byte → Res (List (Mem Byte))
  | 0, _ => .ok []
  | n + 1, input => do
    let (r, rest) ← readln input
    match r with
    | none => .ok []
    | some l => do
      let ls ← readAll n rest
      .ok (l :: ls)

/-- `vsnprintf(buffer, size, ...)` of the text `t` (ISO C 7.21.6.12): at most `size - 1` characters
and a zero byte; the block has `size` bytes. -/
def vsnprintf (size : Nat) (old : Mem Byte) (t : List Byte) : Mem Byte :=
  if size = 0 then old
  else (t.take (size - 1)).map some ++ some 0 :: old.drop ((t.take (size - 1)).length + 1)

/-- The static buffer of `format` (std/io.zc:31-40): what the returned pointer points at after the
call. -/
def format (static : Mem Byte) (t : List Byte) : Mem Byte := vsnprintf 1024 static t

/-- `format_new` (std/io.zc:52-63). -/
def formatNew (t : List Byte) : Mem Byte := vsnprintf 1024 (Mem.malloc 1024) t

/-- `format_into` (std/io.zc:42-50). -/
def formatInto (buffer : Mem Byte) (size : Nat) (t : List Byte) : Res (Mem Byte × Nat) :=
  if size ≤ buffer.length then .ok (vsnprintf size buffer t, t.length) else .ub

/-- `%u` -/
def digits (n : Nat) : List Byte :=
  if n < 10 then [UInt8.ofNat (48 + n)] else digits (n / 10) ++ [UInt8.ofNat (48 + n % 10)]

/-- `%d` -/
def decimal (n : Int) : List Byte := if n < 0 then 45 :: digits n.natAbs else digits n.natAbs

/-- `sprintf(buffer, "%d", n)` into 32 bytes: `itos` and `itos_new` (std/io.zc:116-127);
`utos` (std/io.zc:130-134) is the same for `n ≥ 0`. -/
def itos (buffer : Mem Byte) (n : Int) : Res (Mem Byte) :=
  if (decimal n).length + 1 ≤ 32 then
    .ok ((decimal n).map some ++ some 0 :: buffer.drop ((decimal n).length + 1))
  else .ub

namespace Spec

/-- The block holds exactly the line and a zero byte. -/
def Line (m : Mem Byte) (l : List Byte) : Prop := ∃ rest, m = l.map some ++ some 0 :: rest

/-- The lines of a text: pieces without newline, each ended by a newline except perhaps the last. -/
inductive Lines : List Byte → List (List Byte) → Prop where
  | none : Lines [] []
  | last {l} : l ≠ [] → 10 ∉ l → Lines l [l]
  | more {l r ls} : 10 ∉ l → Lines r ls → Lines (l ++ 10 :: r) (l :: ls)

/-- The blocks hold the lines. -/
def AllLines : List (Mem Byte) → List (List Byte) → Prop
  | [], [] => True
  | m :: ms, l :: ls => Line m l ∧ AllLines ms ls
  | _, _ => False

/-- The number a decimal text denotes. -/
def value : List Byte → Int
  | 45 :: t => -(t.foldl (fun v c => 10 * v + (c.toNat - 48)) 0 : Nat)
  | t => (t.foldl (fun v c => 10 * v + (c.toNat - 48)) 0 : Nat)

end Spec
end Verif.Io
