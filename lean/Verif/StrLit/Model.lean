import Verif.Probe
import Verif.Str.Model

/-!
# String literals, interpolation and printing

What src/parser/parser_expr.c (`escape_c_string`, `parse_string_literal`, raw strings,
`create_fstring_block`) and src/parser/parser_stmt.c (`process_printf_sugar`) make of the text
between the quotes of a string, and what the emitted C does.

Bodies are lists of bytes without NUL.  Not modelled: expressions inside holes (a hole is its text,
and its value is a parameter), unterminated literals, `\u` escapes.
-/

namespace Verif.StrLit

open Verif.Str (Byte)

/-- one byte other than a backslash, src/parser/parser_expr.c:983-1009 -/
def escape1 (c : Byte) : List Byte :=
  if c = 10 then [92, 110] else if c = 13 then [92, 114] else if c = 9 then [92, 116]
  else if c = 34 then [92, 34] else [c]

/-- `escape_c_string`, src/parser/parser_expr.c:969-1014 and src/parser/parser_stmt.c:1635-1680 -/
def escape : List Byte → List Byte
  | [] => []
  | [c] => if c = 92 then [92] else escape1 c
  | c :: d :: r => if c = 92 then 92 :: d :: escape r else escape1 c ++ escape (d :: r)

/-- `fprintf(out, "\"%s\"", string_val)`, src/codegen/codegen.c:37-40 -/
def lit (s : List Byte) : List Byte := 34 :: (s ++ [34])

/-- C text of a string without `{`, src/parser/parser_expr.c:1438-1474 -/
def strText (body : List Byte) : List Byte := lit (escape body)

/-- C text of a raw string: the token without its first two and its last byte,
src/parser/parser_expr.c:1690-1699; with three quotes two of them stay at each end -/
def rawText (multi : Bool) (body : List Byte) : List Byte :=
  lit (if multi then [34, 34] ++ body ++ [34, 34] else body)

/-! ## Interpolation -/

/-- A part of an interpolated string: text as written, or a hole (the text between its braces, and
the format after the colon). -/
inductive Piece where
  | text (s : List Byte)
  | hole (src : List Byte) (fmt : Option (List Byte))
  deriving DecidableEq, Repr

/-- `strchr`: bytes before the first `c`, and what follows it -/
def cut (c : Byte) : List Byte → Option (List Byte × List Byte)
  | [] => none
  | d :: r => if d = c then some ([], r) else (cut c r).map fun q => (d :: q.1, q.2)

/-- `strstr(cur, "}}")` -/
def cut2 : List Byte → Option (List Byte × List Byte)
  | [] => none
  | [_] => none
  | a :: b :: r =>
    if a = 125 ∧ b = 125 then some ([], r) else (cut2 (b :: r)).map fun q => (a :: q.1, q.2)

/-- The first `:` outside nested braces that is not followed by another one: what follows it,
src/parser/parser_expr.c:1139-1166.  The first argument is the depth of braces, from 1 on. -/
def colon : Nat → List Byte → Option (List Byte)
  | _, [] => none
  | d, [c] =>
    if (if c = 123 then d + 1 else d) = 1 ∧ c = 58 then some [] else none
  | d, c :: e :: r =>
    let d' := if c = 123 then d + 1 else d
    if d' = 1 ∧ c = 58 then if e = 58 then colon d' r else some (e :: r)
    else colon d' (e :: r)

/-- a text segment, if it is not empty -/
def seg1 (s : List Byte) : List Piece := if s = [] then [] else [.text s]

/-- The loop of `create_fstring_block`, src/parser/parser_expr.c:1043-1345, on the rest of the
content.  The first argument bounds the number of turns; `none` is the error "Unclosed f-string
brace".  The rejected beginnings of an expression (1196-1237) are not modelled. -/
def segments : Nat → List Byte → Option (List Piece)
  | 0, _ => none
  | n + 1, cur =>
    if cur = [] then some [] else
    match cut2 cur, cut 123 cur with
    | some (a, r), none => (segments n r).map fun ps => seg1 a ++ .text [125] :: ps
    | none, none => some [.text cur]
    | d, some (a, r) =>
      match d.filter fun q => q.1.length < a.length with
      | some (a', r') => (segments n r').map fun ps => seg1 a' ++ .text [125] :: ps
      | none =>
        match r with
        | 123 :: r' => (segments n r').map fun ps => seg1 a ++ .text [123] :: ps
        | _ =>
          match cut 125 r with
          | none => none
          | some (src, r') =>
            (segments n r').map fun ps => seg1 a ++ .hole src (colon 1 src) :: ps

/-- all parts -/
def fstring (content : List Byte) : Option (List Piece) := segments (content.length + 1) content

/-- `parse_string_literal`, src/parser/parser_expr.c:1445-1459: a body with `{` is interpolated -/
def interpolated (body : List Byte) : Bool := body.contains 123

/-- C text of the statement for a text part, src/parser/parser_expr.c:1066-1070 -/
def catText (s : List Byte) : List Byte := lit (escape s)

/-- The value of a hole: the text `printf` makes of it, or a `bool`, for which `_z_str` chooses `%s`
(src/codegen/codegen_decl.c:28) and which is passed as it is. -/
inductive Val where
  | txt (s : List Byte)
  | bool (b : Bool)
  deriving DecidableEq, Repr

/-- statements of the emitted block: `strcat(_b, "...")`, and `sprintf(_t, ...); strcat(_b, _t)` -/
inductive Act where
  | cat (v : List Byte)
  | spr (v : Val)
  deriving DecidableEq, Repr

/-- size of `_b`, src/parser/parser_expr.c:1025 -/
def capB : Nat := 4096
/-- size of `_t`, src/parser/parser_expr.c:1037 -/
def capT : Nat := 128

/-- `strcat(_b, s)`: the bytes before the first NUL and a terminator -/
def strcat (b s : List Byte) : Run (List Byte) :=
  if (b ++ s.takeWhile (· ≠ 0)).length < capB then .ok (b ++ s.takeWhile (· ≠ 0)) else .ub

/-- The block; the first argument is the content of `_b`.  `%s` with a `bool` reads address 0 or 1. -/
def run : List Byte → List Act → Run (List Byte)
  | b, [] => .ok b
  | b, .cat v :: as => do
    let b' ← strcat b v
    run b' as
  | _, .spr (.bool _) :: _ => .ub
  | b, .spr (.txt v) :: as =>
    if v.length < capT then do
      let b' ← strcat b v
      run b' as
    else .ub

/-! ## The buffer is static -/

mutual
/-- An interpolated string at some place in the program: place, parts. -/
inductive FExpr where
  | mk (site : Nat) (ps : FParts)
/-- Parts: text, a hole with a string variable, a hole whose value is an interpolated string -/
inductive FParts where
  | nil
  | text (v : List Byte) (ps : FParts)
  | var (v : List Byte) (ps : FParts)
  | sub (e : FExpr) (ps : FParts)
end

/-- contents of the buffers by place -/
abbrev Bufs := Nat → List Byte

/-- change one buffer -/
def set (m : Bufs) (i : Nat) (v : List Byte) : Bufs := fun j => if j = i then v else m j

mutual
/-- `static char _b[4096]; _b[0]=0; ...; _b;` (src/parser/parser_expr.c:1024-1025, 1037, 1350).  The
result is the buffer of the place.  Sizes are not considered here. -/
def evalE : FExpr → Bufs → Bufs
  | .mk i ps, m => evalP i ps (set m i [])
/-- `strcat(_b, ...)` in order; a hole is evaluated (into `_t`) before it is appended -/
def evalP (i : Nat) : FParts → Bufs → Bufs
  | .nil, m => m
  | .text v ps, m => evalP i ps (set m i (m i ++ v))
  | .var v ps, m => evalP i ps (set m i (m i ++ v))
  | .sub (.mk j qs) ps, m =>
    let m' := evalE (.mk j qs) m
    evalP i ps (set m' i (m' i ++ m' j))
end

/-- the place of an expression -/
def FExpr.site : FExpr → Nat
  | .mk i _ => i

/-! ## Printing -/

/-- The matching `}`: bytes before it, and what follows, `none` if there is none,
src/parser/parser_stmt.c:1729-1759.  The first argument is the depth. -/
def closing : Nat → List Byte → Option (List Byte × List Byte)
  | _, [] => none
  | d, c :: r =>
    if c = 123 then (closing (d + 1) r).map fun q => (c :: q.1, q.2)
    else if c = 125 then
      if d = 1 then some ([], r) else (closing (d - 1) r).map fun q => (c :: q.1, q.2)
    else (closing d r).map fun q => (c :: q.1, q.2)

/-- `\"` to `"` in a hole, src/parser/parser_stmt.c:1765-1782 -/
def unquote : List Byte → List Byte
  | [] => []
  | [c] => [c]
  | c :: d :: r => if c = 92 ∧ d = 34 then 34 :: unquote r else c :: unquote (d :: r)

/-- `process_printf_sugar`, src/parser/parser_stmt.c:1682-2085, for holes without format (the colon
and the choice of the conversion are not modelled): parts.  After a hole that is not closed, the
loop goes on behind the terminator (`cur = p + 1` with `*p == 0`): `ub`. -/
def printSegments : Nat → List Byte → Run (List Piece)
  | 0, _ => .hang
  | n + 1, cur =>
    if cur = [] then .ok [] else
    match cut 123 cur with
    | none => .ok [.text cur]
    | some (a, r) =>
      match closing 1 r with
      | none => .ub
      | some (src, r') =>
        match printSegments n r' with
        | .ok ps => .ok (seg1 a ++ .hole (unquote src) none :: ps)
        | .ub => .ub
        | .hang => .hang

/-- all parts -/
def printParts (content : List Byte) : Run (List Piece) := printSegments (content.length + 1) content

/-- size of the buffer `gen`, src/parser/parser_stmt.c:1687 -/
def capGen : Nat := 8192

/-- Bytes appended to `gen` for the parts: `fprintf(stdout, "%s", "` and `"); ` around a text
(src/parser/parser_stmt.c:1705-1716); `code` is the length of what is appended for a hole. -/
def genLen (code : List Byte → Nat) : List Piece → Nat
  | [] => 0
  | .text s :: ps => 23 + (escape s).length + 4 + genLen code ps
  | .hole src _ :: ps => code src + genLen code ps

/-- The generated statement: `({ `, the parts, the newline or flush, `0; })` and a terminator have to
fit (src/parser/parser_stmt.c:1687-1688, 2063-2078); nothing checks it. -/
def printGen (code : List Byte → Nat) (newline : Bool) (content : List Byte) : Run (List Piece) := do
  let ps ← printParts content
  if 3 + genLen code ps + (if newline then 23 else 16) + 5 < capGen then .ok ps else .ub

/-! ## What is meant -/

namespace Spec

/-- C11 5.1.1.2p1, phase 2: a backslash before a newline disappears together with it -/
def splice : List Byte → List Byte
  | [] => []
  | [c] => [c]
  | c :: d :: r => if c = 92 ∧ d = 10 then splice r else c :: splice (d :: r)

/-- value of a digit -/
def digit (c : Byte) : Nat :=
  if 48 ≤ c ∧ c ≤ 57 then c.toNat - 48
  else if 97 ≤ c ∧ c ≤ 102 then c.toNat - 87
  else if 65 ≤ c ∧ c ≤ 70 then c.toNat - 55
  else 16

/-- number in base `b` -/
def number (b : Nat) (ds : List Byte) : Nat := ds.foldl (fun a d => a * b + digit d) 0

/-- simple escapes, C11 6.4.4.4 -/
def simple (c : Byte) : Option Byte :=
  if c = 110 then some 10 else if c = 116 then some 9 else if c = 114 then some 13
  else if c = 92 then some 92 else if c = 34 then some 34 else if c = 39 then some 39
  else if c = 63 then some 63 else if c = 97 then some 7 else if c = 98 then some 8
  else if c = 102 then some 12 else if c = 118 then some 11 else none

/-- Escape sequences of C (6.4.4.4, without `\u`): from the text after the backslash, the byte and
what follows.  One to three octal digits, or `x` and any number of hexadecimal digits. -/
def esc : List Byte → Option (Byte × List Byte)
  | [] => none
  | c :: r =>
    match simple c with
    | some v => some (v, r)
    | none =>
      if digit c < 8 then
        let ds := ((c :: r).take 3).takeWhile (digit · < 8)
        if number 8 ds < 256 then some (UInt8.ofNat (number 8 ds), (c :: r).drop ds.length) else none
      else if c = 120 then
        let ds := r.takeWhile (digit · < 16)
        if ds ≠ [] ∧ number 16 ds < 256 then
          some (UInt8.ofNat (number 16 ds), r.drop ds.length) else none
      else none

/-- Value of the body of a Zen-C string: escapes as in C, everything else is itself. -/
inductive Body : List Byte → List Byte → Prop
  | nil : Body [] []
  | esc {r r' : List Byte} {v : Byte} {vs : List Byte} : esc r = some (v, r') → Body r' vs →
      Body (92 :: r) (v :: vs)
  | raw {c : Byte} {r vs : List Byte} : c ≠ 92 → Body r vs → Body (c :: r) (c :: vs)

/-- C11 6.4.5: from the text after the opening quote, the value and what follows the closing one.
There is none for a text with a newline before the closing quote. -/
inductive CLit : List Byte → List Byte → List Byte → Prop
  | close (rest : List Byte) : CLit (34 :: rest) [] rest
  | esc {r r' rest : List Byte} {v : Byte} {vs : List Byte} : Spec.esc r = some (v, r') →
      CLit r' vs rest → CLit (92 :: r) (v :: vs) rest
  | raw {c : Byte} {r vs rest : List Byte} : c ≠ 92 → c ≠ 34 → c ≠ 10 → CLit r vs rest →
      CLit (c :: r) (c :: vs) rest

/-- A text begins with a C string literal: its value, and what follows. -/
def CStr (text v rest : List Byte) : Prop := ∃ t, splice text = 34 :: t ∧ CLit t v rest

/-- Adjacent literals are one (5.1.1.2, phase 6): `n + 1` literals without space between them. -/
def CStrs : Nat → List Byte → List Byte → List Byte → Prop
  | 0, text, v, rest => CStr text v rest
  | n + 1, text, v, rest => ∃ v1 m v2, CStr text v1 m ∧ CStrs n m v2 rest ∧ v = v1 ++ v2

/-- what an interpolated string is made of -/
inductive Out where
  | byte (c : Byte)
  | hole (src : List Byte)
  deriving DecidableEq, Repr

/-- Meaning of an interpolated string, read from left to right: `{{` and `}}` are braces (if the flag
is set), `{...}` is a hole, escapes are as in C. -/
inductive Interp (dbl : Bool) : List Byte → List Out → Prop
  | nil : Interp dbl [] []
  | lbrace {r : List Byte} {os : List Out} : dbl = true → Interp dbl r os →
      Interp dbl (123 :: 123 :: r) (.byte 123 :: os)
  | rbrace {r : List Byte} {os : List Out} : dbl = true → Interp dbl r os →
      Interp dbl (125 :: 125 :: r) (.byte 125 :: os)
  | hole {src r : List Byte} {os : List Out} : src ≠ [] → 123 ∉ src → 125 ∉ src → Interp dbl r os →
      Interp dbl (123 :: (src ++ 125 :: r)) (.hole src :: os)
  | esc {r r' : List Byte} {v : Byte} {os : List Out} : Spec.esc r = some (v, r') →
      Interp dbl r' os → Interp dbl (92 :: r) (.byte v :: os)
  | raw {c : Byte} {r : List Byte} {os : List Out} : c ≠ 92 → c ≠ 123 → c ≠ 125 →
      Interp dbl r os → Interp dbl (c :: r) (.byte c :: os)

/-- the holes -/
def holes : List Out → List (List Byte)
  | [] => []
  | .byte _ :: os => holes os
  | .hole src :: os => src :: holes os

/-- the string, for given values of the holes -/
def render (val : List Byte → List Byte) : List Out → List Byte
  | [] => []
  | .byte c :: os => c :: render val os
  | .hole src :: os => val src ++ render val os

mutual
/-- the string an interpolated string stands for -/
def FExpr.value : FExpr → List Byte
  | .mk _ ps => FParts.value ps
/-- the same for parts -/
def FParts.value : FParts → List Byte
  | .nil => []
  | .text v ps => v ++ FParts.value ps
  | .var v ps => v ++ FParts.value ps
  | .sub e ps => FExpr.value e ++ FParts.value ps
end

mutual
/-- places used inside -/
def FExpr.sites : FExpr → List Nat
  | .mk i ps => i :: FParts.sites ps
/-- the same for parts -/
def FParts.sites : FParts → List Nat
  | .nil => []
  | .text _ ps => FParts.sites ps
  | .var _ ps => FParts.sites ps
  | .sub e ps => FExpr.sites e ++ FParts.sites ps
end

mutual
/-- no place is used again inside its own holes -/
def FExpr.fresh : FExpr → Prop
  | .mk i ps => i ∉ FParts.sites ps ∧ FParts.fresh ps
/-- the same for parts -/
def FParts.fresh : FParts → Prop
  | .nil => True
  | .text _ ps => FParts.fresh ps
  | .var _ ps => FParts.fresh ps
  | .sub e ps => FExpr.fresh e ∧ FParts.fresh ps
end

/-- The statements the parts become: the literal of a text has a value in C, a hole without format
has the value of its expression. -/
inductive Emits (val : List Byte → Val) : List Piece → List Act → Prop
  | nil : Emits val [] []
  | text {s v : List Byte} {ps : List Piece} {as : List Act} : CStr (catText s) v [] →
      Emits val ps as → Emits val (.text s :: ps) (.cat v :: as)
  | hole {src : List Byte} {ps : List Piece} {as : List Act} : Emits val ps as →
      Emits val (.hole src none :: ps) (.spr (val src) :: as)

/-- what printing the parts writes -/
inductive Prints (val : List Byte → List Byte) : List Piece → List Byte → Prop
  | nil : Prints val [] []
  | text {s v : List Byte} {ps : List Piece} {o : List Byte} : CStr (catText s) v [] →
      Prints val ps o → Prints val (.text s :: ps) (v ++ o)
  | hole {src : List Byte} {ps : List Piece} {o : List Byte} : Prints val ps o →
      Prints val (.hole src none :: ps) (val src ++ o)

end Spec

end Verif.StrLit
