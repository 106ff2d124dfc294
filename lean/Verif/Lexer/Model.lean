import Verif.Probe
import Verif.Str.Model

/-!
# Model of `src/lexer/token.c`

The source text is the list of its bytes before the terminating NUL; `s[i]` is `rd s i`, which is
0 at the NUL and `ub` behind it.  `isspace`, `isalpha`, ... are those of the C locale.
`int len` is a natural number: source texts are assumed shorter than 2^31 bytes.
-/

namespace Verif.Lexer
open Verif Verif.Str

/-- `ZenTokenType` (src/zprep.h:28-85), the members `lexer_next` produces -/
inductive Kind where
  | eof | ident | int | float | string | fstring | rawString | char
  | lparen | rparen | lbrace | rbrace | lbracket | rbracket | langle | rangle
  | comma | colon | semicolon | op | at | dotdot | dotdotEq | dotdotLt | arrow | pipe
  | test | assert | sizeof | deff | defer | autofree | question | use | qq | qqEq | qDot
  | dcolon | trait | impl | and | or | comptime | ellipsis | union | asm | volatile
  | async | await | preproc | alias | comment | opaque
  deriving DecidableEq, Repr

/-- `Lexer` (src/zprep.h) without the source pointer and the comment flag -/
structure Lex where
  pos : Nat
  line : Nat
  col : Nat
  deriving DecidableEq, Repr

/-- `Token` (src/zprep.h); `start` is an offset into the source -/
structure Tok where
  kind : Kind
  start : Nat
  len : Nat
  line : Nat
  col : Nat
  deriving DecidableEq, Repr

/-- `lexer_init` (src/lexer/token.c:3-10) -/
def init : Lex := ⟨0, 1, 1⟩

/-- `s[i]` -/
def rd (s : List Byte) (i : Nat) : Run Byte :=
  if i < s.length then .ok (s.getD i 0) else if i = s.length then .ok 0 else .ub

/-- `isspace` -/
def isSpace (c : Byte) : Bool := c == 32 || (9 ≤ c && c ≤ 13)
/-- `isalpha` -/
def isAlpha (c : Byte) : Bool := (65 ≤ c && c ≤ 90) || (97 ≤ c && c ≤ 122)
/-- `isdigit` -/
def isDigit (c : Byte) : Bool := 48 ≤ c && c ≤ 57
/-- `isxdigit` -/
def isXdigit (c : Byte) : Bool := isDigit c || (65 ≤ c && c ≤ 70) || (97 ≤ c && c ≤ 102)
/-- `is_ident_start` (src/lexer/token.c:12-15) -/
def identStart (c : Byte) : Bool := isAlpha c || c == 95
/-- `is_ident_char` (src/lexer/token.c:17-20) -/
def identChar (c : Byte) : Bool := isAlpha c || isDigit c || c == 95

/-- `while (p(s[len])) len++` from `len = 0`, for `p` false of the NUL: bytes passed over -/
def span (p : Byte → Bool) : List Byte → Nat
  | [] => 0
  | c :: s => if p c then span p s + 1 else 0

/-- the white space loop (src/lexer/token.c:28-43) -/
def skipWs : List Byte → Lex → List Byte × Lex
  | [], l => ([], l)
  | c :: s, l =>
      if isSpace c then
        skipWs s (if c = 10 then ⟨l.pos + 1, l.line + 1, 1⟩ else ⟨l.pos + 1, l.line, l.col + 1⟩)
      else (c :: s, l)

/-- the directive loop (src/lexer/token.c:54-66): length and continuation lines -/
def preproc : List Byte → Nat × Nat
  | [] => (0, 0)
  | c :: s =>
      if c = 10 then (0, 0)
      else
        match s with
        | d :: s' =>
            if c = 92 ∧ d = 10 then
              let r := preproc s'
              (r.1 + 2, r.2 + 1)
            else
              let r := preproc (d :: s')
              (r.1 + 1, r.2)
        | [] => (1, 0)

/-- the block comment loop behind `/*` (src/lexer/token.c:101-124) -/
def block : List Byte → Lex → Lex
  | [], l => l
  | c :: s, l =>
      if c = 42 ∧ s.head? = some 47 then ⟨l.pos + 2, l.line, l.col⟩
      else if c = 10 then block s ⟨l.pos + 1, l.line + 1, 1⟩
      else block s ⟨l.pos + 1, l.line, l.col + 1⟩

/-- `for (i = 0; i < len; i++)` over the bytes of a string token
(src/lexer/token.c:281-292, 329-340, 474-485) -/
def count : List Byte → Lex → Lex
  | [], l => l
  | c :: s, l => count s (if c = 10 then ⟨l.pos, l.line + 1, 1⟩ else ⟨l.pos, l.line, l.col + 1⟩)

/-- `s[0] == '"' && s[1] == '"' && s[2] == '"'` -/
def is3 (s : List Byte) : Run Bool := do
  let a ← rd s 0
  if a ≠ 34 then pure false
  else do
    let b ← rd s 1
    if b ≠ 34 then pure false
    else do
      let c ← rd s 2
      pure (c == 34)

/-- `s[i] == '"' && s[i+1] == '"'` -/
def is2 (s : List Byte) (i : Nat) : Run Bool := do
  let a ← rd s i
  if a ≠ 34 then pure false
  else do
    let b ← rd s (i + 1)
    pure (b == 34)

/-- the two tests that end a string (src/lexer/token.c:256-263, 305-312, 449-456) -/
def stop (multi : Bool) (q : Byte) (s : List Byte) : Run Bool :=
  if multi then is3 s
  else do
    let a ← rd s 0
    pure (a == q)

/-- the string loop (src/lexer/token.c:254-270, 447-463), from the current byte on: bytes passed
over.  A backslash skips the next byte even if that is the NUL; the loop then reads behind it. -/
def strScan (multi : Bool) : List Byte → Run Nat
  | [] => .ok 0
  | [c] => do
      let b ← stop multi 34 [c]
      if b then pure 0
      else if c = 92 ∧ multi = false then .ub
      else pure 1
  | c :: d :: r => do
      let b ← stop multi 34 (c :: d :: r)
      if b then pure 0
      else if c = 92 ∧ multi = false then do
        let n ← strScan multi r
        pure (n + 2)
      else do
        let n ← strScan multi (d :: r)
        pure (n + 1)

/-- the closing quotes (src/lexer/token.c:271-278, 321-328, 464-471): final length -/
def close (multi : Bool) (q : Byte) (s : List Byte) (len : Nat) : Run Nat := do
  let b ← stop multi q (s.drop len)
  if b then pure (len + if multi then 3 else 1) else pure len

/-- string (src/lexer/token.c:444-471) with `off = 0`, f-string (251-279) with `off = 1`: length -/
def quoted (off : Nat) (s : List Byte) : Run Nat := do
  let multi ← is2 s (off + 1)
  let start := if multi then off + 3 else off + 1
  let n ← strScan multi (s.drop start)
  close multi 34 s (start + n)

/-- the raw string loop (src/lexer/token.c:303-320) -/
def rawScan (multi : Bool) (q : Byte) : List Byte → Run Nat
  | [] => .ok 0
  | [c] => do
      let b ← stop multi q [c]
      if b then pure 0 else pure 1
  | c :: d :: r => do
      let b ← stop multi q (c :: d :: r)
      if b then pure 0
      else if c = 92 ∧ d = q ∧ multi = false then do
        let n ← rawScan multi q r
        pure (n + 2)
      else do
        let n ← rawScan multi q (d :: r)
        pure (n + 1)

/-- `is_multi` of a raw string (src/lexer/token.c:299) -/
def rawMulti (q : Byte) (s : List Byte) : Run Bool := if q = 34 then is2 s 2 else pure false

/-- raw string (src/lexer/token.c:296-328): length -/
def rawString (s : List Byte) : Run Nat := do
  let q ← rd s 1
  let multi ← rawMulti q s
  let start := if multi then 4 else 2
  let n ← rawScan multi q (s.drop start)
  close multi q s (start + n)

/-- `if (is_ident_start(s[len])) while (is_ident_char(s[len])) len++`
(src/lexer/token.c:417-423, 432-438) -/
def suffix (s : List Byte) (len : Nat) : Run Nat := do
  let c ← rd s len
  if identStart c then pure (len + span identChar (s.drop len)) else pure len

/-- the fraction (src/lexer/token.c:390-401) -/
def fraction (s : List Byte) (len : Nat) : Run (Bool × Nat) := do
  let c ← rd s len
  if c = 46 then do
    let d ← rd s (len + 1)
    if d ≠ 46 then pure (true, len + 1 + span isDigit (s.drop (len + 1)))
    else pure (false, len)
  else pure (false, len)

/-- the exponent (src/lexer/token.c:403-415) -/
def exponent (s : List Byte) (r : Bool × Nat) : Run (Bool × Nat) := do
  let c ← rd s r.2
  if c = 101 ∨ c = 69 then do
    let d ← rd s (r.2 + 1)
    let len := if d = 43 ∨ d = 45 then r.2 + 2 else r.2 + 1
    pure (true, len + span isDigit (s.drop len))
  else pure r

/-- numbers (src/lexer/token.c:345-442) -/
def number (s : List Byte) : Run (Kind × Nat) := do
  let a ← rd s 0
  let b ← rd s 1
  if a = 48 ∧ (b = 120 ∨ b = 88) then do
    let n ← suffix s (2 + span isXdigit (s.drop 2))
    pure (.int, n)
  else if a = 48 ∧ (b = 98 ∨ b = 66) then do
    let n ← suffix s (2 + span (fun c => c == 48 || c == 49) (s.drop 2))
    pure (.int, n)
  else if a = 48 ∧ (b = 111 ∨ b = 79) then do
    let n ← suffix s (2 + span (fun c => 48 ≤ c && c ≤ 55) (s.drop 2))
    pure (.int, n)
  else do
    let r ← fraction s (span isDigit s)
    let r ← exponent s r
    let n ← suffix s r.2
    pure (if r.1 then .float else .int, n)

/-- character literal (src/lexer/token.c:491-512): length -/
def charLit (s : List Byte) : Run Nat := do
  let c ← rd s 1
  let len := if c = 92 then 3 else 2
  let d ← rd s len
  pure (if d = 39 then len + 1 else len)

/-- operators and punctuation (src/lexer/token.c:515-643) -/
def operator (s : List Byte) : Run (Kind × Nat) := do
  let a ← rd s 0
  let b ← rd s 1
  if a = 63 ∧ b = 46 then pure (.qDot, 2)
  else if a = 63 ∧ b = 63 then do
    let c ← rd s 2
    if c = 61 then pure (.qqEq, 3) else pure (.qq, 2)
  else if a = 63 then pure (.question, 1)
  else if a = 124 ∧ b = 62 then pure (.pipe, 2)
  else if a = 58 ∧ b = 58 then pure (.dcolon, 2)
  else if a = 46 ∧ b = 46 then do
    let c ← rd s 2
    if c = 46 then pure (.ellipsis, 3)
    else if c = 61 then pure (.dotdotEq, 3)
    else if c = 60 then pure (.dotdotLt, 3)
    else pure (.dotdot, 2)
  else if (a = 45 ∧ b = 62) ∨ (a = 61 ∧ b = 62) then pure (.arrow, 2)
  else if (a = 60 ∧ b = 60) ∨ (a = 62 ∧ b = 62) then do
    let c ← rd s 2
    if c = 61 then pure (.op, 3) else pure (.op, 2)
  else if (a = 38 ∧ b = 38) ∨ (a = 124 ∧ b = 124) ∨ (a = 43 ∧ b = 43) ∨ (a = 45 ∧ b = 45) then
    pure (.op, 2)
  else if b = 61 ∧ a ∈ ([61, 33, 60, 62, 43, 45, 42, 47, 37, 124, 38, 94] : List Byte) then
    pure (.op, 2)
  else if a = 40 then pure (.lparen, 1)
  else if a = 41 then pure (.rparen, 1)
  else if a = 123 then pure (.lbrace, 1)
  else if a = 125 then pure (.rbrace, 1)
  else if a = 91 then pure (.lbracket, 1)
  else if a = 93 then pure (.rbracket, 1)
  else if a = 60 then pure (.langle, 1)
  else if a = 62 then pure (.rangle, 1)
  else if a = 44 then pure (.comma, 1)
  else if a = 58 then pure (.colon, 1)
  else if a = 59 then pure (.semicolon, 1)
  else if a = 64 then pure (.at, 1)
  else pure (.op, 1)

/-- "test", "assert", "sizeof", "defer", "def", "trait", "impl", "autofree", "alias", "use",
"comptime", "union", "asm", "volatile", "async", "await", "and", "or", "opaque"
(src/lexer/token.c:148-223) -/
def keywords : List (List Byte × Kind) :=
  [([116, 101, 115, 116], .test),
   ([97, 115, 115, 101, 114, 116], .assert),
   ([115, 105, 122, 101, 111, 102], .sizeof),
   ([100, 101, 102, 101, 114], .defer),
   ([100, 101, 102], .deff),
   ([116, 114, 97, 105, 116], .trait),
   ([105, 109, 112, 108], .impl),
   ([97, 117, 116, 111, 102, 114, 101, 101], .autofree),
   ([97, 108, 105, 97, 115], .alias),
   ([117, 115, 101], .use),
   ([99, 111, 109, 112, 116, 105, 109, 101], .comptime),
   ([117, 110, 105, 111, 110], .union),
   ([97, 115, 109], .asm),
   ([118, 111, 108, 97, 116, 105, 108, 101], .volatile),
   ([97, 115, 121, 110, 99], .async),
   ([97, 119, 97, 105, 116], .await),
   ([97, 110, 100], .and),
   ([111, 114], .or),
   ([111, 112, 97, 113, 117, 101], .opaque)]

/-- `len == k && strncmp(s, w, k) == 0` down the list (src/lexer/token.c:148-223) -/
def keyword (w : List Byte) : List (List Byte × Kind) → Option Kind
  | [] => none
  | (k, t) :: ks => if w.length = k.length ∧ w = k then some t else keyword w ks

/-- one token at the first byte of `s`, which is neither white space, nor the NUL, nor the start
of a comment or directive (src/lexer/token.c:135-643): kind and length.  The bookkeeping of line
and column, interleaved in the code, is `advance`. -/
def raw (s : List Byte) : Run (Kind × Nat) := do
  let a ← rd s 0
  if identStart a then do
    let len := span identChar s
    match keyword (s.take len) keywords with
    | some k => pure (k, len)
    | none => do
        let b ← rd s 1
        if len = 1 ∧ a = 102 ∧ b = 34 then do
          let n ← quoted 1 s
          pure (.fstring, n)
        else if len = 1 ∧ a = 114 ∧ (b = 34 ∨ b = 39) then do
          let n ← rawString s
          pure (.rawString, n)
        else pure (.ident, len)
  else if isDigit a then number s
  else if a = 34 then do
    let n ← quoted 0 s
    pure (.string, n)
  else if a = 39 then do
    let n ← charLit s
    pure (.char, n)
  else operator s

/-- `l->line`, `l->col`, `l->pos` after a token of the given text -/
def advance (k : Kind) (text : List Byte) (len : Nat) (l : Lex) : Lex :=
  if k = .string ∨ k = .fstring ∨ k = .rawString then
    let l' := count text l
    ⟨l.pos + len, l'.line, l'.col⟩
  else ⟨l.pos + len, l.line, l.col + len⟩

/-- `lexer_next` (src/lexer/token.c:22-647).  The first argument bounds the recursion over skipped
comments. -/
def next (emit : Bool) (src : List Byte) : Nat → Lex → Run (Tok × Lex)
  | 0, _ => .hang
  | f + 1, l0 =>
      if src.length < l0.pos then .ub
      else
        let r := skipWs (src.drop l0.pos) l0
        let s := r.1
        let l := r.2
        if s = [] then .ok (⟨.eof, l.pos, 0, l.line, l.col⟩, l)
        else if s.head? = some 35 then
          let n := preproc s
          .ok (⟨.preproc, l.pos, n.1, l.line, l.col⟩, ⟨l.pos + n.1, l.line + n.2, l.col⟩)
        else if s.head? = some 47 ∧ s.tail.head? = some 47 then
          let len := 2 + span (fun c => c != 10) (s.drop 2)
          let l' : Lex := ⟨l.pos + len, l.line, l.col + len⟩
          if emit then .ok (⟨.comment, l.pos, len, l.line, l.col⟩, l') else next emit src f l'
        else if s.head? = some 47 ∧ s.tail.head? = some 42 then
          let l' := block (s.drop 2) ⟨l.pos + 2, l.line, l.col⟩
          if emit then .ok (⟨.comment, l.pos, l'.pos - l.pos, l.line, l.col⟩, l')
          else next emit src f l'
        else do
          let t ← raw s
          pure (⟨t.1, l.pos, t.2, l.line, l.col⟩, advance t.1 (s.take t.2) t.2 l)

/-- all tokens up to and including the end of file, as the callers collect them -/
def lexFrom (emit : Bool) (src : List Byte) : Nat → Lex → Run (List Tok)
  | 0, _ => .hang
  | f + 1, l => do
      let r ← next emit src (src.length + 1) l
      if r.1.kind = .eof then pure [r.1]
      else do
        let ts ← lexFrom emit src f r.2
        pure (r.1 :: ts)

/-- all tokens of a text -/
def lex (emit : Bool) (src : List Byte) : Run (List Tok) := lexFrom emit src (src.length + 1) init

end Verif.Lexer
