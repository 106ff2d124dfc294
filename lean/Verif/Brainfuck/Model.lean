import Verif.Str.Model

/-!
# The Brainfuck plugin: model

`bf_transpile` (plugins/brainfuck.c:4-42), the statements it writes with their meaning in C, and the
collection of the text between the braces by `parse_macro_call` (src/parser/parser_stmt.c:2093-2160).

Simplified: the lines of C are kept as the constructors of `CLine` rather than as text (the text is in
the comments); `getchar` gives the next byte of the input and 255 (`EOF` cut to a byte) behind its end.
-/

namespace Verif.Brainfuck

open Verif.Str (Byte)

/-- lines written by the plugin -/
inductive CLine where
  /-- `++ptr;` -/
  | incPtr
  /-- `--ptr;` -/
  | decPtr
  /-- `++*ptr;` -/
  | incCell
  /-- `--*ptr;` -/
  | decCell
  /-- `putchar(*ptr);` -/
  | put
  /-- `*ptr = getchar();` -/
  | get
  /-- `while (*ptr) {` -/
  | whileOpen
  /-- `}` -/
  | close
  /-- `{ static unsigned char tape[30000] = {0}; unsigned char *ptr = tape;` -/
  | header
deriving DecidableEq

/-- the `switch` (plugins/brainfuck.c:12-37) -/
def emitChar (c : Byte) : List CLine :=
  if c = 62 then [.incPtr]
  else if c = 60 then [.decPtr]
  else if c = 43 then [.incCell]
  else if c = 45 then [.decCell]
  else if c = 46 then [.put]
  else if c = 44 then [.get]
  else if c = 91 then [.whileOpen]
  else if c = 93 then [.close]
  else []

/-- `bf_transpile` (plugins/brainfuck.c:4-42) -/
def transpile (body : List Byte) : List CLine := .header :: (body.flatMap emitChar ++ [.close])

/-! ## The lines as C -/

/-- statements -/
inductive CStmt where
  | incPtr | decPtr | incCell | decCell | put | get
  | loop (body : List CStmt)

/-- lines that form a list of statements -/
inductive Parses : List CLine → List CStmt → Prop where
  | nil : Parses [] []
  | incPtr {ls ts} : Parses ls ts → Parses (.incPtr :: ls) (.incPtr :: ts)
  | decPtr {ls ts} : Parses ls ts → Parses (.decPtr :: ls) (.decPtr :: ts)
  | incCell {ls ts} : Parses ls ts → Parses (.incCell :: ls) (.incCell :: ts)
  | decCell {ls ts} : Parses ls ts → Parses (.decCell :: ls) (.decCell :: ts)
  | put {ls ts} : Parses ls ts → Parses (.put :: ls) (.put :: ts)
  | get {ls ts} : Parses ls ts → Parses (.get :: ls) (.get :: ts)
  | loop {ls ms ts us} : Parses ls ts → Parses ms us →
      Parses (.whileOpen :: (ls ++ .close :: ms)) (.loop ts :: us)

/-- a block with the declarations in front -/
def Block (ls : List CLine) (ts : List CStmt) : Prop := ∃ b, ls = .header :: (b ++ [.close]) ∧ Parses b ts

/-- memory, input left and output so far -/
structure St where
  ptr : Nat
  tape : Nat → Byte
  input : List Byte
  output : List Byte

/-- storing into the current cell -/
def St.set (s : St) (b : Byte) : St := { s with tape := fun i => if i = s.ptr then b else s.tape i }

/-- the meaning in C: the pointer may stand behind the last element but must not be used there; no rule
applies to what is undefined -/
inductive CExec : List CStmt → St → St → Prop where
  | nil {s} : CExec [] s s
  | incPtr {ts s s'} : s.ptr + 1 ≤ 30000 → CExec ts { s with ptr := s.ptr + 1 } s' → CExec (.incPtr :: ts) s s'
  | decPtr {ts s s'} : 1 ≤ s.ptr → CExec ts { s with ptr := s.ptr - 1 } s' → CExec (.decPtr :: ts) s s'
  | incCell {ts s s'} : s.ptr < 30000 → CExec ts (s.set (s.tape s.ptr + 1)) s' → CExec (.incCell :: ts) s s'
  | decCell {ts s s'} : s.ptr < 30000 → CExec ts (s.set (s.tape s.ptr - 1)) s' → CExec (.decCell :: ts) s s'
  | put {ts s s'} : s.ptr < 30000 → CExec ts { s with output := s.output ++ [s.tape s.ptr] } s' →
      CExec (.put :: ts) s s'
  | get {ts s s'} : s.ptr < 30000 →
      CExec ts { s.set (s.input.headD 255) with input := s.input.tail } s' → CExec (.get :: ts) s s'
  | loopEnd {b ts s s'} : s.ptr < 30000 → s.tape s.ptr = 0 → CExec ts s s' → CExec (.loop b :: ts) s s'
  | loopTurn {b ts s s1 s'} : s.ptr < 30000 → s.tape s.ptr ≠ 0 → CExec b s s1 → CExec (.loop b :: ts) s1 s' →
      CExec (.loop b :: ts) s s'

/-! ## The text between the braces -/

/-- a token: its text, and whether it is on a later line than the one before -/
structure Tok where
  text : List Byte
  newLine : Bool

/-- the loop of `parse_macro_call` (src/parser/parser_stmt.c:2109-2156), for the tokens between the
braces: a separator and the text of each token, as long as they fit 8192 bytes -/
def collect : List Byte → List Tok → List Byte
  | body, [] => body
  | body, t :: ts =>
      if body.length + t.text.length + 2 < 8192 then
        collect (body ++ (if t.newLine then 10 else 32) :: t.text) ts
      else collect body ts

/-! ## Brainfuck -/

namespace Spec

/-- commands -/
inductive Cmd where
  | right | left | inc | dec | put | get | open_ | close
deriving DecidableEq

/-- command of a character; all others are comments -/
def cmd (c : Byte) : Option Cmd :=
  if c = 62 then some .right else if c = 60 then some .left else if c = 43 then some .inc
  else if c = 45 then some .dec else if c = 46 then some .put else if c = 44 then some .get
  else if c = 91 then some .open_ else if c = 93 then some .close else none

/-- the program of a text -/
def program (text : List Byte) : List Cmd := text.filterMap cmd

/-- balanced brackets -/
inductive Balanced : List Cmd → Prop where
  | nil : Balanced []
  | plain {c p} : c ≠ .open_ → c ≠ .close → Balanced p → Balanced (c :: p)
  | brackets {p q} : Balanced p → Balanced q → Balanced (.open_ :: (p ++ .close :: q))

/-- the brackets at `i` and `j` belong together -/
def Matches (p : List Cmd) (i j : Nat) : Prop :=
  ∃ a b c, p = a ++ .open_ :: (b ++ .close :: c) ∧ Balanced b ∧ i = a.length ∧ j = a.length + 1 + b.length

/-- one step of the machine: the position in the program and the memory.  A move beyond one of the 30000
cells is not possible. -/
inductive Step (p : List Cmd) : Nat × St → Nat × St → Prop where
  | right {i s} : p[i]? = some .right → s.ptr + 1 < 30000 → Step p (i, s) (i + 1, { s with ptr := s.ptr + 1 })
  | left {i s} : p[i]? = some .left → 1 ≤ s.ptr → Step p (i, s) (i + 1, { s with ptr := s.ptr - 1 })
  | inc {i s} : p[i]? = some .inc → Step p (i, s) (i + 1, s.set (s.tape s.ptr + 1))
  | dec {i s} : p[i]? = some .dec → Step p (i, s) (i + 1, s.set (s.tape s.ptr - 1))
  | put {i s} : p[i]? = some .put → Step p (i, s) (i + 1, { s with output := s.output ++ [s.tape s.ptr] })
  | get {i s} : p[i]? = some .get →
      Step p (i, s) (i + 1, { s.set (s.input.headD 255) with input := s.input.tail })
  | skip {i j s} : Matches p i j → s.tape s.ptr = 0 → Step p (i, s) (j + 1, s)
  | enter {i s} : p[i]? = some .open_ → s.tape s.ptr ≠ 0 → Step p (i, s) (i + 1, s)
  | back {i j s} : Matches p i j → s.tape s.ptr ≠ 0 → Step p (j, s) (i + 1, s)
  | leave {j s} : p[j]? = some .close → s.tape s.ptr = 0 → Step p (j, s) (j + 1, s)

/-- `n` steps -/
inductive Steps (p : List Cmd) : Nat → Nat × St → Nat × St → Prop where
  | refl {x} : Steps p 0 x x
  | step {n x y z} : Step p x y → Steps p n y z → Steps p (n + 1) x z

/-- the machine stands in front of a move beyond the last cell -/
def Leaves (p : List Cmd) (x : Nat × St) : Prop := p[x.1]? = some .right ∧ x.2.ptr + 1 = 30000

/-- empty memory -/
def start (input : List Byte) : St := ⟨0, fun _ => 0, input, []⟩

end Spec

end Verif.Brainfuck
