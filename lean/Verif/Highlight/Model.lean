import Verif.Forth.Model

/-!
# Model of what the interactive prompt shows

`find_matching_brace`, `get_visible_length`, `repl_highlight` and the redrawing of the line in `repl_readline`
(src/repl/repl.c:175-271, 313-522, 617-619, 945-958), and a terminal that interprets what they print.  Characters stand for
bytes (of which `isalpha` and the like know only ASCII, as no locale is set).  Simplified: lengths are below 2^31.
-/

namespace Verif.Highlight
open Verif.Forth

/-! ## matching brackets -/

/-- The bracket that belongs to a bracket, and whether it is searched to the right
(src/repl/repl.c:181-218). -/
def partner (c : Char) : Option (Char × Bool) :=
  if c = '{' then some ('}', true)
  else if c = '(' then some (')', true)
  else if c = '[' then some (']', true)
  else if c = '}' then some ('{', false)
  else if c = ')' then some ('(', false)
  else if c = ']' then some ('[', false)
  else none

/-- The loop (src/repl/repl.c:220-238) on the characters in the order they are looked at: how many of them come
before the one that brings the depth to zero. -/
def seek (c m : Char) : Nat → Str → Option Nat
  | _, [] => none
  | depth, d :: s =>
    if d = c then (seek c m (depth + 1) s).map (· + 1)
    else if d = m then
      if depth - 1 = 0 then some 0 else (seek c m (depth - 1) s).map (· + 1)
    else (seek c m depth s).map (· + 1)

/-- `find_matching_brace` (src/repl/repl.c:175-238). -/
def matching (buf : Str) (pos : Nat) : Option Nat :=
  match buf[pos]? with
  | none => none
  | some c =>
    match partner c with
    | none => none
    | some (m, true) => (seek c m 1 (buf.drop (pos + 1))).map (pos + 1 + ·)
    | some (m, false) => (seek c m 1 (buf.take pos).reverse).map (pos - 1 - ·)

/-- The two positions that are marked (src/repl/repl.c:317-331); the cursor is -1 (`none`) for `:show`
(src/repl/repl.c:1287). -/
def marks (buf : Str) : Option Nat → Option (Nat × Nat)
  | none => none
  | some cur =>
    match matching buf cur with
    | some m => some (cur, m)
    | none =>
      if 0 < cur then (matching buf (cur - 1)).map fun m => (cur - 1, m) else none

/-! ## colours -/

/-- `isspace` -/
def isSpace (c : Char) : Bool := c == ' ' || (9 ≤ c.toNat && c.toNat ≤ 13)
/-- `isdigit` -/
def isDigit (c : Char) : Bool := '0' ≤ c && c ≤ '9'
/-- `islower` -/
def isLower (c : Char) : Bool := 'a' ≤ c && c ≤ 'z'
/-- `isupper` -/
def isUpper (c : Char) : Bool := 'A' ≤ c && c ≤ 'Z'
/-- `isalpha` -/
def isAlpha (c : Char) : Bool := isLower c || isUpper c
/-- Letters, digits and `_` -/
def isWord (c : Char) : Bool := isAlpha c || isDigit c || c == '_'

/-- The keywords (src/repl/repl.c:165-170). -/
def keywords : List Str :=
  ["fn", "struct", "var", "let", "def", "const", "return", "if", "else", "for", "while", "do", "switch", "case", "default",
   "break", "continue", "typedef", "enum", "union", "sizeof", "typeof", "import", "include", "defer", "guard", "match",
   "impl", "trait", "comptime", "asm", "plugin", "true", "false", "null", "NULL"].map String.toList

/-- The types (src/repl/repl.c:172-173). -/
def types : List Str :=
  ["void", "int", "char", "float", "double", "long", "short", "unsigned", "signed", "bool"].map String.toList

/-- The beginning of a colour. -/
def sgr (code : String) : Str := '\x1b' :: '[' :: code.toList ++ ['m']

/-- Text in a colour. -/
def colour (code : String) (s : Str) : Str := sgr code ++ s ++ sgr "0"

/-- The string after its opening quote (src/repl/repl.c:372-386). -/
def quoted (q : Char) : Str → Str
  | [] => []
  | [c] => [c]
  | c :: d :: s => if c = q then [c] else if c = '\\' then c :: d :: quoted q s else c :: quoted q (d :: s)

/-- The colour of a word, and whether it has one (src/repl/repl.c:425-497): keyword, type, function, constant. -/
def wordColour (w after : Str) : Option String :=
  if w ∈ keywords then some "1;36"
  else if w ∈ types then some "1;33"
  else if (after.dropWhile isSpace).head? = some '(' then some "1;34"
  else if 1 < w.length ∧ w.all (fun c => !isLower c) ∧ w.any isUpper then some "1;31"
  else none

/-- A word (src/repl/repl.c:414-508): words of 256 characters and more are printed plainly. -/
def word (w after : Str) : Str :=
  if w.length < 256 then
    (match wordColour w after with
    | some code => sgr code ++ w
    | none => w) ++ sgr "0"
  else w

/-- One round of the loop (src/repl/repl.c:333-520): how many characters are consumed, and what is printed; `i` is the index of
the first character.  The first round that applies is taken, in the order of the code. -/
def step (mk : Option (Nat × Nat)) (i : Nat) (c : Char) (s : Str) : Nat × Str :=
  if mk.any (fun p => i == p.1 || i == p.2) then (1, colour "1;44;37" [c])
  else if c = '/' ∧ s.head? = some '/' then ((c :: s).length, colour "1;30" (c :: s))
  else if c = ':' ∧ s.head?.any isAlpha = true then
    let w := (c :: s).takeWhile (fun d => !isSpace d)
    (w.length, colour "1;35" w)
  else if isDigit c then
    let w := (c :: s).takeWhile (fun d => isDigit d || d == '.' || d == 'x' || d == 'X')
    (w.length, colour "1;35" w)
  else if c = '"' ∨ c = '\'' then
    let w := c :: quoted c s
    (w.length, colour "1;32" w)
  else if c ∈ [',', ';', '.'] then (1, colour "1;30" [c])
  else if c ∈ ['{', '}', '[', ']', '(', ')'] then (1, colour "0;36" [c])
  else if c ∈ ['+', '-', '*', '/', '=', '<', '>', '!', '&', '|', '^', '~', '%'] then (1, colour "1;37" [c])
  else if isAlpha c || c == '_' then
    let w := (c :: s).takeWhile isWord
    (w.length, word w ((c :: s).dropWhile isWord))
  else (1, [c])

/-- The loop (src/repl/repl.c:333-521); the first argument bounds the rounds. -/
def paint (mk : Option (Nat × Nat)) : Nat → Nat → Str → Str
  | 0, _, _ => []
  | _, _, [] => []
  | k + 1, i, c :: s =>
    let r := step mk i c s
    r.2 ++ paint mk k (i + r.1) ((c :: s).drop r.1)

/-- `repl_highlight` (src/repl/repl.c:313-522). -/
def highlight (buf : Str) (cur : Option Nat) : Str := paint (marks buf cur) buf.length 0 buf

/-! ## the line on the screen -/

/-- `get_visible_length` (src/repl/repl.c:241-271); the flag is `in_esc`. -/
def visible : Bool → Str → Nat
  | _, [] => 0
  | esc, c :: s =>
    if c = '\x1b' then visible true s
    else if esc then visible (!(c == 'm' || c == 'K' || isAlpha c)) s
    else visible false s + 1

/-- The digit of a number below ten. -/
def digitChar (n : Nat) : Char := Char.ofNat (48 + n)

/-- `%d` of a number (ISO C 7.21.6.1). -/
def dec (n : Nat) : Str := if n < 10 then [digitChar n] else dec (n / 10) ++ [digitChar (n % 10)]

/-- Redrawing (src/repl/repl.c:945-958). -/
def redraw (prompt buf : Str) (pos : Nat) : Str :=
  '\r' :: '\x1b' :: '[' :: 'K' :: prompt ++ highlight buf (some pos) ++
    (if 0 < pos + visible false prompt then '\r' :: '\x1b' :: '[' :: dec (pos + visible false prompt) ++ ['C'] else ['\r'])

/-- The prompts (src/repl/repl.c:1162-1181): with the name of the directory, without, and inside brackets. -/
def prompts (base : Str) : List Str :=
  [sgr "1;32" ++ base ++ " >>>".toList ++ sgr "0" ++ [' '], sgr "1;32" ++ ">>>".toList ++ sgr "0" ++ [' '], "... ".toList]

/-! ## specification: a terminal -/

namespace Spec

/-- A bracket of one kind and its partner enclose a text in which this kind is balanced. -/
inductive Balanced (o c : Char) : Str → Prop
  | nil : Balanced o c []
  | other {d s} : d ≠ o → d ≠ c → Balanced o c s → Balanced o c (d :: s)
  | nest {s t} : Balanced o c s → Balanced o c t → Balanced o c (o :: s ++ c :: t)

/-- The kinds of brackets. -/
def Kind (o c : Char) : Prop := (o = '(' ∧ c = ')') ∨ (o = '[' ∧ c = ']') ∨ (o = '{' ∧ c = '}')

/-- The brackets at `i` and `j` belong together. -/
def Pair (buf : Str) (i j : Nat) : Prop :=
  ∃ o c a m b, Kind o c ∧ buf = a ++ o :: m ++ c :: b ∧ Balanced o c m ∧ i = a.length ∧ j = a.length + 1 + m.length

/-- The bytes of UTF-8 that continue a character. -/
def continues (c : Char) : Bool := 128 ≤ c.toNat && c.toNat < 192

/-- A terminal of a width: the rows above, the cells of the row of the cursor (each with the bytes of its character), the
column, and the escape sequence being read. -/
structure Term where
  width : Nat
  above : List (List Str)
  cells : List Str
  col : Nat
  esc : Option Str

/-- the number of a parameter -/
def param (p : Str) : Nat := p.foldl (fun v c => 10 * v + (c.toNat - 48)) 0

/-- The end of an escape sequence `ESC [ params final` (ECMA-48): `K` erases to the end of the row, `C` moves to the right,
`m` is a colour. -/
def final (t : Term) (p : Str) (f : Char) : Term :=
  if f = 'K' then { t with cells := t.cells.take t.col, esc := none }
  else if f = 'C' then { t with col := min (t.col + param p) (t.width - 1), esc := none }
  else { t with esc := none }

/-- A visible character: it continues the last cell, begins a new row, or takes the cell of the cursor. -/
def put (t : Term) (c : Char) : Term :=
  if continues c then { t with cells := t.cells.modify (t.col - 1) (· ++ [c]) }
  else if t.col < t.width then { t with cells := t.cells.take t.col ++ [c] :: t.cells.drop (t.col + 1), col := t.col + 1 }
  else { t with above := t.above ++ [t.cells], cells := [[c]], col := 1 }

/-- One byte. -/
def byte (t : Term) (c : Char) : Term :=
  match t.esc with
  | some [] => if c = '[' then { t with esc := some ['['] } else { t with esc := none }
  | some (b :: p) => if 64 ≤ c.toNat then final t p c else { t with esc := some (b :: p ++ [c]) }
  | none =>
    if c = '\r' then { t with col := 0 }
    else if c = '\x1b' then { t with esc := some [] }
    else put t c

/-- A text. -/
def feed (t : Term) (s : Str) : Term := s.foldl byte t

/-- Characters that can be typed: no control characters. -/
def Typed (s : Str) : Prop := ∀ c ∈ s, 32 ≤ c.toNat ∧ c.toNat ≠ 127

/-- Only ASCII. -/
def Ascii (s : Str) : Prop := ∀ c ∈ s, 32 ≤ c.toNat ∧ c.toNat < 127

/-- The columns a text takes: one for each character. -/
def columns (s : Str) : Nat := (s.filter fun c => !continues c).length

end Spec
end Verif.Highlight
