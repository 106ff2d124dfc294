/-!
# Inline assembly

Model of the `asm` statement: `parse_asm` (`/repo/src/parser/parser_stmt.c` lines 624–960) and the
`NODE_ASM` case of the code generator (`/repo/src/codegen/codegen_stmt.c` lines 1381–1557).

The parser is modelled from the token stream on (the lexer has its own unit, `Lexer`); the code
generator is modelled down to every character it prints.

Simplifications: positions of tokens and error messages are left out; `zen_trigger_at` prints
nothing that matters; memory is not exhausted.  The 4096 characters of the template buffer and the
16 places of the operand lists are not part of the functions: the sizes that are written are
compared with them in `Props`.  The 64 characters of the name buffer are part of `expand`.
-/

namespace Verif.Asm

/-- The kinds of tokens `parse_asm` tells apart (`ZenTokenType`).
/repo/src/lexer/token.c:198,202,489 and the comparisons in /repo/src/parser/parser_stmt.c:633-936. -/
inductive Kind where
  | str
  | ident
  | semi
  | lbrace
  | rbrace
  | colon
  | comma
  | lparen
  | rparen
  | vol
  | other
  deriving DecidableEq, Repr

/-- A token: its kind and its characters.  The end of the file is the end of the list.
/repo/src/zprep.h (`Token`). -/
structure Tok where
  kind : Kind
  text : List Char
  deriving DecidableEq, Repr

/-- The outcome of a parse: a result, a reported error (`zpanic_at`), or a loop that never ends.
/repo/src/parser/parser_stmt.c:684-755 is the loop that can fail to end. -/
inductive Out (α : Type) where
  | ok (a : α)
  | err
  | loop
  deriving DecidableEq, Repr

/-- The `NODE_ASM` node.  /repo/src/parser/parser_stmt.c:944-957.  An output is its mode and its
variable. -/
structure Node where
  code : List Char
  vol : Bool
  outs : List (List Char × List Char)
  ins : List (List Char)
  clobs : List (List Char)
  deriving DecidableEq, Repr

/-- `code` with one more line: a newline goes first when `code` is not empty.
/repo/src/parser/parser_stmt.c:670-674,680-684. -/
def addLine (code s : List Char) : List Char :=
  if code = [] then s else code ++ '\n' :: s

/-- `last_char`: the last character of `code`, or the one before it when the last is a blank; the
zero character when `code` is empty.  /repo/src/parser/parser_stmt.c:715-727. -/
def lastChar (code : List Char) : Char :=
  match code.getLast? with
  | none => '\x00'
  | some c =>
    if c = ' ' ∧ code.length > 1 then (code.dropLast.getLast?).getD '\x00' else c

/-- One more argument token: a blank goes first unless `code` ends in `%` or `$`.
/repo/src/parser/parser_stmt.c:736-754. -/
def addArg (code s : List Char) : List Char :=
  match code.getLast? with
  | some '%' => code ++ s
  | some '$' => code ++ s
  | some _ => code ++ ' ' :: s
  | none => ' ' :: s

/-- Where the template loop is: at the start of a line, among the arguments of an instruction, or
inside `{ }` among the arguments. -/
inductive Place where
  | top
  | args
  | sub
  deriving DecidableEq, Repr

/-- The template loop (/repo/src/parser/parser_stmt.c:650-762): the outer loop is `top`, the loop over
the arguments of a bare instruction is `args` (lines 686–756) and the one inside braces is `sub`
(lines 702–705).  When the argument loop meets `}` or `:` the outer loop ends at the same token; when it
leaves an identifier the outer loop takes it as the next instruction.  At the end of the file the
argument loop reads the end token again and again. -/
def body : Place → List Char → List Tok → Out (List Char × List Tok)
  | .top, _, [] => .err
  | .args, _, [] => .loop
  | .sub, _, [] => .loop
  | .top, code, t :: r =>
    match t.kind with
    | .rbrace => .ok (code, t :: r)
    | .colon => .ok (code, t :: r)
    | .str => body .top (addLine code (t.text.tail.take (t.text.length - 2))) r
    | .ident => body .args (addLine code t.text) r
    | _ => .err
  | .args, code, t :: r =>
    match t.kind with
    | .rbrace => .ok (code, t :: r)
    | .colon => .ok (code, t :: r)
    | .semi => body .top code r
    | .lbrace => body .sub (code ++ ['{']) r
    | .ident =>
      if lastChar code ≠ '%' ∧ lastChar code ≠ '$' ∧ lastChar code ≠ ',' then
        body .args (addLine code t.text) r
      else body .args (addArg code t.text) r
    | _ => body .args (addArg code t.text) r
  | .sub, code, t :: r =>
    match t.kind with
    | .rbrace => body .args (code ++ ['}']) r
    | _ => body .sub (code ++ t.text) r

/-- `( name )` after a mode.  /repo/src/parser/parser_stmt.c:797-815 and 858-876; for a clobber the
kind in the middle is a string (897-913). -/
def paren (k : Kind) : List Tok → Option (List Char)
  | a :: b :: c :: _ =>
    if a.kind = .lparen ∧ b.kind = k ∧ c.kind = .rparen then some b.text else none
  | _ => none

/-- The outputs.  /repo/src/parser/parser_stmt.c:777-827. -/
def outputs (acc : List (List Char × List Char)) :
    List Tok → Out (List (List Char × List Char) × List Tok)
  | [] => .ok (acc, [])
  | t :: r =>
    match t.kind with
    | .colon => .ok (acc, t :: r)
    | .rbrace => .ok (acc, t :: r)
    | .comma => outputs acc r
    | .ident =>
      match paren .ident r with
      | none => .err
      | some v => outputs (acc ++ [(t.text, v)]) (r.drop 3)
    | _ => .ok (acc, t :: r)
termination_by ts => ts.length

/-- The inputs: every identifier that begins with `in` will do.
/repo/src/parser/parser_stmt.c:840-886. -/
def inputs (acc : List (List Char)) : List Tok → Out (List (List Char) × List Tok)
  | [] => .ok (acc, [])
  | t :: r =>
    match t.kind with
    | .colon => .ok (acc, t :: r)
    | .rbrace => .ok (acc, t :: r)
    | .comma => inputs acc r
    | .ident =>
      if t.text.take 2 = ['i', 'n'] then
        match paren .ident r with
        | none => .err
        | some v => inputs (acc ++ [v]) (r.drop 3)
      else .ok (acc, t :: r)
    | _ => .ok (acc, t :: r)
termination_by ts => ts.length

/-- The clobbers: every identifier that begins with `clobber` will do.
/repo/src/parser/parser_stmt.c:899-942. -/
def clobbers (acc : List (List Char)) : List Tok → Out (List (List Char) × List Tok)
  | [] => .err
  | t :: r =>
    match t.kind with
    | .rbrace => .ok (acc, t :: r)
    | .comma => clobbers acc r
    | .ident =>
      if t.text.take 7 = ['c', 'l', 'o', 'b', 'b', 'e', 'r'] then
        match paren .str r with
        | none => .err
        | some s => clobbers (acc ++ [s.tail.take (s.length - 2)]) (r.drop 3)
      else .err
    | _ => .err
termination_by ts => ts.length

/-- Is the next token a colon?  /repo/src/parser/parser_stmt.c:769,833,892. -/
def atColon : List Tok → Bool
  | t :: _ => t.kind == .colon
  | [] => false

/-- The three sections and the closing brace.  /repo/src/parser/parser_stmt.c:764-948. -/
def sections (code : List Char) (vol : Bool) (ts : List Tok) : Out (Node × List Tok) :=
  match (if atColon ts then outputs [] ts.tail else .ok ([], ts)) with
  | .err => .err
  | .loop => .loop
  | .ok (os, ts1) =>
    match (if atColon ts1 then inputs [] ts1.tail else .ok ([], ts1)) with
    | .err => .err
    | .loop => .loop
    | .ok (is, ts2) =>
      match (if atColon ts2 then clobbers [] ts2.tail else .ok ([], ts2)) with
      | .err => .err
      | .loop => .loop
      | .ok (cs, ts3) =>
        match ts3 with
        | [] => .err
        | t :: r => if t.kind = .rbrace then .ok (⟨code, vol, os, is, cs⟩, r) else .err

/-- Is the next token `volatile`?  /repo/src/parser/parser_stmt.c:632-637. -/
def atVol : List Tok → Bool
  | t :: _ => t.kind == .vol
  | [] => false

/-- `parse_asm`, after the word `asm`.  /repo/src/parser/parser_stmt.c:624-960. -/
def parseAsm (ts : List Tok) : Out (Node × List Tok) :=
  match (if atVol ts then ts.tail else ts) with
  | [] => .err
  | t :: r =>
    if t.kind = .lbrace then
      match body .top [] r with
      | .err => .err
      | .loop => .loop
      | .ok (code, r') => sections code (atVol ts) r'
    else .err

/-- `is_extended`.  /repo/src/codegen/codegen_stmt.c:1383-1384. -/
def extended (n : Node) : Bool := n.outs ≠ [] || n.ins ≠ [] || n.clobs ≠ []

/-- `sprintf` of `%d` for a number that is not negative. -/
def decimal (n : Nat) : List Char :=
  if n < 10 then [Char.ofNat (48 + n)] else decimal (n / 10) ++ [Char.ofNat (48 + n % 10)]

/-- The number of a variable: outputs first, then inputs.
/repo/src/codegen/codegen_stmt.c:1413-1438. -/
def index (n : Node) (v : List Char) : Option Nat :=
  match n.outs.findIdx? (fun o => o.2 = v) with
  | some i => some i
  | none =>
    match n.ins.findIdx? (fun x => x = v) with
    | some i => some (n.outs.length + i)
    | none => none

/-- The loop that replaces `{name}` by `%N` and doubles `%`.  `none` is a write past the 64 characters
of the name buffer.  /repo/src/codegen/codegen_stmt.c:1395-1473. -/
def expand (n : Node) : List Char → Option (List Char)
  | [] => some []
  | c :: r =>
    if c = '{' then
      if '}' ∈ r then
        if (r.takeWhile (· ≠ '}')).length ≥ 64 then none
        else
          (expand n (r.drop ((r.takeWhile (· ≠ '}')).length + 1))).map
            ((match index n (r.takeWhile (· ≠ '}')) with
              | some i => '%' :: decimal i
              | none => '{' :: (r.takeWhile (· ≠ '}') ++ ['}'])) ++ ·)
      else (expand n r).map (c :: ·)
    else if c = '%' then
      (expand n r).map ((if extended n then ['%', '%'] else ['%']) ++ ·)
    else (expand n r).map (c :: ·)
termination_by cs => cs.length

/-- One character of the template as printed.  /repo/src/codegen/codegen_stmt.c:1478-1494. -/
def quoteChar (c : Char) : List Char :=
  if c = '\n' then "\\n\"\n        \"".toList
  else if c = '"' then "\\\"".toList
  else if c = '\\' then "\\\\".toList
  else [c]

/-- The template as a string literal.  /repo/src/codegen/codegen_stmt.c:1475-1496. -/
def quote (s : List Char) : List Char :=
  '"' :: (s.flatMap quoteChar ++ "\\n\"".toList)

/-- One output.  /repo/src/codegen/codegen_stmt.c:1508-1521. -/
def outItem (o : List Char × List Char) : List Char :=
  (if o.1 = "out".toList then "\"=r\"(".toList
   else if o.1 = "inout".toList then "\"+r\"(".toList
   else "\"=r\"(".toList) ++ (o.2 ++ [')'])

/-- One input.  /repo/src/codegen/codegen_stmt.c:1532. -/
def inItem (v : List Char) : List Char := "\"r\"(".toList ++ (v ++ [')'])

/-- One clobber.  /repo/src/codegen/codegen_stmt.c:1550. -/
def clobItem (s : List Char) : List Char := '"' :: (s ++ ['"'])

/-- A list printed with `, ` between its items.
/repo/src/codegen/codegen_stmt.c:1501-1506,1527-1531,1545-1549. -/
def commas : List (List Char) → List Char
  | [] => []
  | [x] => x
  | x :: y :: r => x ++ (", ".toList ++ commas (y :: r))

/-- What goes before a section.  /repo/src/codegen/codegen_stmt.c:1500,1526,1537,1542. -/
def secStart : List Char := "\n        : ".toList

/-- The sections.  /repo/src/codegen/codegen_stmt.c:1498-1552. -/
def printSections (n : Node) : List Char :=
  (if n.outs ≠ [] then secStart ++ commas (n.outs.map outItem) else []) ++
  ((if n.ins ≠ [] then secStart ++ commas (n.ins.map inItem)
    else if n.outs ≠ [] then secStart else []) ++
   (if n.clobs ≠ [] then secStart ++ commas (n.clobs.map clobItem) else []))

/-- The text printed for the node.  /repo/src/codegen/codegen_stmt.c:1381-1557. -/
def emit (n : Node) : Option (List Char) :=
  (expand n n.code).map fun t =>
    (if n.vol then "    __asm__ __volatile__(".toList else "    __asm__(".toList) ++
      (quote t ++ (printSections n ++ ");\n".toList))

namespace Spec

/-! ## What a C compiler reads

Tokens, string literals and the `asm` statement of GNU C, as far as they are needed. -/

/-- A token of C. -/
inductive CTok where
  | id (s : List Char)
  | str (s : List Char)
  | punct (c : Char)
  deriving DecidableEq, Repr

/-- Characters of names. -/
def nameChar (c : Char) : Bool :=
  c.isAlphanum || c == '_'

/-- Where the lexer is. -/
inductive CSt where
  | out
  | id (s : List Char)
  | str (s : List Char)
  | esc (s : List Char)

/-- The escapes of string literals that matter here. -/
def unescape (c : Char) : Option Char :=
  if c = 'n' then some '\n'
  else if c = 't' then some '\t'
  else if c = '"' then some '"'
  else if c = '\\' then some '\\'
  else none

/-- A character outside of names and literals. -/
def start (c : Char) : List CTok × CSt :=
  if c = '"' then ([], .str [])
  else if nameChar c then ([], .id [c])
  else if c = ' ' ∨ c = '\n' then ([], .out)
  else ([.punct c], .out)

/-- The tokens of a text; a string literal does not run over the end of a line. -/
def lex : CSt → List Char → Option (List CTok)
  | .out, [] => some []
  | .id s, [] => some [.id s]
  | .str _, [] => none
  | .esc _, [] => none
  | .out, c :: r => (lex (start c).2 r).map ((start c).1 ++ ·)
  | .id s, c :: r =>
    if nameChar c then lex (.id (s ++ [c])) r
    else (lex (start c).2 r).map (.id s :: (start c).1 ++ ·)
  | .str s, c :: r =>
    if c = '"' then (lex .out r).map (.str s :: ·)
    else if c = '\\' then lex (.esc s) r
    else if c = '\n' then none
    else lex (.str (s ++ [c])) r
  | .esc s, c :: r =>
    match unescape c with
    | some d => lex (.str (s ++ [d])) r
    | none => none

/-- The parts of a list between the items equal to `x`. -/
def split (x : CTok) : List CTok → List (List CTok)
  | [] => [[]]
  | t :: r =>
    if t = x then [] :: split x r
    else match split x r with
      | [] => [[t]]
      | p :: ps => (t :: p) :: ps

/-- The items of a section: none, or separated by commas. -/
def items (l : List CTok) : List (List CTok) :=
  if l = [] then [] else split (.punct ',') l

/-- An operand `"constraint"(variable)`. -/
def operand : List CTok → Option (List Char × List Char)
  | [.str s, .punct a, .id v, .punct b] => if a = '(' ∧ b = ')' then some (s, v) else none
  | _ => none

/-- A clobber `"register"`. -/
def clobber : List CTok → Option (List Char)
  | [.str s] => some s
  | _ => none

/-- The template: string literals side by side are one. -/
def literal : List CTok → Option (List Char)
  | [.str s] => some s
  | .str s :: t :: r => (literal (t :: r)).map (s ++ ·)
  | _ => none

/-- Does the constraint make the operand an output? -/
def writes (s : List Char) : Bool :=
  match s with
  | '=' :: _ => true
  | '+' :: _ => true
  | _ => false

/-- An `asm` statement of GNU C. -/
structure CAsm where
  vol : Bool
  template : List Char
  /-- anything after the template, even an empty section? -/
  ext : Bool
  outs : List (List Char × List Char)
  ins : List (List Char × List Char)
  clobs : List (List Char)
  deriving DecidableEq, Repr

/-- The parts of the statement.  Every output must be written (`=` or `+`), no input may be. -/
def assemble (vol : Bool) : List (List CTok) → Option CAsm
  | [] => none
  | t :: secs => do
    let template ← literal t
    let outs ← (items (secs[0]?.getD [])).mapM operand
    let ins ← (items (secs[1]?.getD [])).mapM operand
    let clobs ← (items (secs[2]?.getD [])).mapM clobber
    if secs.length ≤ 3 ∧ outs.all (fun o => writes o.1) ∧ ins.all (fun o => !writes o.1) then
      some ⟨vol, template, secs ≠ [], outs, ins, clobs⟩
    else none

/-- What is between the parenthesis and `);`. -/
def inside (vol : Bool) (l : List CTok) : Option CAsm :=
  match l.reverse with
  | .punct a :: .punct b :: m =>
    if a = ';' ∧ b = ')' then assemble vol (split (.punct ':') m.reverse) else none
  | _ => none

/-- An `asm` statement read from a text.  `none`: the compiler rejects it. -/
def readC (s : List Char) : Option CAsm :=
  match lex .out s with
  | some (.id a :: .id b :: .punct p :: r) =>
    if a = "__asm__".toList ∧ b = "__volatile__".toList ∧ p = '(' then inside true r else none
  | some (.id a :: .punct p :: r) =>
    if a = "__asm__".toList ∧ p = '(' then inside false r else none
  | _ => none

/-! ## What the assembler gets -/

/-- A piece of the text the assembler gets: a character, or the register of an operand. -/
inductive Piece where
  | ch (c : Char)
  | op (i : Nat)
  deriving DecidableEq, Repr

/-- Where the expansion of a template is. -/
inductive TSt where
  | plain
  | pct
  | num (n : Nat)

/-- Outside `{ }`, in the first alternative, or in a later one. -/
inductive Alt where
  | none
  | first
  | later
  deriving DecidableEq

/-- The state of the expansion after an ordinary character. -/
def step (dial : Bool) (a : Alt) (c : Char) : Option (List Piece × TSt × Alt) :=
  if a = .later then some ([], .plain, if c = '}' then .none else .later)
  else if c = '%' then some ([], .pct, a)
  else if dial ∧ c = '{' then (if a = .first then none else some ([], .plain, .first))
  else if dial ∧ c = '|' ∧ a = .first then some ([], .plain, .later)
  else if dial ∧ c = '}' ∧ a = .first then some ([], .plain, .none)
  else some ([.ch c], .plain, a)

/-- The template of an extended `asm`, by the manual of GCC: `%%` is a percent sign, `%N` operand `N`;
where the target has several assembler dialects (`dial`; x86 does), `{a|b}` is `a` and `%{`, `%|`,
`%}` are the characters.  Other things after `%` are not needed and rejected. -/
def gcc (dial : Bool) : TSt → Alt → List Char → Option (List Piece)
  | .plain, a, [] => if a = .none then some [] else none
  | .pct, _, [] => none
  | .num n, a, [] => if a = .none then some [.op n] else none
  | .plain, a, c :: r =>
    match step dial a c with
    | none => none
    | some (o, st, a') => (gcc dial st a' r).map (o ++ ·)
  | .pct, a, c :: r =>
    if c = '%' then (gcc dial .plain a r).map (.ch '%' :: ·)
    else if dial ∧ (c = '{' ∨ c = '|' ∨ c = '}') then (gcc dial .plain a r).map (.ch c :: ·)
    else if c.isDigit then gcc dial (.num (c.toNat - 48)) a r
    else none
  | .num n, a, c :: r =>
    if c.isDigit then gcc dial (.num (10 * n + (c.toNat - 48))) a r
    else
      match step dial a c with
      | none => none
      | some (o, st, a') => (gcc dial st a' r).map (.op n :: o ++ ·)

/-- What the assembler gets.  Without sections the template is taken as it is; with them it is
expanded and the operands must exist. -/
def assembled (dial : Bool) (a : CAsm) : Option (List Piece) :=
  if a.ext then
    match gcc dial .plain .none a.template with
    | none => none
    | some ps =>
      if ps.all (fun p => match p with
          | .op i => decide (i < a.outs.length + a.ins.length)
          | .ch _ => true) then some ps
      else none
  else some (a.template.map .ch)

/-! ## What the programmer writes -/

/-- A piece of a line: a character, or `{name}`. -/
inductive Frag where
  | lit (c : Char)
  | hole (v : List Char)
  deriving DecidableEq, Repr

/-- The characters of a line. -/
def text (l : List Frag) : List Char :=
  l.flatMap fun f => match f with
    | .lit c => [c]
    | .hole v => '{' :: (v ++ ['}'])

/-- What kind of output. -/
inductive Mode where
  | out
  | inout
  deriving DecidableEq, Repr

/-- The word for it. -/
def Mode.word : Mode → List Char
  | .out => "out".toList
  | .inout => "inout".toList

/-- The constraint for it. -/
def Mode.constraint : Mode → List Char
  | .out => "=r".toList
  | .inout => "+r".toList

/-- An `asm` block: its lines, outputs, inputs and clobbers. -/
structure Block where
  vol : Bool
  lines : List (List Frag)
  outs : List (Mode × List Char)
  ins : List (List Char)
  clobs : List (List Char)

/-- The variables of the operands in their order. -/
def Block.operands (b : Block) : List (List Char) := b.outs.map (·.2) ++ b.ins

/-- Groups of tokens with a comma between each two. -/
def separated : List (List Tok) → List Tok
  | [] => []
  | [x] => x
  | x :: y :: r => x ++ (⟨.comma, [',']⟩ :: separated (y :: r))

/-- `mode(variable)`. -/
def roleToks (word v : List Char) : List Tok :=
  [⟨.ident, word⟩, ⟨.lparen, ['(']⟩, ⟨.ident, v⟩, ⟨.rparen, [')']⟩]

/-- `clobber("register")`. -/
def clobToks (s : List Char) : List Tok :=
  [⟨.ident, "clobber".toList⟩, ⟨.lparen, ['(']⟩, ⟨.str, '"' :: (s ++ ['"'])⟩, ⟨.rparen, [')']⟩]

/-- A colon. -/
def colonTok : Tok := ⟨.colon, [':']⟩

/-- The first `k` sections, each behind its colon. -/
def sectionToks (b : Block) (k : Nat) : List Tok :=
  (List.take k
    [colonTok :: separated (b.outs.map fun o => roleToks o.1.word o.2),
     colonTok :: separated (b.ins.map fun v => roleToks "in".toList v),
     colonTok :: separated (b.clobs.map clobToks)]).flatten

/-- The sections that are not written have nothing in them. -/
def Covers (b : Block) (k : Nat) : Prop :=
  (k < 1 → b.outs = []) ∧ (k < 2 → b.ins = []) ∧ (k < 3 → b.clobs = [])

/-- The tokens of a block whose lines are strings, `k` sections written. -/
def tokens (b : Block) (k : Nat) : List Tok :=
  (if b.vol then [⟨.vol, "volatile".toList⟩] else []) ++
    (⟨.lbrace, ['{']⟩ ::
      (b.lines.map (fun l => (⟨.str, '"' :: (text l ++ ['"'])⟩ : Tok)) ++
        (sectionToks b k ++ [⟨.rbrace, ['}']⟩])))

/-- What the assembler should get for a fragment: the register of the first operand of that name. -/
inductive Means (ops : List (List Char)) : List Frag → List Piece → Prop where
  | nil : Means ops [] []
  | lit (c : Char) {l ps} (h : Means ops l ps) : Means ops (.lit c :: l) (.ch c :: ps)
  | hole (v : List Char) (i : Nat) {l ps} (hv : ops[i]? = some v)
      (hf : ∀ j, j < i → ops[j]? ≠ some v) (h : Means ops l ps) :
      Means ops (.hole v :: l) (.op i :: ps)

/-- The lines, each ended by a newline. -/
def whole (b : Block) : List Frag := b.lines.flatMap fun l => l ++ [.lit '\n']

/-- A name. -/
def Name (v : List Char) : Prop := v ≠ [] ∧ v.length < 64 ∧ ∀ c ∈ v, nameChar c = true

/-- No `{name}` has a digit right behind it. -/
def Apart : List Frag → Prop
  | [] => True
  | [_] => True
  | .hole _ :: .lit c :: r => c.isDigit = false ∧ Apart (.lit c :: r)
  | .hole _ :: .hole v :: r => Apart (.hole v :: r)
  | .lit _ :: f :: r => Apart (f :: r)

/-- A block that says what it means: operands are names, every `{name}` is an operand, the characters
of the lines are not braces, clobbers are plain, and the first line is not empty. -/
structure Good (b : Block) : Prop where
  lines : b.lines ≠ []
  first : b.lines.head? ≠ some []
  names : ∀ v ∈ b.operands, Name v
  holes : ∀ l ∈ b.lines, ∀ v, .hole v ∈ l → v ∈ b.operands
  lits : ∀ l ∈ b.lines, ∀ c, .lit c ∈ l → c ≠ '{' ∧ c ≠ '}'
  apart : ∀ l ∈ b.lines, Apart l
  clobs : ∀ s ∈ b.clobs, ∀ c ∈ s, c ≠ '"' ∧ c ≠ '\\' ∧ c ≠ '\n'

/-! ## Bare instructions -/

/-- The texts of the tokens one after the other, with a blank before each but the first, or nothing
after `%` and `$`. -/
inductive Spaced : List (List Char) → List Char → Prop where
  | one (t : List Char) : Spaced [t] t
  | blank (ts : List (List Char)) (s t : List Char) (h : Spaced ts s) :
      Spaced (ts ++ [t]) (s ++ ' ' :: t)
  | tight (ts : List (List Char)) (s t : List Char) (h : Spaced ts s)
      (hl : s.getLast? = some '%' ∨ s.getLast? = some '$') : Spaced (ts ++ [t]) (s ++ t)

/-- The last character of a token allows a name behind it (`%`, `$` or a comma). -/
def opens (t : List Char) : Prop :=
  t.getLast? = some '%' ∨ t.getLast? = some '$' ∨ t.getLast? = some ','

/-- Tokens that can be the arguments of a bare instruction: no braces, colon or semicolon; a name only
behind `%`, `$` or a comma. -/
def ArgToks : List Char → List Tok → Prop
  | _, [] => True
  | prev, t :: r =>
    t.text ≠ [] ∧ t.text.getLast? ≠ some ' ' ∧
    t.kind ≠ .semi ∧ t.kind ≠ .lbrace ∧ t.kind ≠ .rbrace ∧ t.kind ≠ .colon ∧
    (t.kind = .ident → opens prev) ∧ ArgToks t.text r

/-- A bare instruction: its name and its arguments. -/
structure Instr where
  name : List Char
  args : List Tok

/-- It is written in a form that can be read back. -/
def Instr.Ok (i : Instr) : Prop :=
  i.name ≠ [] ∧ i.name.getLast? ≠ some ' ' ∧ ArgToks i.name i.args

/-- The last token does not ask for a name, so that the next instruction is not taken as one. -/
def Instr.Closed (i : Instr) : Prop :=
  ¬ opens ((i.args.getLast?.map (·.text)).getD i.name)

/-- Instructions one after the other, with semicolons or without. -/
def instrToks : List (Instr × Bool) → List Tok
  | [] => []
  | (i, semi) :: r =>
    (⟨.ident, i.name⟩ :: i.args) ++ ((if semi then [⟨.semi, [';']⟩] else []) ++ instrToks r)

/-- One line for each instruction. -/
inductive Lines : List (Instr × Bool) → List (List Char) → Prop where
  | nil : Lines [] []
  | cons (i : Instr) (semi : Bool) {is ls} (l : List Char)
      (h : Spaced (i.name :: i.args.map (·.text)) l) (hr : Lines is ls) :
      Lines ((i, semi) :: is) (l :: ls)

/-- Lines joined by newlines. -/
def joined : List (List Char) → List Char
  | [] => []
  | [x] => x
  | x :: y :: r => x ++ ('\n' :: joined (y :: r))

end Spec

end Verif.Asm
