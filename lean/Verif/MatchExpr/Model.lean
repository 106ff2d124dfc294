import Verif.Forth.Model

/-!
# `match` in statements and in expressions: arms, payloads, missing variants, values

`parse_match` (`/repo/src/parser/parser_stmt.c:182-529`) reads the arms of a `match` statement; a `match` inside an
expression is read by code of its own in `parse_primary` (`/repo/src/parser/parser_expr.c:1764-1919`).  Both are
written as C by `codegen_match_internal` (`/repo/src/codegen/codegen_stmt.c:193-537`).  The unit `Match` has the
conditions of the arms; this one has the reading of arms, the variables of payloads, the warning about missing variants,
and the value of a `match`.

Simplifications: tokens are without comments; guards and bodies are read by any two given functions; the 1024 characters
of the pattern buffer are in `Match`; types of variables are left to the C compiler, as `ZC_AUTO_INIT` does.
-/

namespace Verif.MatchExpr

abbrev Str := Forth.Str

/-- Tokens as far as they matter here; `bar` is `||` and `or`. -/
inductive Kind where
  | word | lit | dcolon | dots | dotsEq | bar | comma | lparen | rparen | arrow | lbrace | rbrace | other | eof
  deriving DecidableEq

/-- A token. -/
structure Tok where
  kind : Kind
  text : Str

/-- `lexer_peek`: at the end there is an empty token. -/
def peek (ts : List Tok) : Tok := ts.headD ⟨.eof, []⟩

/-- How reading ends: in order, with a message, or beyond an array. -/
inductive Res (α : Type) where
  | ok (a : α)
  | error
  | ub

/-- An arm that was read. -/
structure Case (G B : Type) where
  pattern : Str
  binds : List (Bool × Str)
  guard : Option G
  body : B

/-- The names behind `::`, joined with `_`.  /repo/src/parser/parser_stmt.c:224-233. -/
def path : Str → List Tok → Str × List Tok
  | s, [] => (s, [])
  | s, [d] => if d.kind = .dcolon then (s ++ ['_'], []) else (s, [d])
  | s, d :: t :: r => if d.kind = .dcolon then path (s ++ '_' :: t.text) r else (s, d :: t :: r)

/-- One alternative behind its first token: path and range.  /repo/src/parser/parser_stmt.c:219-251. -/
def alt (s : Str) (ts : List Tok) : Str × List Tok :=
  let (s, r) := path s ts
  if (peek r).kind = .dots then (s ++ ['.', '.'] ++ (peek r.tail).text, r.tail.tail)
  else if (peek r).kind = .dotsEq then (s ++ ['.', '.', '='] ++ (peek r.tail).text, r.tail.tail)
  else (s, r)

/-- The alternatives: their text joined with `|`, and how many there are.  The first number bounds the rounds: each eats
a token.  /repo/src/parser/parser_stmt.c:217-281. -/
def alts : Nat → List Tok → Res (Str × Nat × List Tok)
  | 0, _ => .error
  | k + 1, ts =>
    let (s, r) := alt (peek ts).text ts.tail
    if (peek r).kind = .bar ∨ (peek r).kind = .comma then
      match alts k r.tail with
      | .ok (s', n, r) => .ok (s ++ '|' :: s', n + 1, r)
      | .error => .error
      | .ub => .ub
    else .ok (s, 1, r)

/-- The variables in parentheses, with how many have been read into arrays of eight.
/repo/src/parser/parser_stmt.c:296-330, /repo/src/parser/parser_expr.c:1820-1850. -/
def binds : Nat → Nat → List Tok → Res (List (Bool × Str) × List Tok)
  | 0, _, _ => .error
  | k + 1, n, ts =>
    let isRef : Bool := (peek ts).kind = .word && (peek ts).text = "ref".toList
    let ts := if isRef then ts.tail else ts
    if (peek ts).kind ≠ .word then .error
    else if 8 ≤ n then .ub
    else if (peek ts.tail).kind = .comma then
      match binds k (n + 1) ts.tail.tail with
      | .ok (bs, r) => .ok ((isRef, (peek ts).text) :: bs, r)
      | .error => .error
      | .ub => .ub
    else if (peek ts.tail).kind = .rparen then .ok ([(isRef, (peek ts).text)], ts.tail.tail)
    else .error

/-- What follows the pattern: variables, if there may be any, guard, arrow and body.
/repo/src/parser/parser_stmt.c:291-347,480-500, /repo/src/parser/parser_expr.c:1812-1893. -/
def rest {G B : Type} (pe : List Tok → Option (G × List Tok)) (pb : List Tok → Option (B × List Tok)) (fuel : Nat)
    (pattern : Str) (single : Bool) (ts : List Tok) : Res (Case G B × List Tok) :=
  let bound := if pattern ≠ ['_'] ∧ single = true ∧ (peek ts).kind = .lparen then binds fuel 0 ts.tail else .ok ([], ts)
  match bound with
  | .error => .error
  | .ub => .ub
  | .ok (bs, ts) =>
    let guarded := if (peek ts).kind = .word ∧ (peek ts).text.take 2 = "if".toList then
        (pe ts.tail).map fun x => (some x.1, x.2) else some (none, ts)
    match guarded with
    | none => .error
    | some (g, ts) =>
      if (peek ts).kind ≠ .arrow then .error
      else
        match pb ts.tail with
        | none => .error
        | some (b, ts) => .ok (⟨pattern, bs, g, b⟩, ts)

/-- An arm of a `match` statement.  /repo/src/parser/parser_stmt.c:208-500. -/
def stmtArm {G B : Type} (pe : List Tok → Option (G × List Tok)) (pb : List Tok → Option (B × List Tok)) (fuel : Nat)
    (ts : List Tok) : Res (Case G B × List Tok) :=
  match alts fuel ts with
  | .ok (s, n, r) => rest pe pb fuel s (n == 1) r
  | .error => .error
  | .ub => .ub

/-- An arm of a `match` in an expression: the pattern is one token.  /repo/src/parser/parser_expr.c:1793-1893. -/
def exprArm {G B : Type} (pe : List Tok → Option (G × List Tok)) (pb : List Tok → Option (B × List Tok)) (fuel : Nat)
    (ts : List Tok) : Res (Case G B × List Tok) :=
  rest pe pb fuel (peek ts).text true ts.tail

/-- The arms up to the brace, with commas between them.  /repo/src/parser/parser_stmt.c:194-207,502-522,
/repo/src/parser/parser_expr.c:1776-1791,1896-1915. -/
def arms {G B : Type} (arm : List Tok → Res (Case G B × List Tok)) : Nat → List Tok → Res (List (Case G B) × List Tok)
  | 0, _ => .error
  | k + 1, ts =>
    if (peek ts).kind = .rbrace then .ok ([], ts.tail)
    else
      let ts := if (peek ts).kind = .comma then ts.tail else ts
      if (peek ts).kind = .rbrace then .ok ([], ts.tail)
      else
        match arm ts with
        | .ok (c, r) =>
          match arms arm k r with
          | .ok (cs, r) => .ok (c :: cs, r)
          | .error => .error
          | .ub => .ub
        | .error => .error
        | .ub => .ub

/-- The arms of a `match` statement, behind the opening brace. -/
def stmtMatch {G B : Type} (pe : List Tok → Option (G × List Tok)) (pb : List Tok → Option (B × List Tok))
    (ts : List Tok) : Res (List (Case G B) × List Tok) :=
  arms (stmtArm pe pb (ts.length + 1)) (ts.length + 1) ts

/-- The arms of a `match` in an expression, behind the opening brace. -/
def exprMatch {G B : Type} (pe : List Tok → Option (G × List Tok)) (pb : List Tok → Option (B × List Tok))
    (ts : List Tok) : Res (List (Case G B) × List Tok) :=
  arms (exprArm pe pb (ts.length + 1)) (ts.length + 1) ts

/-! ## Payloads -/

/-- What a variant carries: nothing, one value, or a tuple. -/
inductive Payload where
  | none
  | one
  | tuple (n : Nat)
  deriving DecidableEq

/-- How a variable is initialised: by `->` or `.`, the member of the union, the field of the tuple, and whether its
address is taken. -/
structure Access where
  arrow : Bool
  member : Str
  field : Option Nat
  addr : Bool
  deriving DecidableEq

/-- The text behind the last `_` of the pattern (`strrchr`).  /repo/src/codegen/codegen_stmt.c:435-444. -/
def lastPart (s : Str) : Str := (s.reverse.takeWhile (· ≠ '_')).reverse

/-- The access for the variable at a position.  /repo/src/codegen/codegen_stmt.c:446-484. -/
def access (hasRef : Bool) (pattern : Str) (count i : Nat) (isRef : Bool) : Access :=
  ⟨isRef || hasRef, lastPart pattern, if 1 < count then some i else none, isRef⟩

/-- Whether an arm has a variable by reference.  /repo/src/codegen/codegen_stmt.c:213-232. -/
def hasRef {G B : Type} (cs : List (Case G B)) : Bool := cs.any fun c => c.binds.any (·.1)

/-- The variables of an arm.  /repo/src/codegen/codegen_stmt.c:388-487, without `Option` and `Result`. -/
def vars {G B : Type} (ref : Bool) (c : Case G B) : List (Str × Access) :=
  (List.range c.binds.length).zipWith (fun i b => (b.2, access ref c.pattern c.binds.length i b.1)) c.binds

/-! ## Missing variants -/

/-- Registered variants: the enum and the joined name, latest first. -/
abbrev Reg := List (Str × Str)

/-- The variants a warning is given for.  /repo/src/codegen/codegen_stmt.c:278-325. -/
def missing (reg : Reg) (patterns : List Str) : List Str :=
  if ['_'] ∈ patterns then []
  else
    match patterns.findSome? (fun p => reg.find? (·.2 = p)) with
    | none => []
    | some (e, _) => (reg.filter fun v => v.1 = e && !patterns.contains v.2).map (·.2)

/-! ## Values -/

/-- A value: an integer, a number of halves as a `double`, or a text. -/
inductive Val where
  | int (n : Int)
  | half (n : Int)
  | text (s : Str)
  deriving DecidableEq

/-- C types. -/
inductive Ty where
  | int
  | double
  | string
  deriving DecidableEq

/-- The bodies of arms: an expression with its value, a string literal, `return`, a block that ends with an expression, a
block that ends with a string literal, and one without value. -/
inductive Body where
  | expr (v : Val)
  | str (s : Str)
  | ret
  | block (v : Val)
  | blockStr (s : Str)
  | void

/-- The type of a value. -/
def Val.ty : Val → Ty
  | .int _ => .int
  | .half _ => .double
  | .text _ => .string

/-- Conversion by assignment in C; a text and a number do not convert. -/
def conv : Ty → Val → Option Val
  | .int, .int n => some (.int n)
  | .int, .half n => some (.int (n.tdiv 2))
  | .double, .half n => some (.half n)
  | .double, .int n => some (.half (2 * n))
  | .string, .text s => some (.text s)
  | _, _ => none

/-- `infer_type` of a body: blocks and `return` have none.  /repo/src/codegen/codegen_utils.c:187-653. -/
def infer : Body → Option Ty
  | .expr v => some v.ty
  | .str _ => some .string
  | _ => none

/-- The type of a `match`: that of its first arm with one.  /repo/src/codegen/codegen_utils.c:488-501. -/
def matchTy (bs : List Body) : Option Ty := bs.findSome? infer

/-- The outcome of C code for a `match` in an expression: a value, the text printed and the number of characters
assigned, code that is not C, and a variable never set. -/
inductive Out where
  | value (v : Val)
  | printed (s : Str)
  | notC
  | unset
  deriving DecidableEq

/-- `_r = ...;` for the chosen arm.  A string literal is written as a call of `printf`
(/repo/src/codegen/codegen_stmt.c:493-497,1803-1810), `return` as a statement, a block with the values of its last
statement; a string at the end of a block has become a call that prints
(/repo/src/parser/parser_stmt.c:2259-2310).  /repo/src/codegen/codegen_stmt.c:490-523. -/
def assign (t : Ty) : Body → Out
  | .expr v | .block v => match conv t v with
    | some v => .value v
    | none => .notC
  | .str s | .blockStr s => match t with
    | .string => .notC
    | _ => .printed s
  | .ret | .void => .notC

/-- The value of a `match` in an expression, when the arm at a position is chosen.  If no arm has a type the braces of a
statement are written.  The arms not chosen have to be C, too.  /repo/src/codegen/codegen_stmt.c:199-211,263-266,490-535. -/
def value (bs : List Body) (chosen : Option Nat) : Out :=
  match matchTy bs with
  | none => .notC
  | some t =>
    if bs.any fun b => assign t b = .notC then .notC
    else
      match chosen with
      | none => .unset
      | some i => match bs[i]? with
        | some b => assign t b
        | none => .unset

/-! ## Specification -/

namespace Spec

/-- An alternative as it is written: a first token, names behind `::`, and the end of a range. -/
structure Alt where
  first : Tok
  segs : List (Tok × Tok)
  range : Option (Tok × Tok)

/-- Its tokens. -/
def Alt.toks (a : Alt) : List Tok :=
  a.first :: (a.segs.flatMap fun s => [s.1, s.2]) ++ (match a.range with | some (d, e) => [d, e] | none => [])

/-- Its text: names joined with `_`, ranges with their dots. -/
def Alt.text (a : Alt) : Str :=
  a.first.text ++ (a.segs.flatMap fun s => '_' :: s.2.text) ++
    (match a.range with
      | some (d, e) => (if d.kind = .dotsEq then ['.', '.', '='] else ['.', '.']) ++ e.text
      | none => [])

/-- Where `::` and dots are. -/
def Alt.Ok (a : Alt) : Prop :=
  a.first.kind ≠ .rbrace ∧ a.first.kind ≠ .comma ∧ (∀ s ∈ a.segs, s.1.kind = .dcolon) ∧
    ∀ d e, a.range = some (d, e) → d.kind = .dots ∨ d.kind = .dotsEq

/-- Variables in parentheses. -/
def bindToks : List (Bool × Str) → List Tok
  | [] => []
  | [(r, n)] => (if r then [⟨.word, "ref".toList⟩] else []) ++ [⟨.word, n⟩]
  | (r, n) :: bs => (if r then [⟨.word, "ref".toList⟩] else []) ++ ⟨.word, n⟩ :: ⟨.comma, [',']⟩ :: bindToks bs

/-- An arm as it is written: alternatives with the tokens between them, variables, the tokens and the meaning of guard
and body. -/
structure Arm (G B : Type) where
  alt : Alt
  more : List (Tok × Alt)
  binds : List (Bool × Str)
  guard : Option (List Tok × G)
  body : List Tok × B
  isBlock : Bool
  comma : Bool

variable {G B : Type}

/-- The tokens of the pattern. -/
def Arm.patToks (a : Arm G B) : List Tok := a.alt.toks ++ a.more.flatMap fun m => m.1 :: m.2.toks

/-- The tokens behind the pattern up to the body. -/
def Arm.midToks (a : Arm G B) : List Tok :=
  (if a.binds = [] then [] else ⟨.lparen, ['(']⟩ :: bindToks a.binds ++ [⟨.rparen, [')']⟩]) ++
  (match a.guard with | some (g, _) => ⟨.word, "if".toList⟩ :: g | none => []) ++ [⟨.arrow, ['=', '>']⟩]

/-- All of its tokens. -/
def Arm.toks (a : Arm G B) : List Tok :=
  a.patToks ++ a.midToks ++ a.body.1 ++ if a.comma then [⟨.comma, [',']⟩] else []

/-- The text of its pattern. -/
def Arm.text (a : Arm G B) : Str := a.alt.text ++ a.more.flatMap fun m => '|' :: m.2.text

/-- What it is to be read as. -/
def Arm.case (a : Arm G B) : Case G B := ⟨a.text, a.binds, a.guard.map (·.2), a.body.2⟩

/-- An arm that is written well: variables belong to one alternative that is not `_`, there are eight at most, and guard
and body are read by the given functions. -/
structure Arm.Ok (pe : List Tok → Option (G × List Tok)) (pb : List Tok → Option (B × List Tok)) (a : Arm G B) : Prop where
  alt : a.alt.Ok
  more : ∀ m ∈ a.more, (m.1.kind = .bar ∨ m.1.kind = .comma) ∧ m.2.Ok
  binds : a.binds ≠ [] → a.more = [] ∧ a.text ≠ ['_']
  names : ∀ b ∈ a.binds, b.1 = false → b.2 ≠ "ref".toList
  eight : a.binds.length ≤ 8
  guard : ∀ g, a.guard = some g → ∀ r, (peek r).kind = .arrow → pe (g.1 ++ r) = some (g.2, r)
  body : ∀ r, a.isBlock = true ∨ (peek r).kind = .comma ∨ (peek r).kind = .rbrace → pb (a.body.1 ++ r) = some (a.body.2, r)

/-- Arms in turn: behind each but the last there is a comma, unless its body is a block. -/
inductive Arms (pe : List Tok → Option (G × List Tok)) (pb : List Tok → Option (B × List Tok)) : List (Arm G B) → Prop
  | nil : Arms pe pb []
  | last {a} : a.Ok pe pb → Arms pe pb [a]
  | cons {a b as} : a.Ok pe pb → (a.isBlock = true ∨ a.comma = true) → Arms pe pb (b :: as) → Arms pe pb (a :: b :: as)

/-- A pattern of one token. -/
def Arm.simple (a : Arm G B) : Prop := a.alt.segs = [] ∧ a.alt.range = none ∧ a.more = []

/-- An enum: names and payloads of its variants. -/
abbrev Enum := List (Str × Payload)

/-- The payload of a variant. -/
def Enum.payload (e : Enum) (n : Str) : Payload := ((e.find? (·.1 = n)).map (·.2)).getD .none

/-- What an access has in C. -/
inductive Got (V : Type) where
  | whole (v : List V)
  | part (v : V)
  | otherMember
  | noMember
  deriving DecidableEq

/-- An access to a value in a union made with the variant `made`, whose payload are the values `vs`; `ptr` tells whether
the value is at hand by its address. -/
def get {V : Type} (e : Enum) (ptr : Bool) (made : Str) (vs : List V) (a : Access) : Got V :=
  if a.arrow ≠ ptr then .noMember
  else match e.payload a.member, a.field with
    | .none, _ => .noMember
    | .one, some _ => .noMember
    | .one, none => if a.member = made then .whole vs else .otherMember
    | .tuple _, none => if a.member = made then .whole vs else .otherMember
    | .tuple k, some i =>
      if k ≤ i then .noMember
      else if a.member = made then (match vs[i]? with | some v => .part v | none => .noMember) else .otherMember

/-- The variants an enum has that no arm has: neither `_` nor an alternative without guard.  An arm is the list of its
alternatives and whether it is guarded. -/
def Uncovered (variants : List Str) (as : List (List Str × Bool)) (v : Str) : Prop :=
  v ∈ variants ∧ ∀ a ∈ as, a.2 = false → ['_'] ∉ a.1 ∧ v ∉ a.1

/-- The value of a body. -/
def bodyVal : Body → Option Val
  | .expr v | .block v => some v
  | .str s | .blockStr s => some (.text s)
  | .ret | .void => none

end Spec

end Verif.MatchExpr
