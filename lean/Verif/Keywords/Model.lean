import Verif.Lexer.Model

/-!
# Model of the statement parser's keyword tests

`parse_statement`, `parse_block`, `parse_if`, `parse_while`, `parse_for`, `parse_guard`,
`parse_match`, `parse_return`, `parse_assert` of `src/parser/parser_stmt.c`, over a list of tokens.

Some of the keyword tests compare the length of the word as well, others only compare the first
bytes (`strncmp(tok.start, "else", 4) == 0`).  The latter are the calls of the parameter `t` below:
the code's parser is the one with `t := prefixOf`.

Simplified: expressions, patterns and `let` declarations are parsed by arbitrary functions
(`Lang`); statement forms outside the list in `Head` make the parser answer `none`, which
otherwise stands for `zpanic_at`; symbol tables, warnings, line numbers and comments are left
out; the recursion is bounded by a fuel which the theorems let be as large as needed.
-/

namespace Verif.Keywords
open Verif Verif.Str Verif.Lexer

abbrev Word := List Byte

def kLet : Word := [108, 101, 116]
def kVar : Word := [118, 97, 114]
def kReturn : Word := [114, 101, 116, 117, 114, 110]
def kIf : Word := [105, 102]
def kElse : Word := [101, 108, 115, 101]
def kWhile : Word := [119, 104, 105, 108, 101]
def kFor : Word := [102, 111, 114]
def kIn : Word := [105, 110]
def kStep : Word := [115, 116, 101, 112]
def kMatch : Word := [109, 97, 116, 99, 104]
def kBreak : Word := [98, 114, 101, 97, 107]
def kContinue : Word := [99, 111, 110, 116, 105, 110, 117, 101]
def kLoop : Word := [108, 111, 111, 112]
def kUnless : Word := [117, 110, 108, 101, 115, 115]
def kGuard : Word := [103, 117, 97, 114, 100]
def kDo : Word := [100, 111]
def kAssert : Word := [97, 115, 115, 101, 114, 116]

/-- `strncmp(s, k, strlen(k)) == 0` on the rest `s` of the source text before its NUL -/
def strncmp0 : (k s : List Byte) → Bool
  | [], _ => true
  | _ :: _, [] => false
  | a :: k, c :: s => a == c && strncmp0 k s

/-- the same test as a function of the word of the token -/
def prefixOf (k w : Word) : Bool := strncmp0 k w

/-- the test that also compares `len` -/
def whole (k w : Word) : Bool := w == k

/-- tokens; a word is a token the lexer made from an identifier-like lexeme, `other` any token
the statement parser does not look at -/
inductive Tok where
  | word (w : Word) | int (n : Nat)
  | lp | rp | lb | rb | semi | comma | colon | arrow | dotdot | dotdotEq | dotdotLt | minus | bang
  | other (n : Nat)
  deriving DecidableEq, Repr

/-- The statement forms dispatched on the first word.  `assert` is a token kind of its own
(src/lexer/token.c:143-146), the others are compared with their length
(src/parser/parser_stmt.c:2434-2826).  `unmodelled` stands for the remaining ones. -/
inductive Head where
  | asrt | letH | varH | ret | ifH | whl | forH | mtch | brk | cont | loop | unless | guard | doH
  | unmodelled
  deriving DecidableEq, Repr

/-- The words of `parse_statement` (src/parser/parser_stmt.c:2324-2410, 2434-2826) in the order of
the tests; the words which the lexer gives a kind of their own come first. -/
def heads : List (Word × Head) :=
  [([116, 114, 97, 105, 116], .unmodelled),                          -- trait
   ([105, 109, 112, 108], .unmodelled),                              -- impl
   ([97, 117, 116, 111, 102, 114, 101, 101], .unmodelled),           -- autofree
   ([116, 101, 115, 116], .unmodelled),                              -- test
   ([99, 111, 109, 112, 116, 105, 109, 101], .unmodelled),           -- comptime
   (kAssert, .asrt),
   ([100, 101, 102, 101, 114], .unmodelled),                         -- defer
   ([97, 115, 109], .unmodelled),                                    -- asm
   ([100, 101, 102], .unmodelled),                                   -- def
   ([114, 97, 119], .unmodelled),                                    -- raw
   ([112, 108, 117, 103, 105, 110], .unmodelled),                    -- plugin
   (kLet, .letH), (kVar, .varH),
   ([115, 116, 97, 116, 105, 99], .unmodelled),                      -- static
   ([99, 111, 110, 115, 116], .unmodelled),                          -- const
   (kReturn, .ret), (kIf, .ifH), (kWhile, .whl), (kFor, .forH), (kMatch, .mtch),
   (kBreak, .brk), (kContinue, .cont), (kLoop, .loop),
   ([114, 101, 112, 101, 97, 116], .unmodelled),                     -- repeat
   (kUnless, .unless), (kGuard, .guard),
   ([108, 97, 117, 110, 99, 104], .unmodelled),                      -- launch
   (kDo, .doH),
   ([103, 111, 116, 111], .unmodelled),                              -- goto
   ([112, 114, 105, 110, 116], .unmodelled),                         -- print
   ([112, 114, 105, 110, 116, 108, 110], .unmodelled),               -- println
   ([101, 112, 114, 105, 110, 116], .unmodelled),                    -- eprint
   ([101, 112, 114, 105, 110, 116, 108, 110], .unmodelled)]          -- eprintln

/-- the first entry of the chain of tests that applies -/
def headOf (w : Word) : List (Word × Head) → Option Head
  | [] => none
  | (k, h) :: ks => if w = k then some h else headOf w ks

/-- The lexer's own keywords (src/lexer/token.c:139-217): such a word is not a `TOK_IDENT`. -/
def isIdent (w : Word) : Bool := (keyword w keywords).isNone

/-- Expressions, patterns and declarations with their parsers; `stopW w` says that a word `w`
behind an expression is not part of it. -/
structure Lang where
  E : Type
  P : Type
  D : Type
  expr : List Tok → Option (E × List Tok)
  pat : List Tok → Option (P × List Tok)
  decl : List Tok → Option (D × List Tok)
  prE : E → List Tok
  prP : P → List Tok
  prD : D → List Tok
  stopW : Word → Prop

/-- `step` of a range loop (src/parser/parser_stmt.c:1227-1247): the token, with `-` before it -/
structure Step where
  neg : Bool
  tok : Tok
  deriving DecidableEq, Repr

mutual
/-- the statement nodes -/
inductive Stmt (L : Lang) where
  | nop | expr (e : L.E) | letS (d : L.D) | ret (e : Option L.E) | brk | cont | asrt (c : L.E)
  | blk (ss : Stmts L)
  | ifs (c : L.E) (b : Body L) (els : Els L)
  | whl (c : L.E) (b : Body L)
  | loop (ss : Stmts L)
  | unless (c : L.E) (ss : Stmts L)
  | guard (c : L.E) (b : Body L)
  | forRange (x : Word) (a : L.E) (incl : Bool) (b : L.E) (step : Option Step) (body : Body L)
  | forEach (x : Word) (e : L.E) (body : Body L)
  | forC (init cond step : Option L.E) (body : Body L)
  | forLet (d : L.D) (cond step : Option L.E) (body : Body L)
  | mtch (e : L.E) (cs : Cases L)
  | doWhile (ss : Stmts L) (c : L.E)
  | label (w : Word)
/-- the statements of a block -/
inductive Stmts (L : Lang) where
  | nil | cons (s : Stmt L) (ss : Stmts L)
/-- a body: a block or a single statement -/
inductive Body (L : Lang) where
  | braces (ss : Stmts L) | one (s : Stmt L)
/-- what follows the body of an `if` -/
inductive Els (L : Lang) where
  | none | elif (c : L.E) (b : Body L) (els : Els L) | els (b : Body L)
/-- the cases of a `match` -/
inductive Cases (L : Lang) where
  | nil | cons (p : L.P) (g : Option L.E) (b : CBody L) (cs : Cases L)
/-- the body of a case -/
inductive CBody (L : Lang) where
  | braces (ss : Stmts L) | asrt (c : L.E) | ret (e : Option L.E) | expr (e : L.E)
end

/-- `if (lexer_peek(l).type == k) lexer_next(l);` -/
def eat (k : Tok) : List Tok → List Tok
  | x :: r => if x = k then r else x :: r
  | [] => []

/-- the type of the next token is `k` -/
def at? (k : Tok) : List Tok → Bool
  | x :: _ => x == k
  | [] => false

/-- `lexer_peek(l).type == TOK_IDENT && t(word, k)` -/
def atWord (t : Word → Word → Bool) (k : Word) : List Tok → Bool
  | .word w :: _ => isIdent w && t k w
  | _ => false

variable (L : Lang) (t : Word → Word → Bool)

/-- `parse_return` behind the first token (src/parser/parser_stmt.c:1083-1100); tuple returns are
left out -/
def parseReturn (ts : List Tok) : Option (Option L.E × List Tok) :=
  if at? .semi ts then some (none, eat .semi ts)
  else match L.expr ts with
    | some (e, r) => some (some e, eat .semi r)
    | none => none

/-- `parse_assert` behind the first token (src/parser/parser_stmt.c:987-1021), without the optional
message -/
def parseAssert (ts : List Tok) : Option (L.E × List Tok) :=
  match L.expr (eat .lp ts) with
  | some (c, r) => if at? .comma r then none else some (c, eat .semi (eat .rp r))
  | none => none

/-- the step of a range loop behind the word (src/parser/parser_stmt.c:1230-1247) -/
def parseStep : List Tok → Option (Step × List Tok)
  | .minus :: x :: r => some (⟨true, x⟩, r)
  | .minus :: [] => none
  | x :: r => some (⟨false, x⟩, r)
  | [] => none

/-- the optional step (src/parser/parser_stmt.c:1227-1252) -/
def parseStepOpt (ts : List Tok) : Option (Option Step × List Tok) :=
  if atWord t kStep ts then
    match parseStep (ts.drop 1) with
    | some (s, r) => some (some s, r)
    | none => none
  else some (none, ts)

/-- the condition of a C-style loop (src/parser/parser_stmt.c:1588-1603): absent means true -/
def parseCond (ts : List Tok) : Option (Option L.E × List Tok) :=
  if at? .semi ts then some (none, eat .semi ts)
  else match L.expr ts with
    | some (e, r) => some (some e, eat .semi r)
    | none => none

/-- the step of a C-style loop (src/parser/parser_stmt.c:1605-1614) -/
def parseCStep (ts : List Tok) : Option (Option L.E × List Tok) :=
  if at? .rp ts || at? .lb ts then some (none, eat .rp ts)
  else match L.expr ts with
    | some (e, r) => some (some e, eat .rp r)
    | none => none

/-- the optional guard of a case (src/parser/parser_stmt.c:333-340) -/
def parseGuardOpt (ts : List Tok) : Option (Option L.E × List Tok) :=
  if atWord t kIf ts then
    match L.expr (ts.drop 1) with
    | some (g, r) => some (some g, r)
    | none => none
  else some (none, ts)

mutual
/-- `parse_statement` (src/parser/parser_stmt.c:2212-2948); a macro invocation `name ! {` is not
modelled -/
def stmt : Nat → List Tok → Option (Stmt L × List Tok)
  | 0, _ => none
  | f + 1, ts =>
      match ts with
      | [] => none
      | .semi :: r => some (.nop, r)
      | .lb :: r =>
          match block f r with
          | some (ss, r) => some (.blk ss, r)
          | none => none
      | .word w :: r =>
          if isIdent w && at? .bang r && at? .lb (r.drop 1) then none
          else
            match headOf w heads with
            | some h => headStmt f h r
            | none =>
                if isIdent w && at? .colon r && !at? .colon (r.drop 1) then some (.label w, r.drop 1)
                else
                  match L.expr (.word w :: r) with
                  | some (e, r) => some (.expr e, eat .semi r)
                  | none => none
      | ts =>
          match L.expr ts with
          | some (e, r) => some (.expr e, eat .semi r)
          | none => none
/-- the statement forms, behind the first word -/
def headStmt : Nat → Head → List Tok → Option (Stmt L × List Tok)
  | 0, _, _ => none
  | f + 1, h, r =>
      match h with
      | .unmodelled => none
      | .varH => none
      | .asrt =>
          match parseAssert L r with
          | some (c, r) => some (.asrt c, r)
          | none => none
      | .letH =>
          match L.decl r with
          | some (d, r) => some (.letS d, r)
          | none => none
      | .ret =>
          match parseReturn L r with
          | some (e, r) => some (.ret e, r)
          | none => none
      | .brk => some (.brk, eat .semi r)
      | .cont => some (.cont, eat .semi r)
      | .ifH =>
          match parseIf f r with
          | some ((c, b, e), r) => some (.ifs c b e, r)
          | none => none
      | .whl =>
          match L.expr r with
          | some (c, r) =>
              match body f r with
              | some (b, r) => some (.whl c b, r)
              | none => none
          | none => none
      | .loop =>
          match block f (r.drop 1) with
          | some (ss, r) => some (.loop ss, r)
          | none => none
      | .unless =>
          match L.expr r with
          | some (c, r) =>
              match block f (r.drop 1) with
              | some (ss, r) => some (.unless c ss, r)
              | none => none
          | none => none
      | .guard =>
          match L.expr r with
          | some (c, r) =>
              if atWord t kElse r then
                match body f (r.drop 1) with
                | some (b, r) => some (.guard c b, r)
                | none => none
              else none
          | none => none
      | .doH =>
          match block f (r.drop 1) with
          | some (ss, r) =>
              if atWord whole kWhile r then
                match L.expr (r.drop 1) with
                | some (c, r) => some (.doWhile ss c, eat .semi r)
                | none => none
              else none
          | none => none
      | .mtch =>
          match L.expr r with
          | some (e, r) =>
              if at? .lb r then
                match cases f (r.drop 1) with
                | some (cs, r) => some (.mtch e cs, r)
                | none => none
              else none
          | none => none
      | .forH => forStmt f r
/-- `parse_for` behind the first word (src/parser/parser_stmt.c:1189-1636).  The iterator loop is
kept as a node of its own instead of its expansion. -/
def forStmt : Nat → List Tok → Option (Stmt L × List Tok)
  | 0, _ => none
  | f + 1, r =>
      match r with
      | .word x :: r' =>
          if isIdent x && atWord t kIn r' then
            match L.expr (r'.drop 1) with
            | some (a, r) =>
                if at? .dotdot r || at? .dotdotLt r || at? .dotdotEq r then
                  match L.expr (r.drop 1) with
                  | some (b, r2) =>
                      match parseStepOpt t r2 with
                      | some (st, r2) =>
                          match body f r2 with
                          | some (bd, r2) => some (.forRange x a (at? .dotdotEq r) b st bd, r2)
                          | none => none
                      | none => none
                  | none => none
                else
                  match body f r with
                  | some (bd, r) => some (.forEach x a bd, r)
                  | none => none
            | none => none
          else cFor f (.word x :: r')
      | r => cFor f r
/-- the C-style loop (src/parser/parser_stmt.c:1556-1636) -/
def cFor : Nat → List Tok → Option (Stmt L × List Tok)
  | 0, _ => none
  | f + 1, r =>
      let r := eat .lp r
      if at? .semi r then
        match forRest f (r.drop 1) with
        | some ((c, s, b), r) => some (.forC none c s b, r)
        | none => none
      else if atWord t kLet r then
        match L.decl (r.drop 1) with
        | some (d, r) =>
            match forRest f r with
            | some ((c, s, b), r) => some (.forLet d c s b, r)
            | none => none
        | none => none
      else if atWord t kVar r then none
      else
        match L.expr r with
        | some (e, r) =>
            match forRest f (eat .semi r) with
            | some ((c, s, b), r) => some (.forC (some e) c s b, r)
            | none => none
        | none => none
/-- condition, step and body of the C-style loop (src/parser/parser_stmt.c:1586-1627) -/
def forRest : Nat → List Tok → Option ((Option L.E × Option L.E × Body L) × List Tok)
  | 0, _ => none
  | f + 1, r =>
      match parseCond L r with
      | some (c, r) =>
          match parseCStep L r with
          | some (s, r) =>
              match body f r with
              | some (b, r) => some ((c, s, b), r)
              | none => none
          | none => none
      | none => none
/-- `parse_block` behind the brace (src/parser/parser_stmt.c:2951-3033): the end of the text ends a
block too -/
def block : Nat → List Tok → Option (Stmts L × List Tok)
  | 0, _ => none
  | f + 1, ts =>
      match ts with
      | [] => some (.nil, [])
      | .rb :: r => some (.nil, r)
      | ts =>
          match stmt f ts with
          | some (s, r) =>
              match block f r with
              | some (ss, r) => some (.cons s ss, r)
              | none => none
          | none => none
/-- `if (peek == {) parse_block else parse_statement` -/
def body : Nat → List Tok → Option (Body L × List Tok)
  | 0, _ => none
  | f + 1, ts =>
      match ts with
      | .lb :: r =>
          match block f r with
          | some (ss, r) => some (.braces ss, r)
          | none => none
      | ts =>
          match stmt f ts with
          | some (s, r) => some (.one s, r)
          | none => none
/-- `parse_if` behind the first word (src/parser/parser_stmt.c:1110-1156) -/
def parseIf : Nat → List Tok → Option ((L.E × Body L × Els L) × List Tok)
  | 0, _ => none
  | f + 1, ts =>
      match L.expr ts with
      | some (c, r) =>
          match body f r with
          | some (b, r) =>
              if atWord t kElse r then
                if atWord t kIf (r.drop 1) then
                  match parseIf f (r.drop 2) with
                  | some ((c', b', e'), r) => some ((c, b, .elif c' b' e'), r)
                  | none => none
                else
                  match body f (r.drop 1) with
                  | some (b', r) => some ((c, b, .els b'), r)
                  | none => none
              else some ((c, b, .none), r)
          | none => none
      | none => none
/-- the cases (src/parser/parser_stmt.c:196-516) -/
def cases : Nat → List Tok → Option (Cases L × List Tok)
  | 0, _ => none
  | f + 1, ts =>
      if at? .rb ts then some (.nil, ts.drop 1)
      else if at? .rb (eat .comma ts) then some (.nil, (eat .comma ts).drop 1)
      else
        match L.pat (eat .comma ts) with
        | some (p, r) =>
            match parseGuardOpt L t r with
            | some (g, r) =>
                if at? .arrow r then
                  match cbody f (r.drop 1) with
                  | some (b, r) =>
                      match cases f r with
                      | some (cs, r) => some (.cons p g b cs, r)
                      | none => none
                  | none => none
                else none
            | none => none
        | none => none
/-- the body of a case (src/parser/parser_stmt.c:480-498) -/
def cbody : Nat → List Tok → Option (CBody L × List Tok)
  | 0, _ => none
  | f + 1, ts =>
      if at? .lb ts then
        match block f (ts.drop 1) with
        | some (ss, r) => some (.braces ss, r)
        | none => none
      else if at? (.word kAssert) ts || atWord t kAssert ts then
        match parseAssert L (ts.drop 1) with
        | some (c, r) => some (.asrt c, r)
        | none => none
      else if atWord t kReturn ts then
        match parseReturn L (ts.drop 1) with
        | some (e, r) => some (.ret e, r)
        | none => none
      else
        match L.expr ts with
        | some (e, r) => some (.expr e, r)
        | none => none
end

/-! ## Specification: how a statement is written -/

namespace Spec
variable {L : Lang}

mutual
/-- The text of a statement, as the language reference writes it. -/
def text : Stmt L → List Tok
  | .nop => [.semi]
  | .expr e => L.prE e ++ [.semi]
  | .letS d => .word kLet :: L.prD d
  | .ret none => [.word kReturn, .semi]
  | .ret (some e) => .word kReturn :: (L.prE e ++ [.semi])
  | .brk => [.word kBreak, .semi]
  | .cont => [.word kContinue, .semi]
  | .asrt c => .word kAssert :: .lp :: (L.prE c ++ [.rp, .semi])
  | .blk ss => .lb :: (texts ss ++ [.rb])
  | .ifs c b els => .word kIf :: (L.prE c ++ (bodyText b ++ elsText els))
  | .whl c b => .word kWhile :: (L.prE c ++ bodyText b)
  | .loop ss => .word kLoop :: .lb :: (texts ss ++ [.rb])
  | .unless c ss => .word kUnless :: (L.prE c ++ .lb :: (texts ss ++ [.rb]))
  | .guard c b => .word kGuard :: (L.prE c ++ .word kElse :: bodyText b)
  | .forRange x a incl b st bd =>
      .word kFor :: .word x :: .word kIn :: (L.prE a ++
        (if incl then .dotdotEq else .dotdot) :: (L.prE b ++ (stepText st ++ bodyText bd)))
  | .forEach x e bd => .word kFor :: .word x :: .word kIn :: (L.prE e ++ bodyText bd)
  | .forC i c s bd => .word kFor :: (optText i ++ .semi :: (optText c ++ .semi :: (optText s ++ bodyText bd)))
  | .forLet d c s bd =>
      .word kFor :: .word kLet :: (L.prD d ++ (optText c ++ .semi :: (optText s ++ bodyText bd)))
  | .mtch e cs => .word kMatch :: (L.prE e ++ .lb :: (casesText cs ++ [.rb]))
  | .doWhile ss c => .word kDo :: .lb :: (texts ss ++ .rb :: .word kWhile :: (L.prE c ++ [.semi]))
  | .label w => [.word w, .colon]
def texts : Stmts L → List Tok
  | .nil => []
  | .cons s ss => text s ++ texts ss
def bodyText : Body L → List Tok
  | .braces ss => .lb :: (texts ss ++ [.rb])
  | .one s => text s
def elsText : Els L → List Tok
  | .none => []
  | .elif c b e => .word kElse :: .word kIf :: (L.prE c ++ (bodyText b ++ elsText e))
  | .els b => .word kElse :: bodyText b
def casesText : Cases L → List Tok
  | .nil => []
  | .cons p g b cs => L.prP p ++ (guardText g ++ .arrow :: (cbodyText b ++ .comma :: casesText cs))
def cbodyText : CBody L → List Tok
  | .braces ss => .lb :: (texts ss ++ [.rb])
  | .asrt c => .word kAssert :: .lp :: (L.prE c ++ [.rp, .semi])
  | .ret none => [.word kReturn, .semi]
  | .ret (some e) => .word kReturn :: (L.prE e ++ [.semi])
  | .expr e => L.prE e
/-- an optional expression -/
def optText : Option L.E → List Tok
  | none => []
  | some e => L.prE e
/-- a step -/
def stepText : Option Step → List Tok
  | none => []
  | some ⟨true, x⟩ => [.word kStep, .minus, x]
  | some ⟨false, x⟩ => [.word kStep, x]
/-- the guard of a case -/
def guardText : Option L.E → List Tok
  | none => []
  | some g => .word kIf :: L.prE g
end

/-- `ts` begins with an identifier that passes the test for the keyword `k` -/
def begins (t : Word → Word → Bool) (k : Word) : List Tok → Prop
  | .word w :: _ => isIdent w = true ∧ t k w = true
  | _ => False

/-- An expression ends before `ts`. -/
def stops (L : Lang) : List Tok → Prop
  | .word w :: _ => L.stopW w
  | .semi :: _ | .lb :: _ | .rp :: _ | .comma :: _ | .arrow :: _ | .dotdot :: _
  | .dotdotEq :: _ => True
  | _ => False

/-- What is assumed of expressions, patterns and declarations: what is written is read back when
something that cannot belong to it follows. -/
structure Laws (L : Lang) : Prop where
  expr : ∀ e r, stops L r → L.expr (L.prE e ++ r) = some (e, r)
  pat : ∀ p r, (∃ r', r = .arrow :: r' ∨ r = .word kIf :: r') → L.pat (L.prP p ++ r) = some (p, r)
  decl : ∀ d r, L.decl (L.prD d ++ r) = some (d, r)
  stopElse : L.stopW kElse
  stopStep : L.stopW kStep
  exprNe : ∀ e, L.prE e ≠ []
  exprBang : ∀ e r, L.prE e = .bang :: r → ∃ x r', r = x :: r' ∧ x ≠ .lb
  declBang : ∀ d, ∃ x r, L.prD d = x :: r ∧ x ≠ .bang
  patHead : ∀ p, ∃ x r, L.prP p = x :: r ∧ x ≠ .rb ∧ x ≠ .comma

/-- the text can be the beginning of an expression statement: not punctuation that starts or ends
something else, not a reserved word, not a label and not a macro call -/
def plainStart : List Tok → Prop
  | [] | .semi :: _ | .lb :: _ | .rb :: _ | .colon :: _ => False
  | .word w :: r => headOf w heads = none ∧ at? .bang r = false ∧ at? .colon r = false
  | _ => True

/-- the text does not begin with token `k` -/
def notAt (k : Tok) (ts : List Tok) : Prop := at? k ts = false

mutual
/-- an `else` behind the statement would belong to it -/
def openEnd : Stmt L → Bool
  | .ifs _ _ e => elsOpen e
  | .whl _ b | .guard _ b | .forRange _ _ _ _ _ b | .forEach _ _ b | .forC _ _ _ b
  | .forLet _ _ _ b => bodyOpen b
  | _ => false
def bodyOpen : Body L → Bool
  | .one s => openEnd s
  | .braces _ => false
def elsOpen : Els L → Bool
  | .none => true
  | .elif _ _ e => elsOpen e
  | .els b => bodyOpen b
end

def _root_.Verif.Keywords.Els.isNone : Els L → Bool
  | .none => true
  | _ => false

def _root_.Verif.Keywords.Body.isBraces : Body L → Bool
  | .braces _ => true
  | _ => false

/-- behind an expression stands a block or a statement whose first word ends the expression -/
def behindExpr : Body L → Prop
  | .braces _ => True
  | .one s => ∃ w r, text s = .word w :: r ∧ L.stopW w

variable (t : Word → Word → Bool)

mutual
/-- The tree can be written down without ambiguity.  `t` is the test for a contextual keyword: with
`whole` the conditions are those of the language (a name must not be the keyword itself), with
`prefixOf` a name must not even begin with the keyword in the places where one may stand. -/
def WF : Stmt L → Prop
  | .nop | .brk | .cont | .letS _ | .asrt _ | .ret none => True
  | .ret (some e) => notAt .semi (L.prE e)
  | .expr e => plainStart (L.prE e)
  | .blk ss | .loop ss | .unless _ ss | .doWhile ss _ => WFs ss
  | .ifs _ b els => WFb b ∧ behindExpr b ∧ WFe els ∧ (els.isNone = false → bodyOpen b = false)
  | .whl _ b => WFb b ∧ behindExpr b
  | .guard _ b => WFb b
  | .forRange x _ _ _ st b => isIdent x = true ∧ WFb b ∧
      (match st with
       | none => behindExpr b ∧ ¬ begins t kStep (bodyText b)
       | some ⟨true, _⟩ => True
       | some ⟨false, x⟩ => x ≠ .minus)
  | .forEach x _ b => isIdent x = true ∧ WFb b ∧ behindExpr b
  | .forC i c s b =>
      (match i with
       | none => True
       | some e => notAt .semi (L.prE e) ∧ notAt .lp (L.prE e) ∧ ¬ begins t kLet (L.prE e) ∧
           ¬ begins t kVar (L.prE e) ∧ ¬ begins t kIn ((L.prE e).drop 1)) ∧
      (match c with | none => True | some e => notAt .semi (L.prE e)) ∧
      (match s with
       | none => b.isBraces = true
       | some e => notAt .rp (L.prE e) ∧ notAt .lb (L.prE e) ∧ behindExpr b) ∧ WFb b
  | .forLet d c s b =>
      ¬ begins t kIn (L.prD d) ∧
      (match c with | none => True | some e => notAt .semi (L.prE e)) ∧
      (match s with
       | none => b.isBraces = true
       | some e => notAt .rp (L.prE e) ∧ notAt .lb (L.prE e) ∧ behindExpr b) ∧ WFb b
  | .mtch _ cs => WFc cs
  | .label w => isIdent w = true ∧ headOf w heads = none
def WFs : Stmts L → Prop
  | .nil => True
  | .cons s ss => WF s ∧ WFs ss ∧ (openEnd s = true → ¬ begins t kElse (texts ss))
def WFb : Body L → Prop
  | .braces ss => WFs ss
  | .one s => WF s ∧ notAt .lb (text s)
def WFe : Els L → Prop
  | .none => True
  | .elif _ b e => WFb b ∧ behindExpr b ∧ WFe e ∧ (e.isNone = false → bodyOpen b = false)
  | .els b => WFb b ∧ ¬ begins t kIf (bodyText b)
def WFc : Cases L → Prop
  | .nil => True
  | .cons _ _ b cs => WFcb b ∧ WFc cs
def WFcb : CBody L → Prop
  | .braces ss => WFs ss
  | .asrt _ | .ret none => True
  | .ret (some e) => notAt .semi (L.prE e)
  | .expr e => notAt .lb (L.prE e) ∧ notAt (.word kAssert) (L.prE e) ∧ ¬ begins t kAssert (L.prE e) ∧
      ¬ begins t kReturn (L.prE e)
end

end Spec
end Verif.Keywords
