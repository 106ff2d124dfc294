/-!
# Expressions: operator precedence

The expression parser (`parse_expr_prec`, src/parser/parser_expr.c:4597-6900), the C text printed for
its trees (src/codegen/codegen.c:234-433, 1392-1427, 1788-1796), and grammars.

Not modelled: types and operator overloading (rewriting of a finished node), `await`, `va_*`,
`sizeof`, strings and `!"..."`, macros, generic calls `f<T>(x)`, `::` paths, named arguments, slices
`a[i..j]`, tuples, typed lambda parameters, array and struct literals.
-/

namespace Verif.Pratt

/-- binary operators without assignments -/
inductive BOp where
  | qq | or | and | eq | ne | lt | gt | le | ge
  | pipe | bor | bxor | band | shl | shr | add | sub | mul | div | rem
  deriving DecidableEq, Repr

/-- operator tokens; `asgB b` is `+=` and so on (`asgB qq` is `??=`) -/
inductive Op where
  | bin (b : BOp)
  | asg
  | asgB (b : BOp)
  | not | tilde | inc | dec
  deriving DecidableEq, Repr

/-- Kinds of tokens.  `other` is whatever cannot occur inside an expression (`;`, `}`, end). -/
inductive Kind where
  | ident (x : Nat)
  | num (v : Nat)
  | op (o : Op)
  | lpar | rpar | lbr | rbr | comma | colon | quest | dot | arrow | other
  deriving DecidableEq, Repr

/-- A token, and whether a line break stands before it (`op.line > l->line`,
src/parser/parser_expr.c:5161). -/
structure Tok where
  k : Kind
  nl : Bool := false
  deriving DecidableEq, Repr

mutual
/-- Trees.  `par` marks parentheses, for which the parser builds no node. -/
inductive Expr where
  | id (x : Nat)
  | num (v : Nat)
  | par (e : Expr)
  | un (o : Op) (e : Expr)
  | post (o : Op) (e : Expr)
  | tryE (e : Expr)
  | bin (o : Op) (l r : Expr)
  | tern (c t f : Expr)
  | call (f : Expr) (as : Args)
  | idx (a i : Expr)
  | mem (ptr : Bool) (e : Expr) (f : Nat)
  | cast (t : Nat) (stars : Nat) (e : Expr)
  | lam (ps : List Nat) (b : Expr)
/-- arguments of a call -/
inductive Args where
  | nil
  | cons (e : Expr) (as : Args)
end

deriving instance DecidableEq for Expr, Args
deriving instance Repr for Expr, Args

/-- What distinguishes one expression language from another: levels of infix operators (0: none),
levels that associate to the right, infix operators that do not continue an expression on a new
line, whether a `?` begins a ternary, whether `(` may begin a cast or a lambda, and the level of
prefix operators (postfix operators are one above). -/
structure G where
  prec : Op → Nat
  right : Nat → Bool
  brk : Op → Bool
  tern : List Tok → Bool
  heur : Bool
  un : Nat

/-- level of calls and other postfix operators -/
def G.call (g : G) : Nat := g.un + 1

/-- prefix operators, src/parser/parser_expr.c:4932-4934 -/
def isPrefix : Op → Bool
  | .bin .sub | .bin .mul | .bin .band | .bin .and | .not | .tilde | .inc | .dec => true
  | _ => false

/-- `++` and `--`, src/parser/parser_expr.c:5169-5172 -/
def isInc : Op → Bool
  | .inc | .dec => true
  | _ => false

/-- src/parser/parser_expr.c:3588-3641: after `(`, names separated by commas, `)` and an arrow.
Result: the names and what follows the arrow.  The table of 16 names is not modelled. -/
def lamNames : List Tok → Option (List Nat × List Tok)
  | ⟨.ident x, _⟩ :: ⟨.comma, _⟩ :: r => (lamNames r).map fun q => (x :: q.1, q.2)
  | ⟨.ident x, _⟩ :: ⟨.rpar, _⟩ :: ⟨.arrow, _⟩ :: r => some ([x], r)
  | _ => none

/-- the same, with `() ->` -/
def lamLook : List Tok → Option (List Nat × List Tok)
  | ⟨.rpar, _⟩ :: ⟨.arrow, _⟩ :: r => some ([], r)
  | ts => lamNames ts

/-- stars of a pointer type, src/parser/parser_expr.c:3701-3704 -/
def stars : List Tok → Nat × List Tok
  | ⟨.op (.bin .mul), _⟩ :: r => ((stars r).1 + 1, (stars r).2)
  | ts => (0, ts)

/-- tokens after `(T)` that make it a cast, src/parser/parser_expr.c:3710-3715 -/
def afterCast : Kind → Bool
  | .num _ | .ident _ | .lpar | .op (.bin .band) | .op (.bin .mul) | .op .not => true
  | _ => false

/-- src/parser/parser_expr.c:3684-3716: after `(`, a name, stars, `)` and a token as above.
Result: name, number of stars, what follows `)`. -/
def castLook : List Tok → Option (Nat × Nat × List Tok)
  | ⟨.ident x, _⟩ :: r =>
    match (stars r).2 with
    | ⟨.rpar, _⟩ :: t :: r' => if afterCast t.k then some (x, (stars r).1, t :: r') else none
    | _ => none
  | _ => none

/-- level at which the right operand is parsed: `prec + 1`, src/parser/parser_expr.c:6326, 5362; the
same level where an operator associates to the right -/
def G.rhs (g : G) (o : Op) : Nat := if g.right (g.prec o) then g.prec o else g.prec o + 1

mutual
/-- `parse_expr_prec`: src/parser/parser_expr.c:4932-4937 prefix operators, 1930-1999, 3579-3740
primaries, then the loop.  The first argument bounds the recursion; `none` is a compile error. -/
def parseN (g : G) : Nat → Nat → List Tok → Option (Expr × List Tok)
  | 0, _, _ => none
  | _ + 1, _, [] => none
  | n + 1, p, t :: r =>
    match t.k with
    | .op o =>
      if isPrefix o then
        match parseN g n g.un r with
        | some (e, r') => loop g n p (.un o e) r'
        | none => none
      else none
    | .num v => loop g n p (.num v) r
    | .ident x =>
      match r with
      | ⟨.arrow, _⟩ :: r' =>
        if g.heur then
          match parseN g n 0 r' with
          | some (b, r'') => loop g n p (.lam [x] b) r''
          | none => none
        else loop g n p (.id x) r
      | _ => loop g n p (.id x) r
    | .lpar =>
      match (if g.heur then lamLook r else none) with
      | some (ps, r') =>
        match parseN g n 0 r' with
        | some (b, r'') => loop g n p (.lam ps b) r''
        | none => none
      | none =>
        match (if g.heur then castLook r else none) with
        | some (x, s, r') =>
          match parseN g n g.un r' with
          | some (e, r'') => loop g n p (.cast x s e) r''
          | none => none
        | none =>
          match parseN g n 0 r with
          | some (e, ⟨.rpar, _⟩ :: r') => loop g n p (.par e) r'
          | _ => none
    | _ => none
/-- The loop of `parse_expr_prec`, src/parser/parser_expr.c:5157-6326. -/
def loop (g : G) : Nat → Nat → Expr → List Tok → Option (Expr × List Tok)
  | 0, _, _, _ => none
  | _ + 1, _, l, [] => some (l, [])
  | n + 1, p, l, t :: r =>
    match t.k with
    | .op o =>
      if t.nl && g.brk o then some (l, t :: r)
      else if isInc o then loop g n p (.post o l) r
      else if g.prec o = 0 ∨ g.prec o < p then some (l, t :: r)
      else
        match parseN g n (g.rhs o) r with
        | some (e, r') => loop g n p (.bin o l e) r'
        | none => none
    | .quest =>
      if g.call < p then some (l, t :: r)
      else if g.tern r then
        if 2 < p then some (l, t :: r)
        else
          match parseN g n 0 r with
          | some (a, ⟨.colon, _⟩ :: r') =>
            match parseN g n 2 r' with
            | some (b, r'') => loop g n p (.tern l a b) r''
            | none => none
          | _ => none
      else loop g n p (.tryE l) r
    | .lpar =>
      if g.call < p then some (l, t :: r)
      else
        match r with
        | ⟨.rpar, _⟩ :: r' => loop g n p (.call l .nil) r'
        | _ =>
          match args g n r with
          | some (as, r') => loop g n p (.call l as) r'
          | none => none
    | .lbr =>
      if g.call < p then some (l, t :: r)
      else
        match parseN g n 0 r with
        | some (i, ⟨.rbr, _⟩ :: r') => loop g n p (.idx l i) r'
        | _ => none
    | .dot =>
      if g.call < p then some (l, t :: r)
      else
        match r with
        | ⟨.ident f, _⟩ :: r' => loop g n p (.mem false l f) r'
        | _ => none
    | .arrow =>
      if g.call < p then some (l, t :: r)
      else
        match r with
        | ⟨.ident f, _⟩ :: r' => loop g n p (.mem true l f) r'
        | _ => none
    | _ => some (l, t :: r)
/-- Arguments up to `)`, src/parser/parser_expr.c:4039-4108, 5546-5640. -/
def args (g : G) : Nat → List Tok → Option (Args × List Tok)
  | 0, _ => none
  | n + 1, ts =>
    match parseN g n 0 ts with
    | some (e, ⟨.comma, _⟩ :: r) =>
      match args g n r with
      | some (as, r') => some (.cons e as, r')
      | none => none
    | some (e, ⟨.rpar, _⟩ :: r) => some (.cons e .nil, r)
    | _ => none
end

/-- `parse_expression` -/
def parse (g : G) (ts : List Tok) : Option (Expr × List Tok) := parseN g (3 * ts.length + 1) 0 ts

/-- `get_token_precedence`, src/parser/parser_expr.c:349-488 with the numbers of
src/parser/parser.h:15-26 -/
def zenPrec : Op → Nat
  | .asg | .asgB _ => 1
  | .bin .qq | .bin .or => 3
  | .bin .and => 4
  | .bin .eq | .bin .ne => 5
  | .bin .lt | .bin .gt | .bin .le | .bin .ge => 6
  | .bin .pipe | .bin .bor | .bin .bxor | .bin .band | .bin .shl | .bin .shr => 7
  | .bin .add | .bin .sub => 7
  | .bin .mul | .bin .div | .bin .rem => 8
  | .not | .tilde | .inc | .dec => 0

/-- `?` begins a ternary if the next token seems to begin an expression,
src/parser/parser_expr.c:5298-5318 -/
def zenTern : List Tok → Bool
  | t :: _ =>
    match t.k with
    | .num _ | .ident _ | .lpar => true
    | .op (.bin .sub) | .op .not | .op (.bin .mul) | .op (.bin .band) | .op .tilde => true
    | _ => false
  | [] => false

/-- operators that do not continue an expression on a new line, src/parser/parser_expr.c:5161-5165 -/
def zenBrk : Op → Bool
  | .bin .mul | .bin .band | .bin .add | .bin .sub => true
  | _ => false

/-- Zen-C.  Only `?:` (its last operand is parsed at its own level, 5332) and prefix operators
associate to the right. -/
def zen : G where
  prec := zenPrec
  right := fun q => q == 2 || q == 9
  brk := zenBrk
  tern := zenTern
  heur := true
  un := 9

/-- C11 6.5.3 - 6.5.17, for texts whose parenthesised names are no type names.  The comma operator
is left out. -/
def cLang : G where
  prec
    | .asg | .asgB _ => 1
    | .bin .or => 3
    | .bin .and => 4
    | .bin .bor => 5
    | .bin .bxor => 6
    | .bin .band => 7
    | .bin .eq | .bin .ne => 8
    | .bin .lt | .bin .gt | .bin .le | .bin .ge => 9
    | .bin .shl | .bin .shr => 10
    | .bin .add | .bin .sub => 11
    | .bin .mul | .bin .div | .bin .rem => 12
    | _ => 0
  right := fun q => q == 1 || q == 2 || q == 13
  brk := fun _ => false
  tern := fun _ => true
  heur := false
  un := 13

/-! ## The printed text -/

/-- a token -/
def tk (k : Kind) : Tok := ⟨k, false⟩

/-- an argument put in front (src/parser/parser_expr.c:5359-5379, the pipe) -/
def pipeInto (l r : Expr) : Expr :=
  match r with
  | .call f as => .call f (.cons l as)
  | r => .call r (.cons l .nil)

mutual
/-- The node the parser builds: no parentheses; `a += b` becomes `a = a + b`, sharing `a`
(src/parser/parser_expr.c:6507-6597); `a |> f(x)` becomes `f(a, x)` (5359-5379). -/
def node : Expr → Expr
  | .id x => .id x
  | .num v => .num v
  | .par e => node e
  | .un o e => .un o (node e)
  | .post o e => .post o (node e)
  | .tryE e => .tryE (node e)
  | .bin (.asgB b) l r => .bin .asg (node l) (.bin (.bin b) (node l) (node r))
  | .bin (.bin .pipe) l r => pipeInto (node l) (node r)
  | .bin o l r => .bin o (node l) (node r)
  | .tern c t f => .tern (node c) (node t) (node f)
  | .call f as => .call (node f) (nodes as)
  | .idx a i => .idx (node a) (node i)
  | .mem b e f => .mem b (node e) f
  | .cast t s e => .cast t s (node e)
  | .lam ps b => .lam ps (node b)
/-- the same for arguments -/
def nodes : Args → Args
  | .nil => .nil
  | .cons e as => .cons (node e) (nodes as)
end

mutual
/-- `codegen_expression`: src/codegen/codegen.c:414-433 `(l op r)`, 1409-1426 `(op e)` and `(e op)`,
1788-1796 `((c) ? (t) : (f))`; calls, indexing and members without parentheses of their own.
Types other than numbers (string comparison, overloads), `??`, `?`, casts and lambdas print other
text and are left out (`plain` below). -/
def print : Expr → List Tok
  | .id x => [tk (.ident x)]
  | .num v => [tk (.num v)]
  | .par e => print e
  | .un o e => tk .lpar :: tk (.op o) :: (print e ++ [tk .rpar])
  | .post o e => tk .lpar :: (print e ++ [tk (.op o), tk .rpar])
  | .bin o l r => tk .lpar :: (print l ++ tk (.op o) :: (print r ++ [tk .rpar]))
  | .tern c t f =>
    tk .lpar :: tk .lpar :: (print c ++ tk .rpar :: tk .quest :: tk .lpar ::
      (print t ++ tk .rpar :: tk .colon :: tk .lpar :: (print f ++ [tk .rpar, tk .rpar])))
  | .call f as => print f ++ tk .lpar :: prints as
  | .idx a i => print a ++ tk .lbr :: (print i ++ [tk .rbr])
  | .mem b e f => print e ++ [tk (if b then .arrow else .dot), tk (.ident f)]
  | .tryE e => print e
  | .cast _ _ e => print e
  | .lam _ b => print b
/-- arguments and the closing parenthesis -/
def prints : Args → List Tok
  | .nil => [tk .rpar]
  | .cons e .nil => print e ++ [tk .rpar]
  | .cons e as => print e ++ tk .comma :: prints as
end

mutual
/-- nodes that print as modelled here -/
def plain : Expr → Bool
  | .id _ | .num _ => true
  | .par e => plain e
  | .un o e => isPrefix o && plain e
  | .post o e => isInc o && plain e
  | .bin o l r => cLang.prec o != 0 && plain l && plain r
  | .tern c t f => plain c && plain t && plain f
  | .call f as => plain f && plains as
  | .idx a i => plain a && plain i
  | .mem _ e _ => plain e
  | .tryE _ | .cast _ _ _ | .lam _ _ => false
/-- the same for arguments -/
def plains : Args → Bool
  | .nil => true
  | .cons e as => plain e && plains as
end

/-! ## What a grammar says -/

namespace Spec

/-- level of the outermost operator of a tree -/
def lev (g : G) : Expr → Nat
  | .bin o _ _ => g.prec o
  | .tern _ _ _ => 2
  | .un _ _ | .cast _ _ _ => g.un
  | _ => g.call

/-- Level of the operator a text begins with, if it continues an expression; 0 if it does not. -/
def next (g : G) : List Tok → Nat
  | [] => 0
  | t :: r =>
    match t.k with
    | .op o => if t.nl && g.brk o then 0 else if isInc o then g.call else g.prec o
    | .quest => if g.tern r then 2 else g.call
    | .lpar | .lbr | .dot | .arrow => g.call
    | _ => 0

mutual
/-- `der g e p ts rest`: the tokens `ts` up to `rest` are a text of the tree `e`, and the operators
of `e` outside brackets bind at least as strongly as level `p`.
Binary operators of a left-associative level take a left operand of their level and a right operand
above it, those of a right-associative level the other way round; a ternary takes a condition above
its level, anything in the middle, and a ternary or more at its end; prefix operators take a prefix
expression, postfix operators a postfix expression. -/
def der (g : G) : Expr → Nat → List Tok → List Tok → Prop
  | .id x, _, ts, rest =>
    ∃ b, ts = ⟨.ident x, b⟩ :: rest ∧ (g.heur = true → ∀ b' r, rest ≠ ⟨.arrow, b'⟩ :: r)
  | .num v, _, ts, rest => ∃ b, ts = ⟨.num v, b⟩ :: rest
  | .par e, _, ts, rest =>
    ∃ b b' r, ts = ⟨.lpar, b⟩ :: r ∧ (g.heur = true → lamLook r = none ∧ castLook r = none) ∧
      der g e 0 r (⟨.rpar, b'⟩ :: rest)
  | .un o e, p, ts, rest =>
    p ≤ g.un ∧ isPrefix o = true ∧ ∃ b r, ts = ⟨.op o, b⟩ :: r ∧ der g e g.un r rest
  | .post o e, _, ts, rest =>
    isInc o = true ∧ ∃ b, (b && g.brk o) = false ∧ der g e g.call ts (⟨.op o, b⟩ :: rest)
  | .tryE e, _, ts, rest => g.tern rest = false ∧ ∃ b, der g e g.call ts (⟨.quest, b⟩ :: rest)
  | .bin o l r, p, ts, rest =>
    p ≤ g.prec o ∧ g.prec o ≠ 0 ∧ isInc o = false ∧ ∃ b m, (b && g.brk o) = false ∧
      der g l (if g.right (g.prec o) then g.prec o + 1 else g.prec o) ts (⟨.op o, b⟩ :: m) ∧
      der g r (if g.right (g.prec o) then g.prec o else g.prec o + 1) m rest
  | .tern c t f, p, ts, rest =>
    p ≤ 2 ∧ ∃ b b' m m', g.tern m = true ∧ der g c 3 ts (⟨.quest, b⟩ :: m) ∧
      der g t 0 m (⟨.colon, b'⟩ :: m') ∧ der g f 2 m' rest
  | .call f as, _, ts, rest => ∃ b m, der g f g.call ts (⟨.lpar, b⟩ :: m) ∧ ders g as true m rest
  | .idx a i, _, ts, rest =>
    ∃ b b' m, der g a g.call ts (⟨.lbr, b⟩ :: m) ∧ der g i 0 m (⟨.rbr, b'⟩ :: rest)
  | .mem ptr e f, _, ts, rest =>
    ∃ b b', der g e g.call ts
      (⟨if ptr then .arrow else .dot, b⟩ :: ⟨.ident f, b'⟩ :: rest)
  | .cast x s e, p, ts, rest =>
    p ≤ g.un ∧ g.heur = true ∧ ∃ b r m, ts = ⟨.lpar, b⟩ :: r ∧ lamLook r = none ∧
      castLook r = some (x, s, m) ∧ der g e g.un m rest
  | .lam ps e, _, ts, rest =>
    g.heur = true ∧ next g rest = 0 ∧ ∃ m,
      ((∃ b r, ts = ⟨.lpar, b⟩ :: r ∧ lamLook r = some (ps, m)) ∨
        ∃ x b b', ts = ⟨.ident x, b⟩ :: ⟨.arrow, b'⟩ :: m ∧ ps = [x]) ∧
      der g e 0 m rest
/-- arguments up to and including `)`; the flag tells whether there may be none -/
def ders (g : G) : Args → Bool → List Tok → List Tok → Prop
  | .nil, first, ts, rest => first = true ∧ ∃ b, ts = ⟨.rpar, b⟩ :: rest
  | .cons e .nil, _, ts, rest => ∃ b, der g e 0 ts (⟨.rpar, b⟩ :: rest)
  | .cons e as, _, ts, rest =>
    ∃ b m, der g e 0 ts (⟨.comma, b⟩ :: m) ∧ ders g as false m rest
end

/-- The operator table of Zen-C, weakest first: assignments, the ternary, then these. -/
def table : List (List Op) := [
  [.asg, .asgB .add, .asgB .sub, .asgB .mul, .asgB .div, .asgB .rem, .asgB .bor, .asgB .band,
    .asgB .bxor, .asgB .shl, .asgB .shr, .asgB .qq],
  [],
  [.bin .or, .bin .qq],
  [.bin .and],
  [.bin .eq, .bin .ne],
  [.bin .lt, .bin .gt, .bin .le, .bin .ge],
  [.bin .add, .bin .sub, .bin .bor, .bin .bxor, .bin .band, .bin .shl, .bin .shr, .bin .pipe],
  [.bin .mul, .bin .div, .bin .rem]]

/-- C11 6.5.16p2: what may stand left of an assignment (6.3.2.1; parentheses keep it, 6.5.1p5) -/
def lvalue : Expr → Bool
  | .id _ | .idx _ _ | .mem _ _ _ => true
  | .un (.bin .mul) _ => true
  | .par e => lvalue e
  | _ => false

mutual
/-- every assignment in a C expression has something to assign to -/
def assignable : Expr → Bool
  | .id _ | .num _ => true
  | .par e | .un _ e | .post _ e | .tryE e | .mem _ e _ | .cast _ _ e | .lam _ e => assignable e
  | .bin o l r =>
    (match o with | .asg | .asgB _ => lvalue l | _ => true) && assignable l && assignable r
  | .tern c t f => assignable c && assignable t && assignable f
  | .call f as => assignable f && assignables as
  | .idx a i => assignable a && assignable i
/-- the same for arguments -/
def assignables : Args → Bool
  | .nil => true
  | .cons e as => assignable e && assignables as
end

mutual
/-- calls and increments in a tree, each as often as it is evaluated (for trees without `&&`, `||`
and ternaries, whose operands are all evaluated) -/
def effects : Expr → List Expr
  | .id _ | .num _ => []
  | .par e | .tryE e | .mem _ e _ | .cast _ _ e => effects e
  | .lam _ _ => []
  | .un o e => effects e ++ (if isInc o then [.un o e] else [])
  | .post o e => effects e ++ [.post o e]
  | .bin _ l r => effects l ++ effects r
  | .tern c t f => effects c ++ effects t ++ effects f
  | .call f as => effects f ++ effectss as ++ [.call f as]
  | .idx a i => effects a ++ effects i
/-- the same for arguments -/
def effectss : Args → List Expr
  | .nil => []
  | .cons e as => effects e ++ effectss as
end

end Spec

end Verif.Pratt
