import Verif.Basic

/-!
# Heads of lambdas: model

How `parse_primary` tells a lambda from another expression and reads its captures, parameters and
types (src/parser/parser_expr.c).  There are four places: `fn[..](..) -> T {`, `x -> e` and
`x: T -> e`, `(a, b: T) -> e`, `[&] x -> e` and `[&](a, b: T) -> e`.

Simplified: the text is its list of tokens; types are read by an arbitrary function (`Lang.ty`,
`none` is a reported error) and written by another; the body is what is left of the tokens.
`panic` is `zpanic_at`; an array written behind its end is `ub`.
-/

namespace Verif.LambdaHead

/-- Tokens (src/zprep.h:28-85).  `->` and `=>` are both `TOK_ARROW` (src/lexer/token.c:574-578);
`fat` says which.  `amp`, `eq` are the operators of one byte. -/
inductive Tok where
  | ident (w : String) | amp | eq | lb | rb | lp | rp | colon | comma | arrow (fat : Bool) | la | ra
  | semi | lbrace | rbrace | other (n : Nat)
  deriving DecidableEq, Repr

/-- Types with the function that reads them (`parse_type_formal`) and the one that writes them -/
structure Lang where
  T : Type
  ty : List Tok → Option (T × List Tok)
  prT : T → List Tok

/-- `type == TOK_ARROW` -/
def isArrow : Tok → Bool
  | .arrow _ => true
  | _ => false

/-- the next token is an arrow -/
def atArrow : List Tok → Bool
  | t :: _ => isArrow t
  | [] => false

variable (L : Lang)

/-- What `parse_lambda` has read when it comes to the body -/
structure FnHead where
  caps : List (String × Bool)
  byRef : Bool
  params : List (String × L.T)
  ret : Option L.T

/-- The answer of `parse_primary` as far as lambdas are concerned: an arrow lambda with its
parameters, the default mode of capture and the tokens of the body; a `fn` lambda; something else. -/
inductive Out where
  | lam (params : List (String × Option L.T)) (byRef : Bool) (body : List Tok)
  | fn (h : FnHead L) (body : List Tok)
  | no

/-- the capture list behind `[` (src/parser/parser_expr.c:818-858): names with their mode (by
reference or not) and the default mode.  Both arrays have 32 cells (810-811). -/
def capLoop (acc : List (String × Bool)) (d : Bool) :
    List Tok → Res (List (String × Bool) × Bool × List Tok)
  | [] => .ok (acc, d, [])
  | .rb :: r => .ok (acc, d, .rb :: r)
  | .amp :: .ident x :: r =>
      if acc.length < 32 then
        match r with
        | .comma :: r' => capLoop (acc ++ [(x, true)]) d r'
        | r => .ok (acc ++ [(x, true)], d, r)
      else .ub
  | .amp :: r =>
      match r with
      | .comma :: r' => capLoop acc true r'
      | r => .ok (acc, true, r)
  | .eq :: r =>
      match r with
      | .comma :: r' => capLoop acc false r'
      | r => .ok (acc, false, r)
  | .ident x :: r =>
      if acc.length < 32 then
        match r with
        | .comma :: r' => capLoop (acc ++ [(x, false)]) d r'
        | r => .ok (acc ++ [(x, false)], d, r)
      else .ub
  | _ => .panic

/-- the optional capture list (src/parser/parser_expr.c:814-865) -/
def capList : List Tok → Res (List (String × Bool) × Bool × List Tok)
  | .lb :: r => do
      let (acc, d, r) ← capLoop [] false r
      match r with
      | .rb :: r => .ok (acc, d, r)
      | _ => .panic
  | r => .ok ([], false, r)

/-- `if (num_params > 0) { expect ',' }` (src/parser/parser_expr.c:883-891) -/
def needComma (first : Bool) : List Tok → Res (List Tok)
  | .comma :: r => if first then .ok (.comma :: r) else .ok r
  | r => if first then .ok r else .panic

/-- the parameters of `parse_lambda` behind `(` (src/parser/parser_expr.c:881-915).  The arrays have
16 cells (875-877).  The first argument bounds the rounds. -/
def fnParams : Nat → List (String × L.T) → List Tok → Res (List (String × L.T) × List Tok)
  | 0, _, _ => .panic
  | n + 1, acc, ts =>
      match ts with
      | .rp :: r => .ok (acc, r)
      | ts => do
          let ts ← needComma acc.isEmpty ts
          match ts with
          | .ident x :: r =>
              if acc.length < 16 then
                match r with
                | .colon :: r =>
                    match L.ty r with
                    | some (t, r) => fnParams n (acc ++ [(x, t)]) r
                    | none => .panic
                | _ => .panic
              else .ub
          | _ => .panic

/-- the return type (src/parser/parser_expr.c:918-926) -/
def fnRet : List Tok → Res (Option L.T × List Tok)
  | .arrow _ :: r =>
      match L.ty r with
      | some (t, r) => .ok (some t, r)
      | none => .panic
  | r => .ok (none, r)

/-- `parse_lambda` behind `fn` up to the body, which has to begin with a brace
(src/parser/parser_expr.c:805-943) -/
def fnHead (ts : List Tok) : Res (Out L) := do
  let (caps, d, ts) ← capList ts
  match ts with
  | .lp :: ts => do
      let (ps, ts) ← fnParams L (ts.length + 1) [] ts
      let (ret, ts) ← fnRet L ts
      match ts with
      | .lbrace :: _ => .ok (.fn ⟨caps, d, ps, ret⟩ ts)
      | _ => .panic
  | _ => .panic

/-- tokens that end the search for an arrow (src/parser/parser_expr.c:1953-1958) -/
def stops : Tok → Bool
  | .semi | .comma | .lbrace | .rbrace | .eq => true
  | _ => false

/-- is there an arrow outside of angle brackets (src/parser/parser_expr.c:1947-1976) -/
def arrowScan (angles : Nat) : List Tok → Bool
  | [] => false
  | t :: r =>
      if stops t then false
      else if t = .la then arrowScan (angles + 1) r
      else if t = .ra then arrowScan (angles - 1) r
      else if isArrow t && angles == 0 then true
      else arrowScan angles r

/-- `x -> e` (src/parser/parser_expr.c:1996-2000), behind the name -/
def bare (x : String) : List Tok → Res (Out L)
  | .arrow _ :: r => .ok (.lam [(x, none)] false r)
  | _ => .ok .no

/-- an identifier, behind the name (src/parser/parser_expr.c:1942-2000); macro calls are left out -/
def identHead (x : String) (r : List Tok) : Res (Out L) :=
  match r with
  | .colon :: r' =>
      if arrowScan 0 r' then
        match L.ty r' with
        | none => .panic
        | some (t, .arrow _ :: r'') => .ok (.lam [(x, some t)] false r'')
        | some _ => bare L x r
      else bare L x r
  | r => bare L x r

/-- `while (1)` over the type of a parameter (src/parser/parser_expr.c:3613-3621) -/
def skipTy : List Tok → List Tok
  | [] => []
  | .comma :: r => .comma :: r
  | .rp :: r => .rp :: r
  | _ :: r => skipTy r

/-- the optional type in the search (src/parser/parser_expr.c:3610-3622) -/
def skipAnn : List Tok → List Tok
  | .colon :: r => skipTy r
  | r => r

/-- The search for `) ->` behind `(` (src/parser/parser_expr.c:3586-3642): the names, if there is
one.  `params` has 16 cells (3582).  The first argument bounds the rounds. -/
def look : Nat → List String → List Tok → Res (Option (List String))
  | 0, _, _ => .panic
  | n + 1, names, ts =>
      match ts with
      | .ident x :: r =>
          if names.length < 16 then
            match skipAnn r with
            | .comma :: r' => look n (names ++ [x]) r'
            | .rp :: r' => .ok (if atArrow r' then some (names ++ [x]) else none)
            | _ => .ok none
          else .ub
      | .rp :: r => .ok (if names.isEmpty && atArrow r then some [] else none)
      | _ => .ok none

/-- the optional type (src/parser/parser_expr.c:3652-3656, 3942-3946) -/
def ann : List Tok → Res (Option L.T × List Tok)
  | .colon :: r =>
      match L.ty r with
      | some (t, r) => .ok (some t, r)
      | none => .panic
  | r => .ok (none, r)

/-- the second pass over the parameters (src/parser/parser_expr.c:3649-3664) -/
def again : List String → List (String × Option L.T) → List Tok → Res (List (String × Option L.T) × List Tok)
  | [], acc, ts => .ok (acc, ts)
  | x :: xs, acc, ts => do
      let (t, ts) ← ann L (ts.drop 1)
      match ts with
      | .rp :: r => .ok (acc ++ [(x, t)] ++ xs.map (fun y => (y, none)), r.drop 1)
      | ts => again xs (acc ++ [(x, t)]) (ts.drop 1)

/-- a parenthesis, behind it (src/parser/parser_expr.c:3578-3675) -/
def parenHead (r : List Tok) : Res (Out L) := do
  let names ← look (r.length + 1) [] r
  match names with
  | none => .ok .no
  | some [] => .ok (.lam [] false (r.drop 2))
  | some names => do
      let (ps, r) ← again L names [] r
      .ok (.lam ps false r)

/-- is the parenthesis followed by an arrow (src/parser/parser_expr.c:3896-3922) -/
def depthScan (d : Nat) : List Tok → Bool
  | [] => false
  | .lp :: r => depthScan (d + 1) r
  | .rp :: r => if d = 1 then atArrow r else depthScan (d - 1) r
  | _ :: r => depthScan d r

/-- the parameters behind `[&](` (src/parser/parser_expr.c:3932-3965).  The arrays have 16 cells
(3930-3931).  The first argument bounds the rounds. -/
def capParams : Nat → List (String × Option L.T) → List Tok → Res (List (String × Option L.T) × List Tok)
  | 0, _, _ => .panic
  | n + 1, acc, ts =>
      match ts with
      | .ident x :: r =>
          if acc.length < 16 then do
            let (t, r) ← ann L r
            match r with
            | .comma :: r => capParams n (acc ++ [(x, t)]) r
            | .rp :: r => .ok (acc ++ [(x, t)], r)
            | r => .ok (acc ++ [(x, t)], r)
          else .ub
      | ts => .ok (acc, ts)

/-- `[&]` or `[=]`, behind it (src/parser/parser_expr.c:3880-3977) -/
def capHead (byRef : Bool) : List Tok → Res (Out L)
  | .ident x :: .arrow _ :: body => .ok (.lam [(x, none)] byRef body)
  | .lp :: r =>
      if depthScan 0 (.lp :: r) then do
        let (ps, r) ← capParams L (r.length + 1) [] r
        match r with
        | .arrow _ :: body => .ok (.lam ps byRef body)
        | _ => .panic
      else .ok .no
  | _ => .ok .no

/-- a bracket, behind it (src/parser/parser_expr.c:3858-3981) -/
def bracketHead : List Tok → Res (Out L)
  | .amp :: .rb :: r => capHead L true r
  | .eq :: .rb :: r => capHead L false r
  | _ => .ok .no

/-- the next token is `(` or `[` -/
def atOpen : List Tok → Bool
  | .lp :: _ => true
  | .lb :: _ => true
  | _ => false

/-- `parse_primary` as far as lambdas are concerned (src/parser/parser_expr.c:1921-2000, 3578-3675,
3858-3981) -/
def primary : List Tok → Res (Out L)
  | .ident x :: r => if x = "fn" ∧ atOpen r then fnHead L r else identHead L x r
  | .lp :: r => parenHead L r
  | .lb :: r => bracketHead L r
  | _ => .ok .no

/-! ## How lambdas are written -/

namespace Spec
variable {L : Lang}

/-- one entry of a capture list: a name with its mode, or a default mode -/
inductive Item where
  | name (x : String) (byRef : Bool)
  | default (byRef : Bool)

/-- its text -/
def itemText : Item → List Tok
  | .name x true => [.amp, .ident x]
  | .name x false => [.ident x]
  | .default true => [.amp]
  | .default false => [.eq]

/-- entries between commas -/
def sepBy (text : α → List Tok) : List α → List Tok
  | [] => []
  | [a] => text a
  | a :: b :: l => text a ++ .comma :: sepBy text (b :: l)

/-- the names of a capture list with their modes -/
def names : List Item → List (String × Bool)
  | [] => []
  | .name x m :: l => (x, m) :: names l
  | .default _ :: l => names l

/-- the default mode: the last one written, by value if there is none -/
def mode (d : Bool) : List Item → Bool
  | [] => d
  | .name _ _ :: l => mode d l
  | .default m :: l => mode m l

/-- a parameter with its type, if it has one -/
def paramText (p : String × Option L.T) : List Tok :=
  match p.2 with
  | none => [.ident p.1]
  | some t => .ident p.1 :: .colon :: L.prT t

/-- the forms of a lambda without its body -/
inductive Form (L : Lang) where
  | bare (x : String)
  | typed (x : String) (t : L.T)
  | paren (ps : List (String × Option L.T))
  | capBare (byRef : Bool) (x : String)
  | capParen (byRef : Bool) (ps : List (String × Option L.T))
  | fn (caps : List Item) (ps : List (String × L.T)) (ret : Option L.T)

/-- `[&]` or `[=]` -/
def capText (byRef : Bool) : List Tok := [.lb, if byRef then .amp else .eq, .rb]

/-- `-> T` -/
def retText (ret : Option L.T) : List Tok :=
  match ret with
  | none => []
  | some t => .arrow false :: L.prT t

/-- the text of a lambda with the given body; a `fn` lambda without capture list is written with
the empty list of entries and no brackets -/
def text (body : List Tok) : Form L → List Tok
  | .bare x => .ident x :: .arrow false :: body
  | .typed x t => .ident x :: .colon :: (L.prT t ++ .arrow false :: body)
  | .paren ps => .lp :: (sepBy paramText ps ++ .rp :: .arrow false :: body)
  | .capBare m x => capText m ++ .ident x :: .arrow false :: body
  | .capParen m ps => capText m ++ .lp :: (sepBy paramText ps ++ .rp :: .arrow false :: body)
  | .fn caps ps ret =>
      .ident "fn" :: ((if caps.isEmpty then [] else .lb :: (sepBy itemText caps ++ [.rb])) ++
        .lp :: (sepBy paramText (ps.map fun p => (p.1, some p.2)) ++ .rp :: (retText ret ++ body)))

/-- what a lambda is to be read as -/
def meaning (body : List Tok) : Form L → Out L
  | .bare x => .lam [(x, none)] false body
  | .typed x t => .lam [(x, some t)] false body
  | .paren ps => .lam ps false body
  | .capBare m x => .lam [(x, none)] m body
  | .capParen m ps => .lam ps m body
  | .fn caps ps ret => .fn ⟨names caps, mode false caps, ps, ret⟩ body

/-- token lists in which `o` and `c` match and every other token satisfies `p` -/
inductive Nest (o c : Tok) (p : Tok → Prop) : List Tok → Prop
  | nil : Nest o c p []
  | cons {t r} : t ≠ o → t ≠ c → p t → Nest o c p r → Nest o c p (t :: r)
  | wrap {a b} : Nest o c p a → Nest o c p b → Nest o c p (o :: (a ++ c :: b))

/-- what may stand behind a type -/
def After (rest : List Tok) : Prop :=
  ∃ t r, rest = t :: r ∧ (t = .comma ∨ t = .rp ∨ t = .arrow false ∨ t = .lbrace)

/-- the written type is read back -/
def Reads (L : Lang) (t : L.T) : Prop := ∀ rest, After rest → L.ty (L.prT t ++ rest) = some (t, rest)

/-- a type that can stand in front of the arrow: angle brackets match, there is no comma, brace,
`;`, `=` or arrow in it -/
def Plain (L : Lang) (t : L.T) : Prop :=
  Nest .la .ra (fun k => k ≠ .semi ∧ k ≠ .comma ∧ k ≠ .lbrace ∧ k ≠ .rbrace ∧ k ≠ .eq ∧
    ∀ fat, k ≠ .arrow fat) (L.prT t)

/-- a type that can stand in a list in parentheses: no comma and no `)` in it -/
def Flat (L : Lang) (t : L.T) : Prop := Tok.comma ∉ L.prT t ∧ Tok.rp ∉ L.prT t

/-- a type in which parentheses match -/
def Closed (L : Lang) (t : L.T) : Prop := Nest .lp .rp (fun _ => True) (L.prT t)

/-- the lambdas that are read as written -/
def Good (body : List Tok) : Form L → Prop
  | .bare _ => True
  | .typed _ t => Reads L t ∧ Plain L t
  | .paren ps => ps.length ≤ 16 ∧ ∀ p ∈ ps, ∀ t, p.2 = some t → Reads L t ∧ Flat L t
  | .capBare _ _ => True
  | .capParen _ ps => ps ≠ [] ∧ ps.length ≤ 16 ∧ ∀ p ∈ ps, ∀ t, p.2 = some t → Reads L t ∧ Closed L t
  | .fn caps ps ret => (names caps).length ≤ 32 ∧ ps.length ≤ 16 ∧ (∀ p ∈ ps, Reads L p.2) ∧
      (∀ t, ret = some t → Reads L t) ∧ ∃ r, body = .lbrace :: r

end Spec

end Verif.LambdaHead
