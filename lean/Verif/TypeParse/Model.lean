import Verif.Forth.Model

/-!
# Types as they are written, and the names before `<` and `{`

Models, from `/repo/src/parser/parser_type.c`, `parse_type_base` and `parse_type_formal`; and from
`/repo/src/parser/parser_expr.c` (2296-2443) how a name followed by `<` is told apart from a
comparison.  `Lit.lean` has what follows: names before `{`.

The text is the list of its tokens.  The characters `>` and `=` are kept one by one with the white
space before them, for `>>`, `>=` and `>>=` are one token each to the lexer
(/repo/src/lexer/token.c:580-594) and `parse_type_base` takes `>>` apart again by moving on one
byte.  Simplified: white space is blanks (a comment between the brackets is not modelled);
an expression in brackets is read by a given function (`Env.size`), and so are names of other
modules (`Env.join`, `Env.resolve`: see the unit `Modules`); the instances made on the way are
left out (see the unit `Generics`), as are the buffers of mangled names.
-/

namespace Verif.TypeParse

/-- A text: its characters. -/
abbrev Str := Forth.Str

/-- A token (/repo/src/zprep.h:28-85), as far as types see it. -/
inductive Tok where
  | ident (n : Str)
  | num (n : Nat)
  /-- `<` alone: `TOK_LANGLE` -/
  | lt
  /-- `<<`, `<=` or `<<=`: a `TOK_OP` whose first character is `<` -/
  | ltOp
  /-- the character `>`, with the number of blanks before it -/
  | gt (gap : Nat)
  /-- the character `=`, with the number of blanks before it -/
  | eq (gap : Nat)
  | star
  | comma | semi | colon | dcolon | arrow
  | lbrack | rbrack | lparen | rparen | lbrace | rbrace
  /-- any other token -/
  | other (c : Char)
  deriving DecidableEq, Repr

/-- A type: `Type` of /repo/src/ast/ast.h:78-110. `prim` has the C type that is printed for it
(/repo/src/ast/ast.c:499-602); a slice is an array of size 0. -/
inductive Ty where
  | prim (c : Str)
  | bits (signed : Bool) (width : Nat)
  | named (explicit : Bool) (n : Str)
  | app (n : Str) (args : List Ty)
  | arr (t : Ty) (size : Int)
  | tup (ts : List Ty)
  | fn (raw : Bool) (args : List Ty) (ret : Ty)
  | ptr (t : Ty)
  | const (t : Ty)
  | restrict (t : Ty)
  | unknown

/-- How reading ends: with a result, with an error of the compiler (`zpanic_at`,
/repo/src/diagnostics/diagnostics.c:188-250), or not within the steps given (which does not
happen: `never_stuck`). -/
inductive R (α : Type) where
  | ok (a : α)
  | err
  | fuel

namespace R
/-- Go on with the result. -/
def bind {α β : Type} : R α → (α → R β) → R β
  | .ok a, f => f a
  | .err, _ => .err
  | .fuel, _ => .fuel

@[simp] theorem bind_ok {α β : Type} (a : α) (f : α → R β) : (R.ok a).bind f = f a := rfl
@[simp] theorem bind_err {α β : Type} (f : α → R β) : (R.err).bind f = .err := rfl
@[simp] theorem bind_fuel {α β : Type} (f : α → R β) : (R.fuel).bind f = .fuel := rfl
end R

/-- Tokens, with the blanks before a `>`. -/
def weight : List Tok → Nat
  | [] => 0
  | .gt g :: r => g + 1 + weight r
  | _ :: r => 1 + weight r

/-- What the reader of types knows. -/
structure Env where
  /-- `find_type_alias_node`, and the type its text is read as (parser_type.c:33-53) -/
  alias : Str → Option Ty
  /-- the struct whose methods are being read -/
  self : Option Str
  /-- `A::B`, parser_type.c:61-104 -/
  join : Str → Str → Str
  /-- names of imported files and modules, parser_type.c:520-547 -/
  resolve : Str → Str
  /-- `parse_expression`, `eval_const_int_expr` and `(int)`: nothing if one of them fails
  (parser_type.c:698-711 and 912-924) -/
  size : List Tok → Option (Int × List Tok)
  /-- a number is read as itself -/
  size_num : ∀ n r, n < 2147483648 → size (.num n :: .rbrack :: r) = some ((n : Int), .rbrack :: r)
  /-- expressions do not give tokens back -/
  size_le : ∀ ts k r, size ts = some (k, r) → weight r ≤ weight ts

/-- A digit. -/
def isDigit (c : Char) : Bool := '0' ≤ c && c ≤ '9'

/-- `atoi`, for numbers that fit -/
def atoi (ds : Str) : Nat := ds.foldl (fun a c => a * 10 + (c.toNat - '0'.toNat)) 0

/-- Names that are compared before the widths of `iN` and `uN`, with the C type printed for them:
parser_type.c:106-213 and /repo/src/ast/ast.c:505-563. -/
def early : List (Str × Str) := [
  ("U0".toList, "void".toList), ("u0".toList, "void".toList),
  ("I8".toList, "int8_t".toList), ("U8".toList, "uint8_t".toList),
  ("I16".toList, "int16_t".toList), ("U16".toList, "uint16_t".toList),
  ("I32".toList, "int32_t".toList), ("U32".toList, "uint32_t".toList),
  ("I64".toList, "int64_t".toList), ("U64".toList, "uint64_t".toList),
  ("F32".toList, "float".toList), ("f32".toList, "float".toList),
  ("F64".toList, "double".toList), ("f64".toList, "double".toList),
  ("usize".toList, "size_t".toList), ("isize".toList, "ptrdiff_t".toList),
  ("byte".toList, "uint8_t".toList),
  ("I128".toList, "__int128".toList), ("U128".toList, "unsigned __int128".toList),
  ("i8".toList, "int8_t".toList), ("u8".toList, "uint8_t".toList),
  ("i16".toList, "int16_t".toList)]

/-- Names that are compared after the widths: parser_type.c:287-509 and
/repo/src/ast/ast.c:505-590. (`u16` to `u128` of 287-321 never get here.) -/
def late : List (Str × Str) := [
  ("rune".toList, "int32_t".toList), ("uint".toList, "uint32_t".toList),
  ("int".toList, "int32_t".toList), ("float".toList, "float".toList),
  ("double".toList, "double".toList), ("void".toList, "void".toList),
  ("string".toList, "string".toList), ("bool".toList, "bool".toList),
  ("char".toList, "char".toList), ("long".toList, "int64_t".toList),
  ("short".toList, "int16_t".toList), ("unsigned".toList, "uint32_t".toList),
  ("signed".toList, "int32_t".toList),
  ("int8_t".toList, "int8_t".toList), ("uint8_t".toList, "uint8_t".toList),
  ("int16_t".toList, "int16_t".toList), ("uint16_t".toList, "uint16_t".toList),
  ("int32_t".toList, "int32_t".toList), ("uint32_t".toList, "uint32_t".toList),
  ("int64_t".toList, "int64_t".toList), ("uint64_t".toList, "uint64_t".toList),
  ("size_t".toList, "size_t".toList), ("ssize_t".toList, "ptrdiff_t".toList),
  ("c_int".toList, "int".toList), ("c_uint".toList, "unsigned int".toList),
  ("c_long".toList, "long".toList), ("c_ulong".toList, "unsigned long".toList),
  ("c_long_long".toList, "long long".toList),
  ("c_ulong_long".toList, "unsigned long long".toList),
  ("c_short".toList, "short".toList), ("c_ushort".toList, "unsigned short".toList),
  ("c_char".toList, "char".toList), ("c_uchar".toList, "unsigned char".toList)]

/-- `strcmp` with one name after the other. -/
def look (n : Str) : List (Str × Str) → Option Str
  | [] => none
  | (k, c) :: l => if n = k then some c else look n l

/-- The standard widths: parser_type.c:230-278. -/
def width (signed : Bool) (w : Nat) : Ty :=
  if w = 8 then .prim (if signed then "int8_t".toList else "uint8_t".toList)
  else if w = 16 then .prim (if signed then "int16_t".toList else "uint16_t".toList)
  else if w = 32 then .prim (if signed then "int32_t".toList else "uint32_t".toList)
  else if w = 64 then .prim (if signed then "int64_t".toList else "uint64_t".toList)
  else if w = 128 then .prim (if signed then "__int128".toList else "unsigned __int128".toList)
  else .bits signed w

/-- `iN` and `uN`: parser_type.c:215-286. -/
def bitInt : Str → Option Ty
  | c :: d :: ds =>
      if (c = 'i' ∨ c = 'u') ∧ isDigit d = true then
        if (d :: ds).all isDigit = true ∧ 0 < atoi (d :: ds)
        then some (width (c == 'i') (atoi (d :: ds)))
        else none
      else none
  | _ => none

/-- The primitive types: parser_type.c:106-509. -/
def prim (n : Str) : Option Ty :=
  match look n early with
  | some c => some (.prim c)
  | none =>
    match bitInt n with
    | some t => some t
    | none => (look n late).map .prim

/-- The closing `>` of a list of types, parser_type.c:587-602 and 643-659: a `>` is taken; of a
`>>` the reader moves on one byte, which is a blank if there is one before it. -/
def close : List Tok → Option (List Tok)
  | .gt _ :: .gt 0 :: .eq 0 :: _ => none
  | .gt 0 :: .gt 0 :: r => some (.gt 0 :: r)
  | .gt (g + 1) :: .gt 0 :: r => some (.gt g :: .gt 0 :: r)
  | .gt _ :: .eq 0 :: _ => none
  | .gt _ :: r => some r
  | _ => none

/-- `while (peek == TOK_OP && *start == '*')`, parser_type.c:881-885 and 823-827; `*=` is a token
that begins with `*`. -/
def stars : List Tok → Nat × List Tok
  | .star :: .eq 0 :: r => let (n, r') := stars r; (n + 1, r')
  | .star :: r => let (n, r') := stars r; (n + 1, r')
  | r => (0, r)

/-- One pointer for each star. -/
def ptrs : Nat → Ty → Ty
  | 0, t => t
  | n + 1, t => ptrs n (.ptr t)

/-- `while (peek == TOK_COMMA)`, parser_type.c:572-580, 749-764 and 848-863: the types after the
first. `k` bounds the number of turns. -/
def more (P : List Tok → R (Ty × List Tok)) : Nat → List Tok → R (List Ty × List Tok)
  | 0, .comma :: _ => .fuel
  | k + 1, .comma :: r =>
      (P r).bind fun (t, r) => (more P k r).bind fun (ts, r) => .ok (t :: ts, r)
  | _, r => .ok ([], r)

/-- A list of types, at least one. -/
def list (P : List Tok → R (Ty × List Tok)) (ts : List Tok) : R (List Ty × List Tok) :=
  (P ts).bind fun (t, r) => (more P (weight r) r).bind fun (l, r) => .ok (t :: l, r)

/-- `A::B::C`, parser_type.c:61-104. -/
def path (env : Env) (n : Str) : List Tok → R (Str × List Tok)
  | .dcolon :: .ident m :: r => path env (env.join n m) r
  | .dcolon :: _ => .err
  | r => .ok (n, r)

/-- Words that `parse_type_base` takes for themselves. -/
def kwStruct : Str := "struct".toList
/-- `enum` -/
def kwEnum : Str := "enum".toList
/-- `Self` -/
def kwSelf : Str := "Self".toList
/-- `fn` -/
def kwFn : Str := "fn".toList
/-- `const` -/
def kwConst : Str := "const".toList
/-- `restrict` -/
def kwRestrict : Str := "restrict".toList

/-- A name, after `struct` or `enum` has been taken: parser_type.c:29-683. -/
def name (env : Env) (P : List Tok → R (Ty × List Tok)) (explicit : Bool) (n : Str)
    (r : List Tok) : R (Ty × List Tok) :=
  match env.alias n with
  | some t => .ok (t, r)
  | none =>
    (path env (if n = kwSelf then env.self.getD n else n) r).bind fun (n, r) =>
    match prim n with
    | some t => .ok (t, r)
    | none =>
      match r with
      | .lt :: r | .ltOp :: r =>
          (list P r).bind fun (args, r) =>
          match close r with
          | some r => .ok (.app (env.resolve n) args, r)
          | none => .err
      | _ => .ok (.named explicit (env.resolve n), r)

/-- `parse_type_base`, parser_type.c:6-792. -/
def base (env : Env) (P : List Tok → R (Ty × List Tok)) (ts : List Tok) : R (Ty × List Tok) :=
  match ts with
  | .ident n :: r =>
      if n = kwStruct ∨ n = kwEnum then
        match r with
        | .ident m :: r => name env P (n == kwStruct) m r
        | _ => .err
      else name env P false n r
  | .lbrack :: r =>
      (P r).bind fun (t, r) =>
      match r with
      | .semi :: r =>
          match env.size r with
          | some (k, .rbrack :: r) => .ok (.arr t k, r)
          | _ => .err
      | .rbrack :: r => .ok (.arr t 0, r)
      | _ => .err
  | .lparen :: r =>
      (list P r).bind fun (l, r) =>
      match r with
      | .rparen :: r => .ok (.tup l, r)
      | _ => .err
  | _ => .ok (.unknown, ts)

/-- The arguments of a function type, parser_type.c:848-864. -/
def fnArgs (P : List Tok → R (Ty × List Tok)) : List Tok → R (List Ty × List Tok)
  | .rparen :: r => .ok ([], .rparen :: r)
  | r => fnList P (weight r + 1) r
where
  /-- one argument after the other; a comma before `)` ends them -/
  fnList (P : List Tok → R (Ty × List Tok)) : Nat → List Tok → R (List Ty × List Tok)
  | 0, _ => .fuel
  | k + 1, r =>
      (P r).bind fun (t, r) =>
      match r with
      | .comma :: .rparen :: r => .ok ([t], .rparen :: r)
      | .comma :: r => (fnList P k r).bind fun (ts, r) => .ok (t :: ts, r)
      | r => .ok ([t], r)

/-- A function type after `fn`, parser_type.c:819-874. -/
def fnType (P : List Tok → R (Ty × List Tok)) (r : List Tok) : R (Ty × List Tok) :=
  let (n, r) := stars r
  match r with
  | .lparen :: r =>
      (fnArgs P r).bind fun (args, r) =>
      match r with
      | .rparen :: .arrow :: r =>
          (P r).bind fun (t, r) => .ok (ptrs (n - 1) (.fn (0 < n) args t), r)
      | .rparen :: r => .ok (ptrs (n - 1) (.fn (0 < n) args (.prim "void".toList)), r)
      | _ => .err
  | _ => .err

/-- Sizes in brackets behind a type, parser_type.c:887-931. -/
def dims (env : Env) : Nat → List Tok → R (List Int × List Tok)
  | 0, .lbrack :: _ => .fuel
  | k + 1, .lbrack :: .rbrack :: r =>
      (dims env k r).bind fun (ds, r) => .ok (0 :: ds, r)
  | k + 1, .lbrack :: r =>
      match env.size r with
      | some (n, .rbrack :: r) => (dims env k r).bind fun (ds, r) => .ok (n :: ds, r)
      | _ => .err
  | _, r => .ok ([], r)

/-- Arrays from the last bracket to the first, parser_type.c:933-939. -/
def arrs : List Int → Ty → Ty
  | [], t => t
  | n :: ds, t => .arr (arrs ds t) n

/-- `const` and `restrict`, parser_type.c:799-811. -/
def qual : List Tok → (Ty → Ty) × List Tok
  | .ident n :: r =>
      if n = kwRestrict then (.restrict, r)
      else if n = kwConst then (.const, r)
      else (id, .ident n :: r)
  | r => (id, r)

/-- The type without stars and brackets behind it, parser_type.c:815-879. -/
def core (env : Env) (P : List Tok → R (Ty × List Tok)) (ts : List Tok) : R (Ty × List Tok) :=
  match ts with
  | .ident n :: r => if n = kwFn then fnType P r else base env P ts
  | _ => base env P ts

/-- `parse_type_formal`, parser_type.c:794-956, over the types inside (`P`). -/
def step (env : Env) (P : List Tok → R (Ty × List Tok)) (ts : List Tok) : R (Ty × List Tok) :=
  let (q, ts) := qual ts
  (core env P ts).bind fun (t, r) =>
  let (n, r) := stars r
  (dims env (weight r) r).bind fun (ds, r) => .ok (q (arrs ds (ptrs n t)), r)

/-- `parse_type_formal` with types nested up to `k` deep. -/
def formal (env : Env) : Nat → List Tok → R (Ty × List Tok)
  | 0, _ => .fuel
  | k + 1, ts => step env (formal env k) ts

/-- `parse_type_formal`, parser_type.c:794-956: nesting is bounded by the text. -/
def parse (env : Env) (ts : List Tok) : R (Ty × List Tok) := formal env (weight ts + 1) ts

/-! ## A name followed by `<` -/

/-- The next token is a single `>`: `TOK_RANGLE`. -/
def rangle : List Tok → Bool
  | .gt _ :: .gt 0 :: _ => false
  | .gt _ :: .eq 0 :: _ => false
  | .gt _ :: _ => true
  | _ => false

/-- The look ahead behind `<`, parser_expr.c:2298-2318 (and 6190-6212 for methods): types with
commas between them, and a `>`. -/
def ahead (env : Env) (ts : List Tok) : R Bool :=
  (list (parse env) ts).bind fun (_, r) => .ok (rangle r)

/-- What becomes of `name < …`. -/
inductive Outcome where
  /-- the `<` is left for a comparison -/
  | compare
  /-- a generic type or function with its arguments -/
  | generic (args : List Ty) (rest : List Tok)
  /-- the compiler stops with an error -/
  | error
  /-- the compiler writes behind its array of 8 arguments -/
  | overrun

/-- `name <`, parser_expr.c:2296-2436. `template` says whether the name is that of a generic type or
function (2343-2358 and 2417-2428). -/
def langle (env : Env) (template : Str → Bool) (acc : Str) (ts : List Tok) : Outcome :=
  match ahead env ts with
  | .ok false => .compare
  | .ok true =>
      match list (parse env) ts with
      | .ok (args, .gt _ :: r) =>
          if 8 < args.length then .overrun
          else if template acc then .generic args r else .error
      | _ => .error
  | _ => .error

/-! ## What is meant: types as they may be written -/

namespace Spec

mutual
/-- A type as it is written: a qualifier, a core, stars and sizes. -/
inductive W where
  | mk (q : Option Bool) (c : Core) (stars : Nat) (dims : List (Option Nat))
/-- A type without stars and sizes behind it. -/
inductive Core where
  | name (n : Str)
  /-- `struct n` -/
  | tag (n : Str)
  /-- `n<args>`, with blanks before the `>` -/
  | app (n : Str) (args : Ws) (gap : Nat)
  | slice (t : W)
  | arr (t : W) (n : Nat)
  | tup (ts : Ws)
  | fn (stars : Nat) (args : Args) (ret : Ret)
/-- Types with commas between them. -/
inductive Ws where
  | one (t : W)
  | more (t : W) (ts : Ws)
/-- The arguments of a function type. -/
inductive Args where
  | none
  | some (ts : Ws)
/-- The result of a function type. -/
inductive Ret where
  | void
  | some (t : W)
end

/-- `const` and `restrict` -/
def qualToks : Option Bool → List Tok
  | none => []
  | some true => [.ident "const".toList]
  | some false => [.ident "restrict".toList]

/-- `[n]` and `[]` -/
def dimToks : List (Option Nat) → List Tok
  | [] => []
  | none :: ds => .lbrack :: .rbrack :: dimToks ds
  | some n :: ds => .lbrack :: .num n :: .rbrack :: dimToks ds

/-- `n` stars -/
def starToks : Nat → List Tok
  | 0 => []
  | n + 1 => .star :: starToks n

mutual
/-- The tokens of a type. -/
def W.toks : W → List Tok
  | .mk q c s d => qualToks q ++ (c.toks ++ (starToks s ++ dimToks d))
/-- The tokens of a core. -/
def Core.toks : Core → List Tok
  | .name n => [.ident n]
  | .tag n => [.ident "struct".toList, .ident n]
  | .app n args gap => .ident n :: .lt :: (args.toks ++ [.gt gap])
  | .slice t => .lbrack :: (t.toks ++ [.rbrack])
  | .arr t n => .lbrack :: (t.toks ++ [.semi, .num n, .rbrack])
  | .tup ts => .lparen :: (ts.toks ++ [.rparen])
  | .fn s args ret => .ident "fn".toList :: (starToks s ++ .lparen :: (args.toks ++ .rparen :: ret.toks))
/-- The tokens of a list. -/
def Ws.toks : Ws → List Tok
  | .one t => t.toks
  | .more t ts => t.toks ++ .comma :: ts.toks
/-- The tokens of the arguments. -/
def Args.toks : Args → List Tok
  | .none => []
  | .some ts => ts.toks
/-- The tokens of the result. -/
def Ret.toks : Ret → List Tok
  | .void => []
  | .some t => .arrow :: t.toks
end

/-- A qualifier of a type. -/
def qualTy : Option Bool → Ty → Ty
  | none, t => t
  | some true, t => .const t
  | some false, t => .restrict t

/-- `n` pointers -/
def ptrTy : Nat → Ty → Ty
  | 0, t => t
  | n + 1, t => .ptr (ptrTy n t)

/-- `t[a][b]`: `a` arrays of `b` elements; `[]` is a slice. -/
def dimTy : List (Option Nat) → Ty → Ty
  | [], t => t
  | d :: ds, t => .arr (dimTy ds t) (((d.getD 0 : Nat) : Int))

mutual
/-- The type that is written, if names mean `nm` and heads of generic types `hd`. -/
def W.ty (nm : Bool → Str → Ty) (hd : Str → Str) : W → Ty
  | .mk q c s d => qualTy q (dimTy d (ptrTy s (c.ty nm hd)))
/-- The type a core is. -/
def Core.ty (nm : Bool → Str → Ty) (hd : Str → Str) : Core → Ty
  | .name n => nm false n
  | .tag n => nm true n
  | .app n args _ => .app (hd n) (args.ty nm hd)
  | .slice t => .arr (t.ty nm hd) 0
  | .arr t n => .arr (t.ty nm hd) n
  | .tup ts => .tup (ts.ty nm hd)
  | .fn s args ret => ptrTy (s - 1) (.fn (0 < s) (args.ty nm hd) (ret.ty nm hd))
/-- The types of a list. -/
def Ws.ty (nm : Bool → Str → Ty) (hd : Str → Str) : Ws → List Ty
  | .one t => [t.ty nm hd]
  | .more t ts => t.ty nm hd :: ts.ty nm hd
/-- The types of the arguments. -/
def Args.ty (nm : Bool → Str → Ty) (hd : Str → Str) : Args → List Ty
  | .none => []
  | .some ts => ts.ty nm hd
/-- The type of the result. -/
def Ret.ty (nm : Bool → Str → Ty) (hd : Str → Str) : Ret → Ty
  | .void => .prim "void".toList
  | .some t => t.ty nm hd
end

/-- Words that cannot be names of types. -/
def word (n : Str) : Bool :=
  n == "struct".toList || n == "enum".toList || n == "fn".toList || n == "const".toList
    || n == "restrict".toList || n == "Self".toList

/-- What a type ends with, as far as the next token matters. -/
inductive Last where
  | plain
  | star
  | gt (gap : Nat)

mutual
/-- What a type ends with. -/
def W.last : W → Last
  | .mk _ _ _ (_ :: _) => .plain
  | .mk _ _ (_ + 1) [] => .star
  | .mk _ c 0 [] => c.last
/-- What a core ends with. -/
def Core.last : Core → Last
  | .app _ _ g => .gt g
  | .fn _ _ r => r.last
  | _ => .plain
/-- What a result ends with. -/
def Ret.last : Ret → Last
  | .void => .plain
  | .some t => t.last
end

/-- What a list ends with. -/
def Ws.last : Ws → Last
  | .one t => t.last
  | .more _ ts => ts.last

/-- A `>` may follow, `gap` blanks behind: the `>>` this makes is written without blanks. -/
def Last.closes : Last → Nat → Prop
  | .gt g, 0 => g = 0
  | _, _ => True

mutual
/-- Types that are written as the documentation has them: sizes are small, names are no key words,
heads of generic types are no primitive types, stars and sizes are not put behind the result of a
function, and `>>` has no blanks before it. -/
def W.good (plain : Str → Prop) : W → Prop
  | .mk _ c s d => c.good plain ∧ (∀ n ∈ d, n.getD 0 < 2147483648) ∧ (c.open = true → s = 0 ∧ d = [])
/-- The same, for a core. -/
def Core.good (plain : Str → Prop) : Core → Prop
  | .name n => word n = false
  | .tag n => word n = false
  | .app n args g => word n = false ∧ plain n ∧ args.good plain ∧ args.last.closes g
  | .slice t => t.good plain
  | .arr t n => t.good plain ∧ n < 2147483648
  | .tup ts => ts.good plain
  | .fn _ args ret => args.good plain ∧ ret.good plain
/-- The same, for a list. -/
def Ws.good (plain : Str → Prop) : Ws → Prop
  | .one t => t.good plain
  | .more t ts => t.good plain ∧ ts.good plain
/-- The same, for arguments. -/
def Args.good (plain : Str → Prop) : Args → Prop
  | .none => True
  | .some ts => ts.good plain
/-- The same, for a result. -/
def Ret.good (plain : Str → Prop) : Ret → Prop
  | .void => True
  | .some t => t.good plain
/-- What is behind it would belong to the result: a function with a result. -/
def Core.open : Core → Bool
  | .fn _ _ r => r.given
  | _ => false
/-- There is a result. -/
def Ret.given : Ret → Bool
  | .void => false
  | .some _ => true
end

/-- What may follow a type: nothing that goes on with it, and no `=` or `>` that joins its end. -/
def follows (l : Last) : List Tok → Prop
  | .star :: _ | .lbrack :: _ | .lt :: _ | .ltOp :: _ | .dcolon :: _ | .arrow :: _ => False
  | .eq 0 :: _ => l = .plain
  | .gt 0 :: .eq 0 :: _ => l = .plain ∨ l = .star
  | .gt 0 :: _ => l.closes 0
  | _ => True

end Spec
end Verif.TypeParse
