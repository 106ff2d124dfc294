import Verif.Basic

/-!
# `opaque struct` and `opaque alias`

The parser refuses to read a field of an opaque struct, or to build one, in a file other than the
one that defines it; an opaque alias is a type of its own outside its file.  Both tests are made
while an expression is parsed, with the type the parser has worked out for it so far, so the model
follows the parser: one pass over the declarations in the order they are read (an imported file is
read at its `import`, parser_stmt.c:3851-3857), with the tables as they are at that point.

Not modelled: operator methods (unit `Overload`), lambdas, ternaries, tuples, ranges, the type
parameters of generic functions, `Async<T>` results, `.val()` on pointers, unions, enums, traits,
plain aliases (replaced by what they stand for when a type is read, parser_type.c:53), prefixes of
module names (unit `Modules`), forward declarations, the optional checker of `--typecheck`
(analysis/typecheck.c, off by default: main.c:552).
-/

namespace Verif.Opaque

/-- Types, `Type` (ast.h).  `int` stands for the integer kinds except `char`, `flt` for the floating
ones; `unk` is TYPE_UNKNOWN; `arr 0 t` a slice; `alias n f t` the wrapper made for the opaque alias
`n` of `t` defined in file `f` (parser_type.c:40-50). -/
inductive Ty where
  | int | chr | flt | str | void | unk
  | struct (n : String)
  | ptr (t : Ty)
  | arr (k : Nat) (t : Ty)
  | alias (n file : String) (t : Ty)
  deriving DecidableEq, Repr

/-- Expressions.  `mem` is a field reached by `.`, `->` or `?.`; `mcall` a call `e.m(args)`; `lit` a
struct literal; `bin false` an assignment or arithmetic, `bin true` a comparison.  Lists of arguments
and of fields of literals are built with `nil` and `cons`. -/
inductive Expr where
  | num | text
  | var (x : String)
  | call (g : String) (args : Expr)
  | mem (e : Expr) (x : String)
  | mcall (e : Expr) (m : String) (args : Expr)
  | addr (e : Expr)
  | deref (e : Expr)
  | idx (e i : Expr)
  | lit (n : String) (fields : Expr)
  | cast (t : Ty) (e : Expr)
  | bin (cmp : Bool) (a b : Expr)
  | nil
  | cons (label : String) (e rest : Expr)
  deriving DecidableEq, Repr

/-- Statements: `let x: T = e`, `let {f: v, …} = e`, an expression, `return e` (control flow is left
out: the parser reads every branch in the same way). -/
inductive Stmt where
  | bind (x : String) (t : Option Ty) (e : Expr)
  | split (ns : List (String × String)) (e : Expr)
  | expr (e : Expr)
  | ret (e : Expr)
  deriving DecidableEq, Repr

/-- Declarations.  `inst tpl n fs` is the moment the struct `n` is made from the template `tpl`; its
fields `fs` have the type arguments filled in (unit `GenBody`).  A method `m` of `S` is the function
`S__m` with the parameter `self`. -/
inductive Decl where
  | struct (n : String) (opaq : Bool) (fields : List (String × Ty))
  | template (n : String) (opaq : Bool)
  | inst (tpl n : String) (fields : List (String × Ty))
  | fn (n : String) (params : List (String × Ty)) (ret : Ty) (body : List Stmt)
  deriving DecidableEq, Repr

/-- A struct as the parser keeps it (`strct` of ASTNode: is_opaque, defined_in_file, fields). -/
structure SDef where
  name : String
  opaq : Bool
  file : Option String
  fields : List (String × Ty)
  deriving DecidableEq, Repr

/-- `FuncSig`: name and result. -/
structure Sig where
  name : String
  ret : Ty
  deriving DecidableEq, Repr

/-- The tables of `ParserContext`. -/
structure Env where
  structs : List SDef
  funs : List Sig
  deriving DecidableEq, Repr

/-- `find_struct_def` (parser_utils.c:1071-1126): the newest entry. -/
def findStruct (l : List SDef) (n : String) : Option SDef := l.find? (fun d => d.name == n)

/-- `find_func` (parser_utils.c): the newest entry. -/
def findFun (l : List Sig) (n : String) : Option Sig := l.find? (fun d => d.name == n)

/-- `resolve_struct_name_from_type` (parser_expr.c:4413-): a struct or a pointer to one; opaque
aliases, arrays and pointers to pointers have no name (plain aliases and type arguments left out). -/
def nameOf : Ty → Option String
  | .struct n => some n
  | .ptr (.struct n) => some n
  | _ => none

/-- The test `def->strct.is_opaque && (!defined_in_file || strcmp(...) != 0)` (parser_expr.c:2617-2623,
5211-5217, 5265-5271, 6043-6049) in file `f`: true when the parser stops. -/
def shut (E : Env) (f n : String) : Bool :=
  match findStruct E.structs n with
  | some d => d.opaq && !(d.file == some f)
  | none => false

/-- The same for an expression of type `t`; NULL and nameless types are let through
(parser_expr.c:5208-5210, 5262-5264, 6040-6042). -/
def blocked (E : Env) (f : String) (t : Option Ty) : Bool :=
  match t.bind nameOf with
  | some n => shut E f n
  | none => false

/-- `get_field_type` (parser_expr.c:4272-4330). -/
def fieldTy (l : List SDef) (t : Option Ty) (x : String) : Option Ty :=
  match t with
  | none => none
  | some (.arr k t) =>
    if x = "len" then some .int
    else if k = 0 then
      if x = "cap" then some .int else if x = "data" then some (.ptr t) else none
    else none
  | some t => (nameOf t).bind fun n => (findStruct l n).bind fun d => d.fields.lookup x

/-- The result of a method call: the function `S__m` (parser_expr.c:6120-6175, 5655-5670). -/
def methodTy (l : List Sig) (t : Option Ty) (m : String) : Option Ty :=
  (t.bind nameOf).bind fun n => (findFun l (n ++ "__" ++ m)).map Sig.ret

/-- `is_integer_type` (ast.c:112-137). -/
def isInt : Ty → Bool
  | .int | .chr => true
  | _ => false

/-- `type_eq` (ast.c:149-219). -/
def typeEq : Ty → Ty → Bool
  | .unk, _ => true
  | _, .unk => true
  | .int, .int | .int, .chr | .chr, .int | .chr, .chr => true
  | .flt, .flt => true
  | .str, .ptr .chr => true
  | .ptr .chr, .str => true
  | .str, .str => true
  | .void, .void => true
  | .struct a, .struct b => a == b
  | .alias a _ _, .alias b _ _ => a == b
  | .ptr a, .ptr b => typeEq a b
  | .arr k a, .arr l b => k == l && typeEq a b
  | _, _ => false

/-- `check_opaque_alias_compat` (parser_expr.c:3-41) in file `f`. -/
def compat (f : String) : Ty → Ty → Bool
  | .alias _ d i, b => if d = f then compat f i b else false
  | a, .alias _ d i => if d = f then compat f a i else false
  | _, _ => true
termination_by a b => sizeOf a + sizeOf b

/-- The test of `let` (parser_decl.c:708-722) and of assignments and arithmetic
(parser_expr.c:6985-7190): the remaining cases of the latter (same struct name, pointer arithmetic,
NULL, mixed numbers) are never reached with an opaque alias on either side, and without one `compat`
has already said yes. -/
def fits (f : String) (a b : Ty) : Bool := typeEq a b || compat f a b

/-- The name of a type is one capital letter, taken for a type parameter (parser_expr.c:6929-6933;
`type_to_string` of structs and aliases is their name). -/
def letter : Ty → Bool
  | .struct n | .alias n _ _ => match n.toList with
    | [c] => c.isUpper
    | _ => false
  | _ => false

/-- Pointer or string (parser_expr.c:6938-6943). -/
def isPtr : Ty → Bool
  | .ptr _ | .str => true
  | _ => false

/-- The test of comparisons (parser_expr.c:6916-6980); the literal 0 is `z` for the left and the
right operand. -/
def comparable (a b : Ty) (za zb : Bool) : Bool :=
  decide (a = .ptr .void) || decide (b = .ptr .void) || letter a || letter b ||
  (isPtr a && zb) || (isPtr b && za) || typeEq a b ||
  ((isInt a || decide (a = .flt)) && (isInt b || decide (b = .flt)))

/-- What `e` points at, if it is a pointer (parser_expr.c:5041-5047). -/
def pointee : Ty → Option Ty
  | .ptr t => some t
  | _ => none

/-- The type of an indexed value (parser_expr.c:4215-4252, 6005-6014); `int` for anything else. -/
def elemTy : Option Ty → Ty
  | some (.arr _ t) => t
  | some (.ptr t) => t
  | _ => .int

/-- Parse an expression in file `f` with the variables `Γ` (newest first; a variable may have no
type): `none` when the parser stops with an error, otherwise `type_info`, which may be NULL.
parser_expr.c: names 3545-3550, calls 2956-3325 (arguments are not compared with parameters; an
unknown function gives NULL, 3326-3330, 3528), fields 5183-5285 and 6022-6180, method calls
5290-5670, `&` and `*` 5035-5052, index 4130-4255, literals 2616-2634, casts 3717-3733, operators
6857-7195. -/
def check (E : Env) (f : String) (Γ : List (String × Option Ty)) : Expr → Option (Option Ty)
  | .num => some (some .int)
  | .text => some (some .str)
  | .var x => some (Γ.lookup x).join
  | .call g a => (check E f Γ a).map fun _ => (findFun E.funs g).map Sig.ret
  | .mem e x => (check E f Γ e).bind fun t =>
      if blocked E f t then none else some (fieldTy E.structs t x)
  | .mcall e m a => (check E f Γ e).bind fun t =>
      if blocked E f t then none else (check E f Γ a).map fun _ => methodTy E.funs t m
  | .addr e => (check E f Γ e).map (Option.map Ty.ptr)
  | .deref e => (check E f Γ e).map fun t => t.bind pointee
  | .idx e i => (check E f Γ e).bind fun t => (check E f Γ i).map fun _ => some (elemTy t)
  | .lit n fs => if shut E f n then none else (check E f Γ fs).map fun _ => some (.struct n)
  | .cast t e => (check E f Γ e).map fun _ => some t
  | .bin c a b => (check E f Γ a).bind fun ta => (check E f Γ b).bind fun tb =>
      match ta, tb with
      | some x, some y =>
        if c then if comparable x y (decide (a = .num)) (decide (b = .num)) then some (some .int) else none
        else if fits f x y then some (some x) else none
      | _, _ => some none
  | .nil => some none
  | .cons _ e r => (check E f Γ e).bind fun _ => (check E f Γ r).map fun _ => none

/-- Parse a body.  `let` (parser_decl.c:590-722) compares the type written with the one found and
records the former, or the latter if none is written; the variables of `let {…}` get no type and
nothing is tested (parser_decl.c:329-446); `return` is not compared with the result
(parser_stmt.c:1023-). -/
def checkBody (E : Env) (f : String) : List (String × Option Ty) → List Stmt → Bool
  | _, [] => true
  | Γ, .bind x T e :: r =>
    match check E f Γ e with
    | none => false
    | some t =>
      match T, t with
      | some T, some t => fits f T t && checkBody E f ((x, some T) :: Γ) r
      | some T, none => checkBody E f ((x, some T) :: Γ) r
      | none, t => checkBody E f ((x, t) :: Γ) r
  | Γ, .split ns e :: r =>
    match check E f Γ e with
    | none => false
    | some _ => checkBody E f (ns.map (fun p => (p.2, none)) ++ Γ) r
  | Γ, .expr e :: r =>
    match check E f Γ e with
    | none => false
    | some _ => checkBody E f Γ r
  | Γ, .ret e :: r =>
    match check E f Γ e with
    | none => false
    | some _ => checkBody E f Γ r

/-- Enter a declaration of file `f`: structs (parser_struct.c:1049-1065), instances, which get neither
`is_opaque` nor a file (parser_utils.c:3153-3178), functions (parser_decl.c:144). -/
def declare (E : Env) (f : String) : Decl → Env
  | .struct n o fs => { E with structs := ⟨n, o, some f, fs⟩ :: E.structs }
  | .template _ _ => E
  | .inst _ n fs => { E with structs := ⟨n, false, none, fs⟩ :: E.structs }
  | .fn n _ r _ => { E with funs := ⟨n, r⟩ :: E.funs }

/-- Parse the declarations in order; a function is entered before its body. -/
def accepts (E : Env) : List (String × Decl) → Bool
  | [] => true
  | (f, d) :: r =>
    let E' := declare E f d
    (match d with
     | .fn _ ps _ body => checkBody E' f (ps.map fun p => (p.1, some p.2)) body
     | _ => true) && accepts E' r

/-! ## What is expected -/

namespace Spec

/-- A program: files and what they declare, in the order it is read. -/
abbrev Program := List (String × Decl)

/-- The structs of a program, the newest first.  An instance is as opaque as its template, and
belongs to the file of the template. -/
def struct? (P : Program) : String × Decl → Option SDef
  | (f, .struct n o fs) => some ⟨n, o, some f, fs⟩
  | (_, .inst t n fs) =>
    match P.find? (fun p => match p.2 with | .template m _ => m == t | _ => false) with
    | some (g, .template _ o) => some ⟨n, o, some g, fs⟩
    | _ => some ⟨n, false, none, fs⟩
  | _ => none

/-- The functions of a program. -/
def fun? : String × Decl → Option Sig
  | (_, .fn n _ r _) => some ⟨n, r⟩
  | _ => none

/-- All of them. -/
structure World where
  structs : List SDef
  funs : List Sig

/-- The world of a program. -/
def world (P : Program) : World :=
  ⟨P.reverse.filterMap (struct? P), P.reverse.filterMap fun?⟩

/-- The struct `n` is opaque and belongs to another file than `f`. -/
def Foreign (W : World) (f n : String) : Prop :=
  ∃ d, W.structs.find? (fun d => d.name == n) = some d ∧ d.opaq = true ∧ d.file ≠ some f

/-- The C type: aliases are what they stand for. -/
def strip : Ty → Ty
  | .ptr t => .ptr (strip t)
  | .arr k t => .arr k (strip t)
  | .alias _ _ t => strip t
  | t => t

/-- The struct whose fields `.` and `->` reach. -/
def target (t : Ty) : Option String :=
  match strip t with
  | .struct n => some n
  | .ptr (.struct n) => some n
  | _ => none

/-- The type of field `x` of struct `n`. -/
def field (W : World) (n x : String) : Option Ty :=
  (W.structs.find? (fun d => d.name == n)).bind fun d => d.fields.lookup x

/-- The type an expression has, all of the program known. -/
def typ (W : World) (Γ : List (String × Option Ty)) : Expr → Option Ty
  | .num => some .int
  | .text => some .str
  | .var x => (Γ.lookup x).join
  | .call g _ => (W.funs.find? (fun s => s.name == g)).map Sig.ret
  | .mem e x =>
    match typ W Γ e with
    | none => none
    | some T => match strip T with
      | .arr k _ => match T with
        | .arr _ t =>
          if x = "len" then some .int
          else if k = 0 ∧ x = "cap" then some .int
          else if k = 0 ∧ x = "data" then some (.ptr t)
          else none
        | _ => none
      | _ => (target T).bind fun n => field W n x
  | .mcall e m _ => ((typ W Γ e).bind target).bind fun n =>
      (W.funs.find? (fun s => s.name == n ++ "__" ++ m)).map Sig.ret
  | .addr e => (typ W Γ e).map Ty.ptr
  | .deref e => match typ W Γ e with
    | some (.ptr t) => some t
    | _ => none
  | .idx e _ => match typ W Γ e with
    | some (.ptr t) => some t
    | some (.arr _ t) => some t
    | _ => none
  | .lit n _ => some (.struct n)
  | .cast t _ => some t
  | .bin c a b => match typ W Γ a, typ W Γ b with
    | some x, some _ => some (if c then .int else x)
    | _, _ => none
  | .nil => none
  | .cons _ _ _ => none

/-- `Part e e'`: `e` is an immediate part of `e'`. -/
inductive Part : Expr → Expr → Prop
  | call (g a) : Part a (.call g a)
  | mem (e x) : Part e (.mem e x)
  | mcallL (e m a) : Part e (.mcall e m a)
  | mcallR (e m a) : Part a (.mcall e m a)
  | addr (e) : Part e (.addr e)
  | deref (e) : Part e (.deref e)
  | idxL (e i) : Part e (.idx e i)
  | idxR (e i) : Part i (.idx e i)
  | lit (n fs) : Part fs (.lit n fs)
  | cast (t e) : Part e (.cast t e)
  | binL (c a b) : Part a (.bin c a b)
  | binR (c a b) : Part b (.bin c a b)
  | consL (l e r) : Part e (.cons l e r)
  | consR (l e r) : Part r (.cons l e r)

/-- `Within a e`: `a` occurs in `e`. -/
inductive Within : Expr → Expr → Prop
  | refl (e) : Within e e
  | step {a b c} : Within a b → Part b c → Within a c

/-- The expression `e` itself reads or writes a field of struct `n` or builds a value of it. -/
def opens (W : World) (Γ : List (String × Option Ty)) (n : String) : Expr → Prop
  | .mem e _ => (typ W Γ e).bind target = some n
  | .lit m _ => m = n
  | _ => False

/-- The expression `e` itself calls a method of struct `n`. -/
def calls (W : World) (Γ : List (String × Option Ty)) (n : String) : Expr → Prop
  | .mcall e _ _ => (typ W Γ e).bind target = some n
  | _ => False

/-- The expression of a statement. -/
def exprOf : Stmt → Expr
  | .bind _ _ e | .split _ e | .expr e | .ret e => e

/-- The variables after a statement; those of `let {…}` have the types of the fields. -/
def after (W : World) (Γ : List (String × Option Ty)) : Stmt → List (String × Option Ty)
  | .bind x T e => (x, T <|> typ W Γ e) :: Γ
  | .split ns e =>
    ns.map (fun p => (p.2, ((typ W Γ e).bind target).bind fun n => field W n p.1)) ++ Γ
  | _ => Γ

/-- `At W Γ body Δ s`: statement `s` occurs in the body, reached with the variables `Δ`. -/
inductive At (W : World) : List (String × Option Ty) → List Stmt → List (String × Option Ty) → Stmt → Prop
  | here (Γ s r) : At W Γ (s :: r) Γ s
  | later {Γ s r Δ s'} : At W (after W Γ s) r Δ s' → At W Γ (s :: r) Δ s'

/-- A body reads or writes a field of `n`, or builds one. -/
def Opens (W : World) (Γ : List (String × Option Ty)) (body : List Stmt) (n : String) : Prop :=
  ∃ Δ s, At W Γ body Δ s ∧
    ((∃ e, Within e (exprOf s) ∧ opens W Δ n e) ∨
      ∃ ns e, s = .split ns e ∧ ns ≠ [] ∧ (typ W Δ e).bind target = some n)

/-- A body calls a method of `n`. -/
def Calls (W : World) (Γ : List (String × Option Ty)) (body : List Stmt) (n : String) : Prop :=
  ∃ Δ s, At W Γ body Δ s ∧ ∃ e, Within e (exprOf s) ∧ calls W Δ n e

/-- A body puts a value of type `b` where the type is `a`: `let`, assignments and arithmetic. -/
def Mixes (W : World) (Γ : List (String × Option Ty)) (body : List Stmt) (a b : Ty) : Prop :=
  ∃ Δ s, At W Γ body Δ s ∧
    ((∃ x e, s = .bind x (some a) e ∧ typ W Δ e = some b) ∨
      ∃ l r, Within (.bin false l r) (exprOf s) ∧ typ W Δ l = some a ∧ typ W Δ r = some b)

/-- Opaque aliases stand for numbers and strings only, and the type is known. -/
def Plain : Ty → Prop
  | .ptr t => Plain t
  | .arr _ t => Plain t
  | .alias _ _ t => t = .int ∨ t = .chr ∨ t = .flt ∨ t = .str
  | .unk => False
  | _ => True

/-- No opaque alias at all, and no unknown type. -/
def NoAlias : Ty → Prop
  | .ptr t => NoAlias t
  | .arr _ t => NoAlias t
  | .alias _ _ _ => False
  | .unk => False
  | _ => True

/-- All types of the program satisfy `q`. -/
def AllTypes (q : Ty → Prop) (P : Program) : Prop :=
  ∀ p ∈ P, match p.2 with
    | .struct _ _ fs => ∀ x ∈ fs, q x.2
    | .template _ _ => True
    | .inst _ _ fs => ∀ x ∈ fs, q x.2
    | .fn _ ps r body => (∀ x ∈ ps, q x.2) ∧ q r ∧
        ∀ s ∈ body, (∀ x T e, s = .bind x (some T) e → q T) ∧
          ∀ t e, Within (.cast t e) (exprOf s) → q t

/-- In `e` only what is declared above is used (`V` is the world so far, `W` all of it), and only
arrays and pointers are indexed. -/
def Known (V W : World) (Γ : List (String × Option Ty)) : Expr → Prop
  | .call g _ => V.funs.find? (fun s => s.name == g) = W.funs.find? (fun s => s.name == g)
  | .mem e _ => ∀ n, (typ W Γ e).bind target = some n →
      V.structs.find? (fun d => d.name == n) = W.structs.find? (fun d => d.name == n)
  | .mcall e m _ => ∀ n, (typ W Γ e).bind target = some n →
      V.structs.find? (fun d => d.name == n) = W.structs.find? (fun d => d.name == n) ∧
      V.funs.find? (fun s => s.name == n ++ "__" ++ m) =
        W.funs.find? (fun s => s.name == n ++ "__" ++ m)
  | .idx e _ => ∃ t, typ W Γ e = some (.ptr t) ∨ ∃ k, typ W Γ e = some (.arr k t)
  | .lit n _ => V.structs.find? (fun d => d.name == n) = W.structs.find? (fun d => d.name == n)
  | _ => True

/-- The same for every statement of a body, and no `let {…}`. -/
def Tidy (V W : World) (Γ : List (String × Option Ty)) (body : List Stmt) : Prop :=
  ∀ Δ s, At W Γ body Δ s →
    (∀ e, Within e (exprOf s) → Known V W Δ e) ∧ ∀ ns e, s ≠ .split ns e

/-- The variables at the start of a body. -/
def start (ps : List (String × Ty)) : List (String × Option Ty) := ps.map fun p => (p.1, some p.2)

/-- No template is opaque. -/
def NoOpaqueTemplate (P : Program) : Prop := ∀ f n o, (f, Decl.template n o) ∈ P → o = false

end Spec
end Verif.Opaque
