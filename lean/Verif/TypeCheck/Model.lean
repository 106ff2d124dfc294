import Verif.TypeEq.Model

/-!
# The type checker (`zc check`, `--typecheck`): model

The type errors of `check_program` (src/analysis/typecheck.c:175-1567, 1637-1665), which stops the
compilation if there is one.  The moves it also checks are in `Move`, the analysis of returning paths in
`Returns`.

Simplified: a type has no address (`type_eq` of one object with itself is true here too, as the relation is
reflexive); no aliases, vectors, generics and `_BitInt`s; the types of functions have no parts, which
`type_eq` ignores.  Types a node got from the parser are the fields `pre`; a node keeps them where the
checker sets none.  Indexing a struct, which becomes a method call, is `meth`.  Messages are counted.
-/

namespace Verif.TypeCheck

open Verif.TypeEq (IntK FloatK)

/-- `Type` (src/ast/ast.h:82-130) -/
inductive Ty where
  | unknown
  | void
  | string
  | char
  | int (k : IntK)
  | float (k : FloatK)
  | struct (name : String)
  | enum (name : String)
  | func
  | ptr (inner : Ty)
  | array (size : Nat) (inner : Ty)
  deriving DecidableEq

/-- `is_integer_type` (src/ast/ast.c:111-137) -/
def isInteger : Ty → Bool
  | .int _ | .char => true
  | .struct n => TypeEq.intNames.contains n
  | _ => false

/-- `is_float_type` (src/ast/ast.c:139-147) -/
def isFloat : Ty → Bool
  | .float _ => true
  | _ => false

/-- `is_char_ptr` (src/ast/ast.c:97-110) -/
def isCharPtr : Ty → Bool
  | .ptr .char => true
  | .ptr (.struct n) => n == "char"
  | _ => false

/-- `type_eq` (src/ast/ast.c:149-220) -/
def typeEq (a b : Ty) : Bool :=
  if a = .unknown ∨ b = .unknown then true
  else if isInteger a && isInteger b then true
  else if isFloat a && isFloat b then true
  else if decide (a = .string) && isCharPtr b then true
  else if decide (b = .string) && isCharPtr a then true
  else
    match a, b with
    | .struct n, .struct m => n == m
    | .ptr i, .ptr j => typeEq i j
    | .array s i, .array t j => s == t && typeEq i j
    | .void, .void | .string, .string | .enum _, .enum _ | .func, .func => true
    | _, _ => false

/-- `is_char_type` (src/analysis/typecheck.c:98-115) -/
def isCharType : Ty → Bool
  | .char | .int .i8 | .int .u8 | .int .cchar | .int .cuchar => true
  | .struct n => n == "char"
  | _ => false

/-- a pointer to `void` -/
def isVoidPtr : Ty → Bool
  | .ptr .void => true
  | _ => false

/-- the decay of arrays (src/analysis/typecheck.c:748-764) -/
def decays : Ty → Ty → Bool
  | .ptr i, .array _ j => typeEq i j || (isCharType i && isCharType j)
  | _, _ => false

/-- `check_type_compatibility` (src/analysis/typecheck.c:685-796) -/
def compatible (target value : Ty) : Bool :=
  typeEq target value
  || ((target = .string || target = .struct "str") && (value = .string || value = .struct "string"))
  || isVoidPtr target || isVoidPtr value
  || (isInteger target && isInteger value)
  || decays target value
  || (isFloat target && isFloat value)

/-- binary operators other than `=` -/
inductive BOp where
  | add | sub | mul | div | mod
  | eq | ne | lt | gt | le | ge
  | and | or
  | band | bor | bxor | shl | shr
  deriving DecidableEq

/-- prefix operators with a case of their own -/
inductive UOp where
  | not | neg | deref | bnot
  deriving DecidableEq

mutual
/-- expressions; `pre` is the type the parser has given to the node -/
inductive Expr where
  | int (v : Nat)
  | flt (zero : Bool)
  | str
  | chr
  | var (x : String) (pre : Option Ty)
  | un (op : UOp) (e : Expr) (pre : Option Ty)
  | bin (op : BOp) (a b : Expr) (pre : Option Ty)
  | assign (a b : Expr)
  | call (f : String) (args : Exprs) (pre : Option Ty)
  | meth (target : Expr) (args : Exprs) (pre : Option Ty)
  | index (a i : Expr) (pre : Option Ty)
  | member (e : Expr) (pre : Option Ty)
  | cast (e : Expr) (target : Ty)
  | arr (es : Exprs)
  | init (name : String) (fields : Fields)
  | tern (c a b : Expr) (pre : Option Ty)
/-- arguments, elements -/
inductive Exprs where
  | nil
  | cons (e : Expr) (r : Exprs)
/-- initialised fields -/
inductive Fields where
  | nil
  | cons (f : String) (e : Expr) (r : Fields)
end

/-- `FuncSig`: parameters with whether they have a default -/
structure Sig where
  params : List (Ty × Bool)
  varargs : Bool
  ret : Ty

/-- what the parser has registered: functions, and the fields of structs -/
structure Ctx where
  sig : String → Option Sig
  fields : String → Option (List (String × Ty))
  /-- `find_symbol_in_all` -/
  known : String → Bool

/-- `current_scope` with its parents: parameters are entered without a type
(src/analysis/typecheck.c:62-95, 926-932) -/
abbrev Env := List (String × Option Ty)

/-- 1 if an error is reported -/
def err (b : Bool) : Nat := if b then 1 else 0

/-- the size of an array literal -/
def Exprs.length : Exprs → Nat
  | .nil => 0
  | .cons _ r => r.length + 1

/-- the number of arguments that must be given (src/analysis/typecheck.c:552-566) -/
def Sig.required (s : Sig) : Nat := s.params.countP fun p => !p.2

/-- the number of arguments is wrong (src/analysis/typecheck.c:568-588) -/
def badCount (s : Sig) (n : Nat) : Bool := decide (n < s.required) || (decide (s.params.length < n) && !s.varargs)

/-- the value is zero: a literal (src/analysis/typecheck.c:303-321) -/
def isZero : Expr → Bool
  | .int 0 => true
  | .flt z => z
  | _ => false

/-- a shift by a literal that is too wide for the type of the value (src/analysis/typecheck.c:440-464) -/
def wideShift (l : Option Ty) : Expr → Bool
  | .int v =>
      decide (64 ≤ v) ||
      (decide (32 ≤ v) &&
        match l with
        | some (.int .int) | some (.int .uint) | some (.int .i32) | some (.int .u32) | some (.int .cint)
        | some (.int .cuint) => true
        | _ => false)
  | _ => false

/-- a pointer or a string (src/analysis/typecheck.c:330, 341, 350) -/
def isPtr : Ty → Bool
  | .ptr _ | .string => true
  | _ => false

/-- integer or float -/
def numeric (t : Ty) : Bool := isInteger t || isFloat t

/-- unary operators (src/analysis/typecheck.c:175-249) -/
def unary (op : UOp) (t : Option Ty) (pre : Option Ty) : Nat × Option Ty :=
  match t with
  | none => (0, pre)
  | some t =>
      match op with
      | .not => (0, some (.int .bool))
      | .neg => if numeric t then (0, some t) else (1, pre)
      | .deref =>
          match t with
          | .unknown => (0, some .unknown)
          | .ptr i => (0, some i)
          | .string => (0, some .char)
          | _ => (1, pre)
      | .bnot => if isInteger t then (0, some t) else (1, pre)

/-- arithmetic (src/analysis/typecheck.c:323-400), both types known -/
def arith (op : BOp) (s t : Ty) (pre : Option Ty) : Nat × Option Ty :=
  if isPtr s && decide (op = .sub) && isPtr t then (0, some (.int .isize))
  else if isPtr s && (decide (op = .add) || decide (op = .sub)) && isInteger t then (0, some s)
  else if decide (op = .add) && isInteger s && isPtr t then (0, some t)
  else if !numeric s || !numeric t then
    if s = .unknown ∨ t = .unknown then (0, some .unknown) else (1, pre)
  else if isFloat s || isFloat t then (0, some (.float .f64))
  else (0, some s)

/-- binary operators (src/analysis/typecheck.c:299-494) -/
def binary (op : BOp) (b : Expr) (s t : Option Ty) (pre : Option Ty) : Nat × Option Ty :=
  match op with
  | .add | .sub | .mul | .div | .mod =>
      let z := err ((op = .div || op = .mod) && isZero b)
      match s, t with
      | some s, some t => let r := arith op s t pre; (z + r.1, r.2)
      | _, _ => (z, pre)
  | .eq | .ne | .lt | .gt | .le | .ge =>
      match s, t with
      | some s, some t =>
          (err (!typeEq s t && (!numeric s || !numeric t) && !(s = .unknown || t = .unknown)), some (.int .bool))
      | _, _ => (0, some (.int .bool))
  | .and | .or => (0, some (.int .bool))
  | .band | .bor | .bxor | .shl | .shr =>
      let w := err ((op = .shl || op = .shr) && wideShift s b)
      match s, t with
      | some s, some t => if isInteger s && isInteger t then (w, some s) else (w + 1, pre)
      | _, _ => (w, pre)

/-- where a value of one type is needed: nothing is reported if a type is missing -/
def need (target value : Option Ty) : Nat :=
  match target, value with
  | some t, some v => err (!compatible t v)
  | _, _ => 0

/-- conditions of `if`, `while`, `for`, `unless`, `guard` and `assert` (src/analysis/typecheck.c:1137-1147) -/
def badCond (str : Bool) : Option Ty → Nat
  | none => 0
  | some t => err (!(isInteger t || (match t with | .ptr _ => true | .string => str | _ => false)))

/-- casts of pointers to small integers (src/analysis/typecheck.c:1441-1454) -/
def badCast (t : Option Ty) (target : Ty) : Nat :=
  match t with
  | some (.ptr _) =>
      err (target = .int .i8 || target = .int .i16 || target = .int .u8 || target = .int .u16)
  | _ => 0

/-- the type of an element (src/analysis/typecheck.c:1278-1289) -/
def element (t : Option Ty) (pre : Option Ty) : Option Ty :=
  match t with
  | some (.ptr i) => some i
  | some (.array _ i) => some i
  | _ => pre

mutual
/-- `check_node` for expressions (src/analysis/typecheck.c:1072-1567): errors and the type of the node -/
def check (σ : Ctx) (E : Env) : Expr → Nat × Option Ty
  | .int _ => (0, some (.int .i32))
  | .flt _ => (0, some (.float .f64))
  | .str => (0, some .string)
  | .chr => (0, some .char)
  | .var x pre => (0, match E.lookup x with | some (some t) => some t | _ => pre)
  | .un op e pre =>
      let r := check σ E e
      let u := unary op r.2 pre
      (r.1 + u.1, u.2)
  | .bin op a b pre =>
      let r := check σ E a
      let s := check σ E b
      let u := binary op b r.2 s.2 pre
      (r.1 + s.1 + u.1, u.2)
  | .assign a b =>
      let r := check σ E a
      let s := check σ E b
      (r.1 + s.1 + need r.2 s.2, r.2)
  | .call f args pre =>
      match σ.sig f with
      | some s => (err (badCount s args.length) + checkArgs σ E args (s.params.map Prod.fst), pre)
      | none =>
          (err ((E.lookup f).isNone && !σ.known f) + checkArgs σ E args [], pre)
  | .meth x args pre => ((check σ E x).1 + checkArgs σ E args [], pre)
  | .index a i pre =>
      let r := check σ E a
      let s := check σ E i
      (r.1 + s.1 + (match s.2 with | some t => err (!isInteger t) | none => 0), element r.2 pre)
  | .member e pre => ((check σ E e).1, pre)
  | .cast e t => let r := check σ E e; (r.1 + badCast r.2 t, some t)
  | .arr es => let r := checkElems σ E es; (r.1, some (.array es.length (r.2.getD .unknown)))
  | .init n fs =>
      match σ.fields n with
      | none => (1, none)
      | some ds => (checkFields σ E ds fs, some (.struct n))
  | .tern c a b pre =>
      let r := check σ E c
      let s := check σ E a
      let t := check σ E b
      (r.1 + s.1 + t.1 + badCond false r.2 + need s.2 t.2,
        match s.2, t.2 with
        | some x, some y => if compatible x y then some x else pre
        | _, _ => pre)
/-- arguments against parameters; further ones only for themselves (src/analysis/typecheck.c:590-650) -/
def checkArgs (σ : Ctx) (E : Env) : Exprs → List Ty → Nat
  | .nil, _ => 0
  | .cons e r, [] => (check σ E e).1 + checkArgs σ E r []
  | .cons e r, t :: ts => (check σ E e).1 + need (some t) (check σ E e).2 + checkArgs σ E r ts
/-- elements: the first known type is that of the array (src/analysis/typecheck.c:1457-1481) -/
def checkElems (σ : Ctx) (E : Env) : Exprs → Nat × Option Ty
  | .nil => (0, none)
  | .cons e r =>
      let a := check σ E e
      let b := checkElems σ E r
      (a.1 + b.1, match a.2 with | some .unknown => b.2 | some t => some t | none => b.2)
/-- `check_struct_init` (src/analysis/typecheck.c:1018-1067) -/
def checkFields (σ : Ctx) (E : Env) (ds : List (String × Ty)) : Fields → Nat
  | .nil => 0
  | .cons f e r =>
      (check σ E e).1 + (match ds.lookup f with | none => 1 | some t => need (some t) (check σ E e).2)
        + checkFields σ E ds r
end

/-! ## Statements -/

mutual
/-- statements -/
inductive Stmt where
  /-- `let x: T = e`, with the declared type or the one the parser has inferred -/
  | decl (x : String) (t : Option Ty) (e : Expr)
  | expr (e : Expr)
  | ret (e : Option Expr)
  /-- `break`, `continue` -/
  | jump
  | ite (c : Expr) (a b : Stmt)
  | while_ (c : Expr) (b : Stmt)
  | block (b : Stmts)
  /-- `match`; whether the arm is `_` -/
  | match_ (e : Expr) (arms : Arms)
  /-- range loops, `do`-`while`, destructuring and all other nodes `check_node` has no case for -/
  | other (parts : Stmts)
/-- lists -/
inductive Stmts where
  | nil
  | cons (s : Stmt) (r : Stmts)
/-- arms -/
inductive Arms where
  | nil
  | cons (default : Bool) (body : Stmt) (r : Arms)
end

/-- the statement ends its block (src/analysis/typecheck.c:670-675) -/
def ends : Stmt → Bool
  | .ret _ | .jump => true
  | _ => false

/-- `return` with or without a value (src/analysis/typecheck.c:1105-1131); the type is not looked at -/
def badReturn (ret : Ty) (e : Option Expr) : Nat := err ((ret = .void) = e.isSome)

/-- some arm is `_` -/
def Arms.hasDefault : Arms → Bool
  | .nil => false
  | .cons d _ r => d || r.hasDefault

/-- the variable a statement adds to its block -/
def declared (σ : Ctx) (E : Env) : Stmt → Env
  | .decl x t e => (x, match t with | some t => some t | none => (check σ E e).2) :: E
  | _ => E

mutual
/-- `check_node` for statements (src/analysis/typecheck.c:1072-1567), in a function that returns `ret` -/
def checkS (σ : Ctx) (ret : Ty) (E : Env) : Stmt → Nat
  | .decl _ t e => (check σ E e).1 + need t (check σ E e).2
  | .expr e => (check σ E e).1
  | .ret e => (match e with | some e => (check σ E e).1 | none => 0) + badReturn ret e
  | .jump => 0
  | .ite c a b => (check σ E c).1 + badCond true (check σ E c).2 + checkS σ ret E a + checkS σ ret E b
  | .while_ c b => (check σ E c).1 + badCond true (check σ E c).2 + checkS σ ret E b
  | .block b => checkB σ ret E false b
  | .match_ e arms => (check σ E e).1 + checkA σ ret E arms + err (!arms.hasDefault)
  | .other _ => 0
/-- `check_block` (src/analysis/typecheck.c:652-683); `dead`: a statement that ends the block was seen -/
def checkB (σ : Ctx) (ret : Ty) (E : Env) (dead : Bool) : Stmts → Nat
  | .nil => 0
  | .cons s r => err dead + checkS σ ret E s + checkB σ ret (declared σ E s) (ends s) r
/-- arms (src/analysis/typecheck.c:1189-1203) -/
def checkA (σ : Ctx) (ret : Ty) (E : Env) : Arms → Nat
  | .nil => 0
  | .cons _ b r => checkS σ ret E b + checkA σ ret E r
end

/-- a function: parameters, type of the result, body -/
structure Fn where
  params : List (String × Ty)
  ret : Ty
  body : Stmts

/-- `check_function` (src/analysis/typecheck.c:915-968) -/
def checkFn (σ : Ctx) (f : Fn) : Nat :=
  checkS σ f.ret (f.params.reverse.map fun p => (p.1, none)) (.block f.body)

/-- top-level items: functions, and blocks of methods -/
inductive Item where
  | fn (f : Fn)
  | impl (methods : List Fn)

/-- `check_node` of the root (src/analysis/typecheck.c:1080-1090); there is no case for `impl` -/
def checkItem (σ : Ctx) : Item → Nat
  | .fn f => checkFn σ f
  | .impl _ => 0

/-- `check_program` (src/analysis/typecheck.c:1637-1665) -/
def checkProgram (σ : Ctx) (p : List Item) : Nat := (p.map (checkItem σ)).sum

/-! ## Types as the language means them -/

namespace Spec

/-- integers: the primitive kinds and the names of C -/
def Integer : Ty → Prop
  | .int _ | .char => True
  | .struct n => n ∈ ["int8_t", "uint8_t", "int16_t", "uint16_t", "int32_t", "uint32_t", "int64_t",
      "uint64_t", "size_t", "ssize_t", "ptrdiff_t"]
  | _ => False

/-- floating point -/
def Flt : Ty → Prop
  | .float _ => True
  | _ => False

/-- strings are pointers to characters -/
inductive CharPtr : Ty → Prop where
  | char : CharPtr (.ptr .char)
  | named : CharPtr (.ptr (.struct "char"))

/-- the same type, where all integers and all floats count as the same (and all enums and all function
types, which is another matter: `TypeEq`) -/
inductive Same : Ty → Ty → Prop where
  | int {a b} : Integer a → Integer b → Same a b
  | float {a b} : Flt a → Flt b → Same a b
  | text {a} : CharPtr a → Same .string a
  | text' {a} : CharPtr a → Same a .string
  | string : Same .string .string
  | void : Same .void .void
  | func : Same .func .func
  | enum {a b} : Same (.enum a) (.enum b)
  | struct {n} : Same (.struct n) (.struct n)
  | ptr {a b} : Same a b → Same (.ptr a) (.ptr b)
  | array {n a b} : Same a b → Same (.array n a) (.array n b)

/-- characters and bytes -/
def Charlike (t : Ty) : Prop :=
  t ∈ [.char, .int .i8, .int .u8, .int .cchar, .int .cuchar, .struct "char"]

/-- a value of the second type can be used where the first is needed -/
inductive Fits : Ty → Ty → Prop where
  | same {a b} : Same a b → Fits a b
  | str {a b} : a ∈ [.string, .struct "str"] → b ∈ [.string, .struct "string"] → Fits a b
  | toVoid {b} : Fits (.ptr .void) b
  | fromVoid {a} : Fits a (.ptr .void)
  | decay {n a b} : Same a b → Fits (.ptr a) (.array n b)
  | chars {n a b} : Charlike a → Charlike b → Fits (.ptr a) (.array n b)

/-- number -/
def Num (t : Ty) : Prop := Integer t ∨ Flt t

/-- pointer or string -/
inductive Pointer : Ty → Prop where
  | ptr {a} : Pointer (.ptr a)
  | string : Pointer .string

/-- usable as a condition -/
def Truthy (t : Ty) : Prop := Integer t ∨ Pointer t

/-- the type of `a + b` and so on -/
inductive Arith : BOp → Ty → Ty → Ty → Prop where
  | diff {s t} : Pointer s → Pointer t → Arith .sub s t (.int .isize)
  | move {op s t} : op = .add ∨ op = .sub → Pointer s → Integer t → Arith op s t s
  | moved {s t} : Integer s → Pointer t → Arith .add s t t
  | ints {op s t} : Integer s → Integer t → Arith op s t s
  | floats {op s t} : op ≠ .mod → Num s → Num t → Flt s ∨ Flt t → Arith op s t (.float .f64)

/-- the literal 0 -/
def ZeroLit : Expr → Prop
  | .int 0 | .flt true => True
  | _ => False

/-- 32 bits wide -/
def Wide32 (t : Ty) : Prop := t ∈ [.int .int, .int .uint, .int .i32, .int .u32, .int .cint, .int .cuint]

/-- shifting a value of this type by this literal is undefined -/
def TooFar (s : Ty) : Expr → Prop
  | .int v => 64 ≤ v ∨ (32 ≤ v ∧ Wide32 s)
  | _ => False

/-- declared types -/
abbrev Types := List (String × Ty)

mutual
/-- the expression has the type -/
inductive Typed (σ : Ctx) (Γ : Types) : Expr → Ty → Prop where
  | int {v} : Typed σ Γ (.int v) (.int .i32)
  | flt {z} : Typed σ Γ (.flt z) (.float .f64)
  | str : Typed σ Γ .str .string
  | chr : Typed σ Γ .chr .char
  | var {x p t} : Γ.lookup x = some t → Typed σ Γ (.var x p) t
  | not {e p t} : Typed σ Γ e t → Typed σ Γ (.un .not e p) (.int .bool)
  | neg {e p t} : Typed σ Γ e t → Num t → Typed σ Γ (.un .neg e p) t
  | bnot {e p t} : Typed σ Γ e t → Integer t → Typed σ Γ (.un .bnot e p) t
  | deref {e p t} : Typed σ Γ e (.ptr t) → Typed σ Γ (.un .deref e p) t
  | first {e p} : Typed σ Γ e .string → Typed σ Γ (.un .deref e p) .char
  | arith {op a b p s t u} : op ∈ [.add, .sub, .mul, .div, .mod] → Typed σ Γ a s → Typed σ Γ b t →
      Arith op s t u → (op = .div ∨ op = .mod → ¬ ZeroLit b) → Typed σ Γ (.bin op a b p) u
  | compare {op a b p s t} : op ∈ [.eq, .ne, .lt, .gt, .le, .ge] → Typed σ Γ a s → Typed σ Γ b t →
      Same s t ∨ (Num s ∧ Num t) → Typed σ Γ (.bin op a b p) (.int .bool)
  | logic {op a b p s t} : op ∈ [.and, .or] → Typed σ Γ a s → Typed σ Γ b t →
      Typed σ Γ (.bin op a b p) (.int .bool)
  | bits {op a b p s t} : op ∈ [.band, .bor, .bxor, .shl, .shr] → Typed σ Γ a s → Typed σ Γ b t →
      Integer s → Integer t → (op = .shl ∨ op = .shr → ¬ TooFar s b) → Typed σ Γ (.bin op a b p) s
  | assign {a b s t} : Typed σ Γ a s → Typed σ Γ b t → Fits s t → Typed σ Γ (.assign a b) s
  | call {f as p s} : σ.sig f = some s → TypedArgs σ Γ as (s.params.map Prod.fst) →
      (s.params.filter fun q => !q.2).length ≤ as.length →
      (s.varargs = false → as.length ≤ s.params.length) → Typed σ Γ (.call f as p) s.ret
  | elemP {a i p s t} : Typed σ Γ a (.ptr s) → Typed σ Γ i t → Integer t → Typed σ Γ (.index a i p) s
  | elemA {a i p n s t} : Typed σ Γ a (.array n s) → Typed σ Γ i t → Integer t → Typed σ Γ (.index a i p) s
  | cast {e s t} : Typed σ Γ e s → (Pointer s ∧ s ≠ .string → t ∉ [.int .i8, .int .i16, .int .u8, .int .u16]) →
      Typed σ Γ (.cast e t) t
  | arr {e es t} : Typed σ Γ e t → TypedElems σ Γ es t → Typed σ Γ (.arr (.cons e es)) (.array (es.length + 1) t)
  | init {n fs ds} : σ.fields n = some ds → TypedFields σ Γ ds fs → Typed σ Γ (.init n fs) (.struct n)
  | tern {c a b p r s t} : Typed σ Γ c r → Typed σ Γ a s → Typed σ Γ b t →
      Truthy r → Fits s t → Typed σ Γ (.tern c a b p) s
/-- arguments for parameters; further ones have some type -/
inductive TypedArgs (σ : Ctx) (Γ : Types) : Exprs → List Ty → Prop where
  | nil {ts} : TypedArgs σ Γ .nil ts
  | more {e r t} : Typed σ Γ e t → TypedArgs σ Γ r [] → TypedArgs σ Γ (.cons e r) []
  | cons {e r t s ts} : Typed σ Γ e s → Fits t s → TypedArgs σ Γ r ts → TypedArgs σ Γ (.cons e r) (t :: ts)
/-- elements that can be stored in an array of the type -/
inductive TypedElems (σ : Ctx) (Γ : Types) : Exprs → Ty → Prop where
  | nil {t} : TypedElems σ Γ .nil t
  | cons {e r s t} : Typed σ Γ e s → Fits t s → TypedElems σ Γ r t → TypedElems σ Γ (.cons e r) t
/-- fields of the struct -/
inductive TypedFields (σ : Ctx) (Γ : Types) : List (String × Ty) → Fields → Prop where
  | nil {ds} : TypedFields σ Γ ds .nil
  | cons {ds f e r t s} : ds.lookup f = some t → Typed σ Γ e s → Fits t s → TypedFields σ Γ ds r →
      TypedFields σ Γ ds (.cons f e r)
end

mutual
/-- the statement is well typed in a function with this result -/
inductive Ok (σ : Ctx) (ret : Ty) : Types → Stmt → Prop where
  | decl {Γ x t e s} : Typed σ Γ e s → Fits t s → Ok σ ret Γ (.decl x (some t) e)
  | infer {Γ x e s} : Typed σ Γ e s → Ok σ ret Γ (.decl x none e)
  | expr {Γ e s} : Typed σ Γ e s → Ok σ ret Γ (.expr e)
  | ret {Γ e s} : ret ≠ .void → Typed σ Γ e s → Fits ret s → Ok σ ret Γ (.ret (some e))
  | leave {Γ} : ret = .void → Ok σ ret Γ (.ret none)
  | jump {Γ} : Ok σ ret Γ .jump
  | ite {Γ c a b s} : Typed σ Γ c s → Truthy s → Ok σ ret Γ a → Ok σ ret Γ b → Ok σ ret Γ (.ite c a b)
  | while_ {Γ c b s} : Typed σ Γ c s → Truthy s → Ok σ ret Γ b → Ok σ ret Γ (.while_ c b)
  | block {Γ b} : Oks σ ret Γ b → Ok σ ret Γ (.block b)
  | match_ {Γ e as s} : Typed σ Γ e s → OkArms σ ret Γ as → Ok σ ret Γ (.match_ e as)
  | other {Γ ss} : Oks σ ret Γ ss → Ok σ ret Γ (.other ss)
/-- the statements of a block -/
inductive Oks (σ : Ctx) (ret : Ty) : Types → Stmts → Prop where
  | nil {Γ} : Oks σ ret Γ .nil
  | decl {Γ x t e r} : Ok σ ret Γ (.decl x (some t) e) → Oks σ ret ((x, t) :: Γ) r →
      Oks σ ret Γ (.cons (.decl x (some t) e) r)
  | infer {Γ x e s r} : Typed σ Γ e s → Oks σ ret ((x, s) :: Γ) r → Oks σ ret Γ (.cons (.decl x none e) r)
  | cons {Γ s r} : (∀ x t e, s ≠ .decl x t e) → Ok σ ret Γ s → Oks σ ret Γ r → Oks σ ret Γ (.cons s r)
/-- arms -/
inductive OkArms (σ : Ctx) (ret : Ty) : Types → Arms → Prop where
  | nil {Γ} : OkArms σ ret Γ .nil
  | cons {Γ d b r} : Ok σ ret Γ b → OkArms σ ret Γ r → OkArms σ ret Γ (.cons d b r)
end

/-- the function is well typed -/
def OkFn (σ : Ctx) (f : Fn) : Prop := Oks σ f.ret f.params.reverse f.body

/-- the program is well typed -/
def OkProgram (σ : Ctx) (p : List Item) : Prop :=
  ∀ i ∈ p, match i with
    | .fn f => OkFn σ f
    | .impl ms => ∀ f ∈ ms, OkFn σ f

/-! ### What the theorems leave out -/

/-- no unknown type in it -/
def Known : Ty → Prop
  | .unknown => False
  | .ptr i | .array _ i => Known i
  | _ => True

/-- all declarations have known types -/
structure KnownCtx (σ : Ctx) : Prop where
  params : ∀ f s, σ.sig f = some s → (∀ p ∈ s.params, Known p.1) ∧ Known s.ret
  fields : ∀ n ds f t, σ.fields n = some ds → ds.lookup f = some t → Known t

mutual
/-- The parser's types are right, and the expression has none of the parts that are not checked: method
calls and members, `%` of floats, indexing of what is no array, elements of different types, calls of what
is no function; and no string is the condition of `? :`. -/
def Good (σ : Ctx) (Γ : Types) : Expr → Prop
  | .int _ | .flt _ | .str | .chr => True
  | .var x pre => ∃ t, Γ.lookup x = some t ∧ pre = some t
  | .un _ e _ => Good σ Γ e
  | .bin op a b _ => Good σ Γ a ∧ Good σ Γ b ∧
      (op = .mod → ∀ t, Typed σ Γ a t ∨ Typed σ Γ b t → ¬ Flt t)
  | .assign a b => Good σ Γ a ∧ Good σ Γ b
  | .call f as pre => Goods σ Γ as ∧ ∃ s, σ.sig f = some s ∧ pre = some s.ret
  | .meth .. | .member .. => False
  | .index a i _ => Good σ Γ a ∧ Good σ Γ i ∧
      ∀ t, Typed σ Γ a t → (∃ s, t = .ptr s) ∨ ∃ n s, t = .array n s
  | .cast e t => Good σ Γ e ∧ Known t
  | .arr .nil => False
  | .arr (.cons e es) => Good σ Γ e ∧ Goods σ Γ es ∧ ∀ t, Typed σ Γ e t → TypedElems σ Γ es t
  | .init _ fs => GoodFields σ Γ fs
  | .tern c a b _ => Good σ Γ c ∧ Good σ Γ a ∧ Good σ Γ b ∧ ∀ t, Typed σ Γ c t → t ≠ .string
/-- lists -/
def Goods (σ : Ctx) (Γ : Types) : Exprs → Prop
  | .nil => True
  | .cons e r => Good σ Γ e ∧ Goods σ Γ r
/-- fields -/
def GoodFields (σ : Ctx) (Γ : Types) : Fields → Prop
  | .nil => True
  | .cons _ e r => Good σ Γ e ∧ GoodFields σ Γ r
end

mutual
/-- The same for statements: nodes the checker does not visit, and values returned, are left out. -/
def GoodS (σ : Ctx) (ret : Ty) : Types → Stmt → Prop
  | Γ, .decl _ t e => Good σ Γ e ∧ ∀ u, t = some u → Known u
  | Γ, .expr e => Good σ Γ e
  | Γ, .ret (some e) => Good σ Γ e ∧ ∀ t, Typed σ Γ e t → Fits ret t
  | _, .ret none => True
  | _, .jump => True
  | Γ, .ite c a b => Good σ Γ c ∧ GoodS σ ret Γ a ∧ GoodS σ ret Γ b
  | Γ, .while_ c b => Good σ Γ c ∧ GoodS σ ret Γ b
  | Γ, .block b => GoodB σ ret Γ b
  | Γ, .match_ e as => Good σ Γ e ∧ GoodA σ ret Γ as
  | _, .other _ => False
/-- blocks -/
def GoodB (σ : Ctx) (ret : Ty) : Types → Stmts → Prop
  | _, .nil => True
  | Γ, .cons (.decl x (some t) e) r => GoodS σ ret Γ (.decl x (some t) e) ∧ GoodB σ ret ((x, t) :: Γ) r
  | Γ, .cons (.decl x none e) r => GoodS σ ret Γ (.decl x none e) ∧
      ∀ t, Typed σ Γ e t → GoodB σ ret ((x, t) :: Γ) r
  | Γ, .cons s r => GoodS σ ret Γ s ∧ GoodB σ ret Γ r
/-- arms -/
def GoodA (σ : Ctx) (ret : Ty) : Types → Arms → Prop
  | _, .nil => True
  | Γ, .cons _ b r => GoodS σ ret Γ b ∧ GoodA σ ret Γ r
end

/-- one of the arms is `_` -/
def Wild : Arms → Prop
  | .nil => False
  | .cons d _ r => d = true ∨ Wild r

/-- what is behind it in its block is never reached -/
inductive Leaves : Stmt → Prop where
  | ret (e : Option Expr) : Leaves (.ret e)
  | jump : Leaves .jump

mutual
/-- No statement behind a `return`, `break` or `continue`, and a `_` in every `match`. -/
def Live : Stmt → Prop
  | .ite _ a b => Live a ∧ Live b
  | .while_ _ b => Live b
  | .block b => LiveB b
  | .match_ _ as => Wild as ∧ LiveA as
  | _ => True
/-- blocks -/
def LiveB : Stmts → Prop
  | .nil => True
  | .cons s r => Live s ∧ (Leaves s → r = .nil) ∧ LiveB r
/-- arms -/
def LiveA : Arms → Prop
  | .nil => True
  | .cons _ b r => Live b ∧ LiveA r
end

end Spec

end Verif.TypeCheck
