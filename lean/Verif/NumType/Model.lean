import Verif.Basic

/-! # Types of numbers: what `let x = e;` declares

`let` without a type gives the variable the type the parser has found for the expression
(src/parser/parser_decl.c:605-640), else the one the code generator infers (src/codegen/codegen_stmt.c:1067-1130), else
leaves it to the C compiler (`ZC_AUTO`). The C compiler then converts the value of the expression, which
has the type C gives it, to the type declared.

Modelled: integers of any width, `bool`, `f32`, `f64`; variables (which stand also for fields, elements and results of
calls, whose types are known); literals; operators; casts; `? :`; `??`. -/

namespace Verif.NumType

abbrev Name := String

/-- Widths of integers. -/
inductive W where
  | w8 | w16 | w32 | w64 | w128
  deriving DecidableEq

/-- In bits. -/
def W.bits : W → Nat
  | .w8 => 8
  | .w16 => 16
  | .w32 => 32
  | .w64 => 64
  | .w128 => 128

/-- Types of numbers. `char` and `c_char` are `int w8 true`, `rune` is `int w32 true`, `usize` is `int w64 false`
(src/ast/ast.c:248-320 and 520-595, on 64-bit machines). -/
inductive NTy where
  | int (w : W) (sg : Bool)
  | bool
  | f32
  | f64
  deriving DecidableEq

/-- `int` -/
abbrev i32 : NTy := .int .w32 true

/-- `is_integer_type`, src/ast/ast.c:112-137; the other types of numbers are those of `is_float_type`, 139-147. -/
def NTy.isInt : NTy → Bool
  | .int _ _ | .bool => true
  | _ => false

/-- Operators. -/
inductive Op where
  | add | sub | mul | div | mod
  | band | bor | bxor
  | shl | shr
  | eq | ne | lt | le | gt | ge
  | and | or
  deriving DecidableEq

/-- `is_comparison_op`, src/parser/parser_expr.c:4267-4271. -/
def Op.isCmp : Op → Bool
  | .eq | .ne | .lt | .le | .gt | .ge => true
  | _ => false

/-- `+ - * /` -/
def Op.isArith : Op → Bool
  | .add | .sub | .mul | .div => true
  | _ => false

/-- Binary floating point, as far as it matters: two formats, with conversions. -/
structure Floats where
  S : Type
  D : Type
  binS : Op → S → S → S
  binD : Op → D → D → D
  cmpS : Op → S → S → Bool
  cmpD : Op → D → D → Bool
  negS : S → S
  negD : D → D
  nzS : S → Bool
  nzD : D → Bool
  ofS : Int → S
  ofD : Int → D
  /-- towards zero; none for infinities and NaN -/
  intS : S → Option Int
  intD : D → Option Int
  up : S → D
  down : D → S

/-- Values. -/
inductive Val (F : Floats) where
  | int (n : Int)
  | f32 (x : F.S)
  | f64 (x : F.D)

/-- Expressions. -/
inductive Ex (F : Floats) where
  | lit (n : Nat)
  | flt (x : F.D)
  | var (x : Name)
  | neg (a : Ex F)
  | lnot (a : Ex F)
  | bnot (a : Ex F)
  | bin (op : Op) (a b : Ex F)
  | cast (t : NTy) (a : Ex F)
  | cond (c a b : Ex F)
  | coal (a b : Ex F)

/-! ## C -/

/-- Integer promotion, C11 6.3.1.1. -/
def promote : NTy → NTy
  | .int b s => if b.bits < 32 then i32 else .int b s
  | .bool => i32
  | t => t

/-- The usual arithmetic conversions, C11 6.3.1.8, of promoted types. -/
def usualP : NTy → NTy → NTy
  | .f64, _ => .f64
  | _, .f64 => .f64
  | .f32, _ => .f32
  | _, .f32 => .f32
  | .int b s, .int c r =>
    if s = r then (if c.bits ≤ b.bits then .int b s else .int c s)
    else if s then (if b.bits ≤ c.bits then .int c false else .int b true)
    else (if c.bits ≤ b.bits then .int b false else .int c true)
  | .bool, t => t
  | t, .bool => t

/-- The usual arithmetic conversions. -/
def usual (a b : NTy) : NTy := usualP (promote a) (promote b)

/-- The number modulo a power of two, in the range of the type. -/
def wrap (w : W) (sg : Bool) (n : Int) : Int :=
  if sg then (n + 2 ^ (w.bits - 1)) % 2 ^ w.bits - 2 ^ (w.bits - 1) else n % 2 ^ w.bits

/-- A number is in the range of an integer type. -/
def InR (w : W) (sg : Bool) (n : Int) : Prop :=
  if sg then -2 ^ (w.bits - 1) ≤ n ∧ n < 2 ^ (w.bits - 1) else 0 ≤ n ∧ n < 2 ^ w.bits

instance (w : W) (sg : Bool) (n : Int) : Decidable (InR w sg n) := by
  unfold InR
  split <;> infer_instance

/-- Not zero. -/
def truth {F : Floats} : Val F → Bool
  | .int n => n ≠ 0
  | .f32 x => F.nzS x
  | .f64 x => F.nzD x

/-- 0 or 1 -/
def ofBool {F : Floats} (b : Bool) : Val F := .int (if b then 1 else 0)

/-- Conversion to a type, C11 6.3.1.2-6.3.1.5; integers that do not fit wrap around, as gcc and clang have it. -/
def conv {F : Floats} : NTy → Val F → Res (Val F)
  | .bool, v => .ok (ofBool (truth v))
  | .int b s, .int n => .ok (.int (wrap b s n))
  | .int b s, .f32 x =>
    match F.intS x with
    | some n => if InR b s n then .ok (.int n) else .ub
    | none => .ub
  | .int b s, .f64 x =>
    match F.intD x with
    | some n => if InR b s n then .ok (.int n) else .ub
    | none => .ub
  | .f32, .int n => .ok (.f32 (F.ofS n))
  | .f32, .f32 x => .ok (.f32 x)
  | .f32, .f64 x => .ok (.f32 (F.down x))
  | .f64, .int n => .ok (.f64 (F.ofD n))
  | .f64, .f32 x => .ok (.f64 (F.up x))
  | .f64, .f64 x => .ok (.f64 x)

/-- The result of integer arithmetic: unsigned numbers wrap, signed overflow is undefined. -/
def fit {F : Floats} (w : W) (sg : Bool) (n : Int) : Res (Val F) :=
  if sg then (if InR w true n then .ok (.int n) else .ub) else .ok (.int (wrap w false n))

/-- Bitwise operators on the two's complement; left open. -/
opaque bitwise (op : Op) (a b : Int) : Int

/-- Integer arithmetic in a promoted type. -/
def intOp {F : Floats} (w : W) (sg : Bool) (op : Op) (m n : Int) : Res (Val F) :=
  match op with
  | .add => fit w sg (m + n)
  | .sub => fit w sg (m - n)
  | .mul => fit w sg (m * n)
  | .div => if n = 0 then .ub else fit w sg (m.tdiv n)
  | .mod => if n = 0 then .ub else fit w sg (m.tmod n)
  | .shl => if 0 ≤ n ∧ n < w.bits then fit w sg (m * 2 ^ n.toNat) else .ub
  | .shr => if 0 ≤ n ∧ n < w.bits then .ok (.int (wrap w sg (m / 2 ^ n.toNat))) else .ub
  | op => .ok (.int (wrap w sg (bitwise op m n)))

/-- Comparison of integers. -/
def intCmp (op : Op) (m n : Int) : Bool :=
  match op with
  | .eq => m = n
  | .ne => m ≠ n
  | .lt => m < n
  | .le => m ≤ n
  | .gt => n < m
  | _ => n ≤ m

/-- An operator on two values that have a common type. C has no `%`, shifts or bitwise operators on floats: that is an
error when the C code is compiled (`panic`). -/
def apply {F : Floats} (t : NTy) (op : Op) (v w : Val F) : Res (Val F) :=
  match t, v, w with
  | .int b s, .int m, .int n => if op.isCmp then .ok (ofBool (intCmp op m n)) else intOp b s op m n
  | .f32, .f32 x, .f32 y => if op.isCmp then .ok (ofBool (F.cmpS op x y)) 
    else if op.isArith then .ok (.f32 (F.binS op x y)) else .panic
  | .f64, .f64 x, .f64 y => if op.isCmp then .ok (ofBool (F.cmpD op x y)) 
    else if op.isArith then .ok (.f64 (F.binD op x y)) else .panic
  | _, _, _ => .panic

/-- The C type of a literal: `int` or `long`, `ULL` above (codegen.c:49-59). -/
def litTy (n : Nat) : NTy :=
  if n < 2 ^ 31 then i32 else if n < 2 ^ 63 then .int .w64 true else .int .w64 false

/-- The type of an expression in C, where `tmp a t` is the type of the temporary variable that holds `a`, of type `t`, in
`a ?? b`. -/
def ctype {F : Floats} (tmp : Ex F → NTy → NTy) (Γ : Name → NTy) : Ex F → NTy
  | .lit n => litTy n
  | .flt _ => .f64
  | .var x => Γ x
  | .neg a | .bnot a => promote (ctype tmp Γ a)
  | .lnot _ => i32
  | .bin op a b =>
    if op.isCmp || op == .and || op == .or then i32
    else if op == .shl || op == .shr then promote (ctype tmp Γ a)
    else usual (ctype tmp Γ a) (ctype tmp Γ b)
  | .cast t _ => t
  | .cond _ a b => usual (ctype tmp Γ a) (ctype tmp Γ b)
  | .coal a b => usual (tmp a (ctype tmp Γ a)) (ctype tmp Γ b)

/-- The value of an expression in C. Operands have no effects. -/
def value {F : Floats} (tmp : Ex F → NTy → NTy) (Γ : Name → NTy) (ρ : Name → Val F) : Ex F → Res (Val F)
  | .lit n => .ok (.int n)
  | .flt x => .ok (.f64 x)
  | .var x => .ok (ρ x)
  | .neg a => do
    match ← conv (promote (ctype tmp Γ a)) (← value tmp Γ ρ a), promote (ctype tmp Γ a) with
    | .int n, .int b s => fit b s (-n)
    | .f32 x, _ => .ok (.f32 (F.negS x))
    | .f64 x, _ => .ok (.f64 (F.negD x))
    | _, _ => .panic
  | .lnot a => do
    .ok (ofBool (!truth (← value tmp Γ ρ a)))
  | .bnot a => do
    match ← value tmp Γ ρ a, promote (ctype tmp Γ a) with
    | .int n, .int b s => .ok (.int (wrap b s (-n - 1)))
    | _, _ => .panic
  | .bin op a b =>
    if op = .and then do
      if truth (← value tmp Γ ρ a) then .ok (ofBool (truth (← value tmp Γ ρ b))) else .ok (ofBool false)
    else if op = .or then do
      if truth (← value tmp Γ ρ a) then .ok (ofBool true) else .ok (ofBool (truth (← value tmp Γ ρ b)))
    else if op = .shl ∨ op = .shr then do
      let t := promote (ctype tmp Γ a)
      apply t op (← conv t (← value tmp Γ ρ a)) (← conv (promote (ctype tmp Γ b)) (← value tmp Γ ρ b))
    else do
      let t := usual (ctype tmp Γ a) (ctype tmp Γ b)
      apply t op (← conv t (← value tmp Γ ρ a)) (← conv t (← value tmp Γ ρ b))
  | .cast t a => do conv t (← value tmp Γ ρ a)
  | .cond c a b => do
    let t := usual (ctype tmp Γ a) (ctype tmp Γ b)
    if truth (← value tmp Γ ρ c) then conv t (← value tmp Γ ρ a) else conv t (← value tmp Γ ρ b)
  | .coal a b => do
    let s := tmp a (ctype tmp Γ a)
    let t := usual s (ctype tmp Γ b)
    let v ← conv s (← value tmp Γ ρ a)
    if truth v then conv t v else conv t (← value tmp Γ ρ b)

/-! ## The compiler -/

/-- The type an expression gets in the parser. -/
inductive ZTy where
  /-- the program is rejected -/
  | rejected
  /-- none -/
  | unknown
  | known (t : NTy)
  deriving DecidableEq

/-- Binary operators, src/parser/parser_expr.c:6857-7204, for types of numbers: all integers are equal to
`type_eq` (src/ast/ast.c:166-170), and all floats, and then the left type is taken; an integer and a float give
the float for `+ - * /`; comparisons give `int`. -/
def ztypeBin (op : Op) : ZTy → ZTy → ZTy
  | .rejected, _ => .rejected
  | _, .rejected => .rejected
  | .known t, .known s =>
    if op.isCmp then .known i32
    else if t.isInt = s.isInt then .known t
    else if op.isArith then .known (if t.isInt then s else t)
    else .rejected
  | _, _ => .unknown

/-- The parser's type of an expression: literals parser_expr.c:1383-1435, unary operators 5027-5047, casts 3717-3733, `? :`
5327-5342 (none); `??` is a binary operator as any other. -/
def ztype {F : Floats} (Γ : Name → NTy) : Ex F → ZTy
  | .lit _ => .known i32
  | .flt _ => .known .f64
  | .var x => .known (Γ x)
  | .neg a | .lnot a | .bnot a => ztype Γ a
  | .bin op a b => ztypeBin op (ztype Γ a) (ztype Γ b)
  | .cast t a => if ztype Γ a = .rejected then .rejected else .known t
  | .cond c a b => if ztype Γ c = .rejected ∨ ztype Γ a = .rejected ∨ ztype Γ b = .rejected then .rejected else .unknown
  | .coal a b => ztypeBin .band (ztype Γ a) (ztype Γ b)

/-- `infer_type`, src/codegen/codegen_utils.c:190-654, which does not look at what the parser has found
for operators. `usize` is named `size_t` here, so that its case (line 474) is never met. -/
def infer {F : Floats} (Γ : Name → NTy) : Ex F → Option NTy
  | .lit _ => some i32
  | .flt _ => some .f64
  | .var x => some (Γ x)
  | .neg a | .lnot a | .bnot a => infer Γ a
  | .bin op a b =>
    if op.isCmp || op == .and || op == .or then some i32
    else if infer Γ a = some .f64 then some .f64
    else match infer Γ a with
      | some t => some t
      | none => infer Γ b
  | .cast t _ => some t
  | .cond _ _ _ => none
  | .coal a _ => infer Γ a

/-- `emit_auto_type` (codegen_utils.c:754-780) for the temporary variable of `??` (codegen.c:235-244). -/
def tmpOf {F : Floats} (Γ : Name → NTy) (a : Ex F) (t : NTy) : NTy := (infer Γ a).getD t

/-- The type `let x = e;` declares: none if the program is rejected. -/
def declared {F : Floats} (Γ : Name → NTy) (e : Ex F) : Option NTy :=
  match ztype Γ e with
  | .rejected => none
  | .known t => some t
  | .unknown => some ((infer Γ e).getD (ctype (tmpOf Γ) Γ e))

/-- What `x` holds after `let x = e;`. -/
def letValue {F : Floats} (Γ : Name → NTy) (ρ : Name → Val F) (e : Ex F) : Res (Val F) :=
  match declared Γ e with
  | none => .panic
  | some t => do conv t (← value (tmpOf Γ) Γ ρ e)

/-! ## Specification -/

namespace Spec

/-- The value of an expression as it stands: the C value, where `a ?? b` is `a` if that is not zero and else `b`. -/
def meaning {F : Floats} (Γ : Name → NTy) (ρ : Name → Val F) (e : Ex F) : Res (Val F) := value (fun _ t => t) Γ ρ e

/-- Its type. -/
def type {F : Floats} (Γ : Name → NTy) (e : Ex F) : NTy := ctype (fun _ t => t) Γ e

/-- A value has a type. -/
def HasTy {F : Floats} : NTy → Val F → Prop
  | .int b s, .int n => InR b s n
  | .bool, .int n => n = 0 ∨ n = 1
  | .f32, .f32 _ => True
  | .f64, .f64 _ => True
  | _, _ => False

/-- Expressions in which the left operand of every operator, other than comparisons, has the type of the result (or one
operand of an arithmetic operator is an integer and the other a float: `mix`). -/
def Kept {F : Floats} (Γ : Name → NTy) : Ex F → (mix : Bool) → Prop
  | .lit n, _ => n < 2 ^ 31
  | .flt _, _ => True
  | .var _, _ => True
  | .neg a, m => Kept Γ a m ∧ promote (type Γ a) = type Γ a
  | .bnot a, m => Kept Γ a m ∧ promote (type Γ a) = type Γ a
  | .lnot a, m => Kept Γ a m ∧ type Γ a = i32
  | .bin op a b, m =>
    if op.isCmp then Kept Γ a true ∧ Kept Γ b true
    else if op = .and ∨ op = .or then Kept Γ a true ∧ Kept Γ b true ∧ type Γ a = i32 ∧ (type Γ b).isInt
    else if op = .shl ∨ op = .shr then
      Kept Γ a m ∧ Kept Γ b true ∧ promote (type Γ a) = type Γ a ∧ (type Γ a).isInt = (type Γ b).isInt
    else if (type Γ a).isInt = (type Γ b).isInt then
      Kept Γ a m ∧ Kept Γ b true ∧ type Γ a = usual (type Γ a) (type Γ b)
    else m = true ∧ op.isArith ∧ Kept Γ a true ∧ Kept Γ b true
  | .cast _ a, _ => Kept Γ a true
  | .cond _ _ _, _ => False
  | .coal a b, _ => Kept Γ a false ∧ Kept Γ b true ∧ (type Γ a).isInt = (type Γ b).isInt ∧
    type Γ a = usual (type Γ a) (type Γ b)

/-- Conditions: `!`, `&&` and `||` over such expressions, of any integer types. -/
def Logic {F : Floats} (Γ : Name → NTy) : Ex F → Prop
  | .lnot a => Logic Γ a
  | .bin op a b =>
    if op = .and ∨ op = .or then Logic Γ a ∧ Logic Γ b
    else Kept Γ (.bin op a b) true ∧ (type Γ (.bin op a b)).isInt
  | e => Kept Γ e true ∧ (type Γ e).isInt

/-- Without `??`. -/
def Plain {F : Floats} : Ex F → Prop
  | .lit _ | .flt _ | .var _ => True
  | .neg a | .lnot a | .bnot a | .cast _ a => Plain a
  | .bin _ a b => Plain a ∧ Plain b
  | .cond c a b => Plain c ∧ Plain a ∧ Plain b
  | .coal _ _ => False

end Spec

end Verif.NumType
