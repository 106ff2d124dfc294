import Verif.Basic

/-!
# Operators of structs and strings

Models how operators become calls of methods (`get_operator_method`, /repo/src/parser/parser_expr.c:4339-4412; binary operators,
parser_expr.c:6678-6855; unary ones, 4932-5020; compound assignments, 6509-6603; constants, 6465-6505; elements, 6607-6676 and
4163-4213) and the C code of `==` and `!=` (/repo/src/codegen/codegen.c:257-407) and of `&_rval` (codegen.c:1393-1400).

Simplified: methods do not change what they are given; operands are evaluated from left to right; aliases, enums and
comparisons with `NULL` are left out; numbers are one type.
-/

namespace Verif.Overload

/-- Names of structs and methods. -/
abbrev Name := String

/-- Types: numbers, `string`, `char*`, structs and pointers to them. -/
inductive Ty where
  | num
  | str
  | cstr
  | st (s : Name)
  | ptr (s : Name)
  deriving DecidableEq

/-- Kinds of nodes: variables, fields and elements; calls, binary operators and `match`; struct literals and casts; the others, like
conditional expressions. -/
inductive Kind where
  | place
  | fresh
  | init
  | other
  deriving DecidableEq

/-- A method: whether `self` is a pointer, the type of the other parameter, that of the result. -/
structure Sig where
  selfPtr : Bool
  other : Ty
  ret : Ty
  deriving DecidableEq

/-- A C function: of an `impl S` (`S__m`) or of an `impl T for S` (`S__T_m`). -/
inductive Fn where
  | own (s m : Name)
  | ofTrait (s m : Name)
  deriving DecidableEq

/-- The functions that are known. -/
abbrev Funcs := Fn → Option Sig

/-- Expressions; a leaf is an operand with its kind, its type and its number. -/
inductive Ex where
  | leaf (k : Kind) (t : Ty) (i : Nat)
  | bin (op : String) (a b : Ex)
  | un (op : String) (a : Ex)

/-- C expressions. `rval c` is `(__typeof__((c))[]){c}`, a pointer to a copy. -/
inductive C where
  | leaf (k : Kind) (t : Ty) (i : Nat)
  | addr (c : C)
  | rval (c : C)
  | deref (c : C)
  | call1 (f : Fn) (a : C)
  | call2 (f : Fn) (a b : C)
  | not (c : C)
  | op (o : String) (a b : C)
  | uop (o : String) (a : C)
  | text (neg : Bool) (a b : C)

/-- `get_operator_method`, parser_expr.c:4339-4412. -/
def methodOf (op : String) : Option Name :=
  if op = "+" then some "add" else if op = "-" then some "sub" else if op = "*" then some "mul"
  else if op = "/" then some "div" else if op = "%" then some "rem" else if op = "==" then some "eq"
  else if op = "!=" then some "neq" else if op = "<" then some "lt" else if op = ">" then some "gt"
  else if op = "<=" then some "le" else if op = ">=" then some "ge" else if op = "&" then some "bitand"
  else if op = "|" then some "bitor" else if op = "^" then some "bitxor" else if op = "<<" then some "shl"
  else if op = ">>" then some "shr" else none

/-- Methods of unary operators, parser_expr.c:4951-4964. -/
def unMethodOf (op : String) : Option Name :=
  if op = "-" then some "neg" else if op = "!" then some "not" else if op = "~" then some "bitnot" else none

/-- The struct of a type and whether it is a pointer (`resolve_struct_name_from_type`, parser_expr.c:4413-). -/
def structOf : Ty → Option (Name × Bool)
  | .st s => some (s, false)
  | .ptr s => some (s, true)
  | _ => none

/-- The function for an operator, parser_expr.c:6720-6750: `S__m`, else one of a trait. -/
def findOp (F : Funcs) (s m : Name) : Option (Fn × Sig) :=
  match F (.own s m) with
  | some g => some (.own s m, g)
  | none =>
    match F (.ofTrait s m) with
    | some g => some (.ofTrait s m, g)
    | none => none

/-- An operand where a pointer is expected and a value is there: `&` or `&_rval`, parser_expr.c:6763-6777. -/
def ref (k : Kind) (c : C) : C :=
  match k with
  | .fresh | .init => .rval c
  | _ => .addr c

/-- The same for unary operators: struct literals and casts are forgotten, parser_expr.c:4990-4996. -/
def refUn (k : Kind) (c : C) : C :=
  match k with
  | .fresh => .rval c
  | _ => .addr c

/-- `self`, parser_expr.c:6757-6795. -/
def selfArg (g : Sig) (isPtr : Bool) (k : Kind) (c : C) : C :=
  if g.selfPtr then (if isPtr then c else ref k c) else (if isPtr then .deref c else c)

/-- The other argument, parser_expr.c:6797-6836: `&` if a pointer is expected and none is there. -/
def otherArg (g : Sig) (t : Ty) (k : Kind) (c : C) : C :=
  match g.other, t with
  | .ptr _, .ptr _ => c
  | .ptr _, _ => ref k c
  | _, _ => c

/-- The operand of `==` in the C code if it is a struct: `&` of places, codegen.c:318-352. -/
def refEq (k : Kind) (c : C) : C :=
  match k with
  | .place => .addr c
  | _ => .rval c

/-- What the C code of a binary operator is if the parser has not made it a call, codegen.c:257-407. -/
def plain (op : String) (ta : Ty) (ka kb : Kind) (a b : C) : C :=
  if op = "==" ∨ op = "!=" then
    match ta with
    | .st s => if op = "!=" then .not (.call2 (.own s "eq") (refEq ka a) (refEq kb b)) else .call2 (.own s "eq") (refEq ka a) (refEq kb b)
    | .str => .text (op = "!=") a b
    | .cstr => .text (op = "!=") a b
    | _ => .op op a b
  else .op op a b

/-- Comparisons are numbers. -/
def isCmp (op : String) : Bool := op = "==" ∨ op = "!=" ∨ op = "<" ∨ op = ">" ∨ op = "<=" ∨ op = ">="

/-- The method of a binary operator that the parser takes, parser_expr.c:6678-6752: not if two pointers are compared. -/
def chosen (F : Funcs) (op : String) (ta tb : Ty) : Option (Fn × Sig × Bool) :=
  match methodOf op, structOf ta with
  | some m, some (s, isPtr) =>
    if isPtr ∧ (op = "==" ∨ op = "!=") ∧ (structOf tb).any (·.2) then none
    else
      match findOp F s m with
      | some (f, g) => some (f, g, isPtr)
      | none => none
  | _, _ => none

/-- A binary operator, parser_expr.c:6678-6855: the C code, the type and the kind of the node. -/
def trBin (F : Funcs) (op : String) (x y : C × Ty × Kind) : C × Ty × Kind :=
  match chosen F op x.2.1 y.2.1 with
  | some (f, g, isPtr) => (.call2 f (selfArg g isPtr x.2.2 x.1) (otherArg g y.2.1 y.2.2 y.1), g.ret, .fresh)
  | none => (plain op x.2.1 x.2.2 y.2.2 x.1 y.1, if isCmp op then .num else x.2.1, .fresh)

/-- A unary operator, parser_expr.c:4932-5020: only methods of an `impl S`. -/
def trUn (F : Funcs) (op : String) (x : C × Ty × Kind) : C × Ty × Kind :=
  match unMethodOf op, structOf x.2.1 with
  | some m, some (s, isPtr) =>
    match F (.own s m) with
    | some g => (.call1 (.own s m) (if g.selfPtr then (if isPtr then x.1 else refUn x.2.2 x.1) else (if isPtr then .deref x.1 else x.1)), g.ret, .fresh)
    | none => (.uop op x.1, x.2.1, .other)
  | _, _ => (.uop op x.1, x.2.1, .other)

/-- An expression: C code, type, kind of node. -/
def tr (F : Funcs) : Ex → C × Ty × Kind
  | .leaf k t i => (.leaf k t i, t, k)
  | .bin op a b => trBin F op (tr F a) (tr F b)
  | .un op a => trUn F op (tr F a)

/-! ## Values -/

/-- Values: numbers, texts with their address, structs, pointers to structs with what is there. -/
inductive V where
  | num (n : Int)
  | text (cs : Bool) (a : Int) (t : List Char)
  | obj (s : Name) (d : List Int)
  | ptr (s : Name) (a : Int) (d : List Int)
  deriving DecidableEq

/-- The type of a value. -/
def V.ty : V → Ty
  | .num _ => .num
  | .text true _ _ => .cstr
  | .text false _ _ => .str
  | .obj s _ => .st s
  | .ptr s _ _ => .ptr s

/-- What a pointer points to. -/
def V.strip : V → V
  | .ptr s _ d => .obj s d
  | v => v

/-- What leaves, methods and operators of numbers are. -/
structure World where
  val : Nat → V
  addr : Nat → Int
  meth1 : Fn → V → V
  meth2 : Fn → V → V → V
  op : String → Int → Int → Int
  uop : String → Int → Int

/-- `char*` and `string` are the same type in C. -/
def cFits (want got : Ty) : Bool :=
  want == got || ((want == .str || want == .cstr) && (got == .str || got == .cstr))

/-- The parameter `self` in C. -/
def selfTy (f : Fn) (g : Sig) : Ty :=
  match f with
  | .own s _ | .ofTrait s _ => if g.selfPtr then .ptr s else .st s

/-- Truth as a number. -/
def truth (b : Bool) : V := .num (if b then 1 else 0)

/-- `!` of a number. -/
def negated : V → Option V
  | .num n => some (truth (n = 0))
  | _ => none

/-- Addresses of texts and pointers. -/
def V.at? : V → Option Int
  | .text _ a _ => some a
  | .ptr _ a _ => some a
  | _ => none

/-- Operators of C: of numbers, and `==` and `!=` of pointers. -/
def cOp (W : World) (o : String) (v w : V) : Option V :=
  match v, w with
  | .num n, .num m => some (.num (W.op o n m))
  | _, _ =>
    match v.at?, w.at? with
    | some a, some b =>
      if o = "==" then some (truth (a = b)) else if o = "!=" then some (truth (a ≠ b)) else none
    | _, _ => none

/-- The C code: its value and the operands it evaluates, in order; `none` if the C compiler rejects it. -/
def evalC (F : Funcs) (W : World) : C → Option (V × List Nat)
  | .leaf _ _ i => some (W.val i, [i])
  | .addr c =>
    match c with
    | .leaf .place _ i =>
      match W.val i with
      | .obj s d => some (.ptr s (W.addr i) d, [i])
      | _ => none
    | _ => none
  | .rval c =>
    match evalC F W c with
    | some (.obj s d, l) => some (.ptr s (-1) d, l)
    | _ => none
  | .deref c =>
    match evalC F W c with
    | some (.ptr s _ d, l) => some (.obj s d, l)
    | _ => none
  | .call1 f a =>
    match F f, evalC F W a with
    | some g, some (v, l) => if cFits (selfTy f g) v.ty then some (W.meth1 f v.strip, l) else none
    | _, _ => none
  | .call2 f a b =>
    match F f, evalC F W a, evalC F W b with
    | some g, some (v, l), some (w, r) =>
      if cFits (selfTy f g) v.ty && cFits g.other w.ty then some (W.meth2 f v.strip w.strip, l ++ r) else none
    | _, _, _ => none
  | .not c =>
    match evalC F W c with
    | some (v, l) => (negated v).map (·, l)
    | none => none
  | .op o a b =>
    match evalC F W a, evalC F W b with
    | some (v, l), some (w, r) => (cOp W o v w).map (·, l ++ r)
    | _, _ => none
  | .uop o a =>
    match evalC F W a with
    | some (.num n, l) => some (.num (W.uop o n), l)
    | _ => none
  | .text neg a b =>
    match evalC F W a, evalC F W b with
    | some (.text _ _ t, l), some (.text _ _ u, r) => some (truth (if neg then t ≠ u else t = u), l ++ r)
    | _, _ => none

/-! ## Statements -/

/-- The operators the compiler rejects for constants, parser_expr.c:6465-6467. -/
def constChecked (op : String) : Bool := op = "=" ∨ op = "+=" ∨ op = "-=" ∨ op = "*=" ∨ op = "/="

/-- `a op= b`, parser_expr.c:6525-6602: `a = a op b`, but only methods of an `impl S` are looked for, and the other argument is
given as it is. -/
def trCompound (F : Funcs) (op : String) (x y : C × Ty × Kind) : C :=
  match methodOf op, structOf x.2.1 with
  | some m, some (s, isPtr) =>
    match F (.own s m) with
    | some g => .call2 (.own s m) (if g.selfPtr then (if isPtr then x.1 else .addr x.1) else (if isPtr then .deref x.1 else x.1)) y.1
    | none => plain op x.2.1 x.2.2 y.2.2 x.1 y.1
  | _, _ => plain op x.2.1 x.2.2 y.2.2 x.1 y.1

/-- `x[i]` of a struct with `get`, parser_expr.c:4163-4211: `&` without regard to the kind. -/
def trGet (F : Funcs) (x : C × Ty × Kind) (i : C) : Option C :=
  match x.2.1 with
  | .st s =>
    match F (.own s "get") with
    | some g => some (.call2 (.own s "get") (if g.selfPtr then .addr x.1 else x.1) i)
    | none => none
  | _ => none

/-- The name that is called by `f(…) = v`, parser_expr.c:6612-6626: that of `f` with `_set` for `_get`. -/
def setName (f : String) : Option String :=
  let cs := f.toList
  if 4 < cs.length ∧ cs.drop (cs.length - 4) = "_get".toList then some (String.ofList (cs.take (cs.length - 3) ++ "set".toList)) else none

/-! ## Specification -/

namespace Spec

/-- The documented methods, README.md:601-613. -/
inductive Documented : String → Name → Prop where
  | add : Documented "+" "add"
  | sub : Documented "-" "sub"
  | mul : Documented "*" "mul"
  | div : Documented "/" "div"
  | rem : Documented "%" "rem"
  | eq : Documented "==" "eq"
  | neq : Documented "!=" "neq"
  | lt : Documented "<" "lt"
  | gt : Documented ">" "gt"
  | le : Documented "<=" "le"
  | ge : Documented ">=" "ge"
  | bitand : Documented "&" "bitand"
  | bitor : Documented "|" "bitor"
  | bitxor : Documented "^" "bitxor"
  | shl : Documented "<<" "shl"
  | shr : Documented ">>" "shr"

/-- Those of unary operators. -/
inductive DocumentedUn : String → Name → Prop where
  | neg : DocumentedUn "-" "neg"
  | not : DocumentedUn "!" "not"
  | bitnot : DocumentedUn "~" "bitnot"

/-- The struct of an operand: itself or what it points to. -/
def structTy : Ty → Option Name
  | .st s => some s
  | .ptr s => some s
  | _ => none

/-- The method: of the struct, or of one of its traits. -/
inductive Has (F : Funcs) (s m : Name) : Fn → Sig → Prop where
  | own (g) : F (.own s m) = some g → Has F s m (.own s m) g
  | ofTrait (g) : F (.own s m) = none → F (.ofTrait s m) = some g → Has F s m (.ofTrait s m) g

/-- What an expression means (README.md:595-631): its type, its value, and that every operand is evaluated once, from left to right. -/
inductive Means (F : Funcs) (W : World) : Ex → Ty → V → List Nat → Prop where
  /-- operands -/
  | leaf (k t i) : Means F W (.leaf k t i) t (W.val i) [i]
  /-- an operator with a method; two pointers are not compared by a method -/
  | meth {op m a b ta tb va vb la lb s f g} : Means F W a ta va la → Means F W b tb vb lb → Documented op m → structTy ta = some s →
      ¬ ((op = "==" ∨ op = "!=") ∧ (∃ s, ta = .ptr s) ∧ ∃ s, tb = .ptr s) → Has F s m f g →
      Means F W (.bin op a b) g.ret (W.meth2 f va.strip vb.strip) (la ++ lb)
  /-- `!=` without `neq` -/
  | neq {a b ta tb va vb la lb s g v} : Means F W a ta va la → Means F W b tb vb lb → ta = .st s → (∀ f g, ¬ Has F s "neq" f g) →
      F (.own s "eq") = some g → negated (W.meth2 (.own s "eq") va.strip vb.strip) = some v → Means F W (.bin "!=" a b) .num v (la ++ lb)
  /-- numbers -/
  | num {op a b n m la lb} : Means F W a .num (.num n) la → Means F W b .num (.num m) lb →
      Means F W (.bin op a b) .num (.num (W.op op n m)) (la ++ lb)
  /-- two strings: their texts -/
  | str {a b x y t u la lb} (neg : Bool) : Means F W a .str (.text false x t) la → Means F W b .str (.text false y u) lb →
      Means F W (.bin (if neg then "!=" else "==") a b) .num (truth (if neg then t ≠ u else t = u)) (la ++ lb)
  /-- two pointers: their addresses -/
  | ptr {a b x y s r d e la lb} (neg : Bool) : Means F W a (.ptr s) (.ptr s x d) la → Means F W b (.ptr r) (.ptr r y e) lb →
      Means F W (.bin (if neg then "!=" else "==") a b) .num (truth (if neg then x ≠ y else x = y)) (la ++ lb)
  /-- a unary operator with a method -/
  | un {op m a ta va la s g} : Means F W a ta va la → DocumentedUn op m → structTy ta = some s → F (.own s m) = some g →
      Means F W (.un op a) g.ret (W.meth1 (.own s m) va.strip) la
  /-- of a number -/
  | unNum {op a n la} : Means F W a .num (.num n) la → Means F W (.un op a) .num (.num (W.uop op n)) la

/-- Values have the types that are written. -/
structure Typed (F : Funcs) (W : World) : Prop where
  meth1 : ∀ f g v, F f = some g → (W.meth1 f v).ty = g.ret
  meth2 : ∀ f g v w, F f = some g → (W.meth2 f v w).ty = g.ret

/-- The leaves have their types. -/
def Leaves (W : World) : Ex → Prop
  | .leaf _ t i => (W.val i).ty = t
  | .bin _ a b => Leaves W a ∧ Leaves W b
  | .un _ a => Leaves W a

/-- The operand can be given where a pointer to a struct is expected: it has an address, or the parser knows that it has none. -/
def Able (k : Kind) : Prop := k ≠ .other

/-- The other operand fits the parameter. -/
def FitsOther (g : Sig) (t : Ty) (k : Kind) : Prop := g.other = t ∨ ∃ s, g.other = .ptr s ∧ t = .st s ∧ Able k

/-- The expressions the claim is made for, for the functions that are known. -/
def Good (F : Funcs) : Ex → Prop
  | .leaf _ _ _ => True
  | .bin op a b => Good F a ∧ Good F b ∧
    (∀ s m f g, Documented op m → structTy (tr F a).2.1 = some s → Has F s m f g →
      (g.selfPtr = true → (∃ s, (tr F a).2.1 = .st s) → Able (tr F a).2.2) ∧ FitsOther g (tr F b).2.1 (tr F b).2.2) ∧
    (∀ s g, op = "!=" → (tr F a).2.1 = .st s → (∀ f g, ¬ Has F s "neq" f g) → F (.own s "eq") = some g →
      g.selfPtr = true ∧ g.other = .ptr s ∧ (tr F b).2.1 = .st s)
  | .un op a => Good F a ∧
    (∀ s m g, DocumentedUn op m → structTy (tr F a).2.1 = some s → F (.own s m) = some g →
      g.selfPtr = true → (∃ s, (tr F a).2.1 = .st s) → Able (tr F a).2.2 ∧ (tr F a).2.2 ≠ .init)

end Spec

end Verif.Overload
