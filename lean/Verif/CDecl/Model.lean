import Verif.Basic

/-!
# Model of C declarations

The text of types (`type_to_c_string`, src/ast/ast.c:482-755) and how names are put into it: `emit_c_decl` (src/codegen/codegen_utils.c:43-110) for variables, fields and
parameters, `emit_func_signature` (src/codegen/codegen_utils.c:790-902) for functions.

Simplified: text is a list of tokens of C; `"(*"`, `"(*)"`, `'['` and `')'` are looked for in it as the code does. The names of types (numbers here) stand for everything
that is written as one name: scalars, structs, instances, slices, closures (ast.c:508-590, 650-658, 733-754). No `const`, `restrict`, vectors (606-617), `@ctype`, variable arguments.
-/

namespace Verif.CDecl

/-- Tokens of C; `[n]` is one. -/
inductive Tok where
  | id (s : Nat)
  | star
  | arr (n : Nat)
  | lp
  | rp
  | comma
  deriving DecidableEq, Repr

mutual
/-- Types of the language: `fn` is a function pointer (`fn*(…) -> …`). -/
inductive Ty where
  | base (s : Nat)
  | ptr (t : Ty)
  | arr (n : Nat) (t : Ty)
  | fn (as : Tys) (r : Ty)
/-- Types of parameters. -/
inductive Tys where
  | nil
  | cons (t : Ty) (r : Tys)
end

/-- `strstr(s, "(*")`: what is before and behind it. -/
def findPtr : List Tok → Option (List Tok × List Tok)
  | [] => none
  | .lp :: .star :: r => some ([], r)
  | x :: r => (findPtr r).map fun p => (x :: p.1, p.2)

/-- `strstr(s, "(*)")` -/
def findFn : List Tok → Option (List Tok × List Tok)
  | [] => none
  | .lp :: .star :: .rp :: r => some ([], r)
  | x :: r => (findFn r).map fun p => (x :: p.1, p.2)

/-- The text in front of the first token of a kind, and from it on. -/
def cut (p : Tok → Bool) : List Tok → List Tok × List Tok
  | [] => ([], [])
  | x :: r => if p x then ([], x :: r) else (x :: (cut p r).1, (cut p r).2)

/-- `strchr(s, '[')` -/
def isArr : Tok → Bool
  | .arr _ => true
  | _ => false

/-- A pointer to something (ast.c:619-648). -/
def cptr (s : List Tok) : List Tok :=
  match findPtr s with
  | some (a, b) => a ++ .lp :: .star :: .star :: b
  | none => s ++ [.star]

mutual
/-- `type_to_c_string`; `ds` are the sizes collected by the loop over nested arrays (ast.c:660-701). -/
def cstr : List Tok → Ty → List Tok
  | ds, .base s => .id s :: ds
  | ds, .ptr t => cptr (cstr [] t) ++ ds
  | ds, .arr n t => cstr (ds ++ [.arr n]) t
  | ds, .fn as r => cstr [] r ++ .lp :: .star :: .rp :: .lp :: cargs as ++ .rp :: ds
/-- The types of the parameters of a function pointer, ast.c:703-732. -/
def cargs : Tys → List Tok
  | .nil => []
  | .cons t .nil => cstr [] t
  | .cons t (.cons u r) => cstr [] t ++ .comma :: cargs (.cons u r)
end

/-- `emit_c_decl` -/
def emit (s : List Tok) (x : Nat) : List Tok :=
  match findPtr s with
  | some (a, b) => a ++ .lp :: .star :: (cut (· == .rp) b).1 ++ .id x :: (cut (· == .rp) b).2
  | none => (cut isArr s).1 ++ .id x :: (cut isArr s).2

/-- Parameters with their names (codegen_utils.c:847-883). -/
def eparams : List (Ty × Nat) → List Tok
  | [] => []
  | [p] => emit (cstr [] p.1) p.2
  | p :: q :: r => emit (cstr [] p.1) p.2 ++ .comma :: eparams (q :: r)

/-- The parameters of a function; without any, `void` (0). -/
def eargs (ps : List (Ty × Nat)) : List Tok := if ps = [] then [.id 0] else eparams ps

/-- `emit_func_signature` -/
def sig (r : Ty) (x : Nat) (ps : List (Ty × Nat)) : List Tok :=
  match findFn (cstr [] r) with
  | some (a, b) => a ++ .lp :: .star :: .id x :: .lp :: eargs ps ++ .rp :: .rp :: b
  | none => cstr [] r ++ .id x :: .lp :: eargs ps ++ [.rp]

/-! ## specification: declarations of C -/

namespace Spec

mutual
/-- Types of C. -/
inductive CTy where
  | base (s : Nat)
  | ptr (t : CTy)
  | arr (n : Nat) (t : CTy)
  | fn (ps : CTys) (r : CTy)
inductive CTys where
  | nil
  | cons (t : CTy) (r : CTys)
end

/-- What a declarator puts around a type. -/
inductive Ctor where
  | ptr
  | arr (n : Nat)
  | fn (ps : CTys)

/-- The type from the name outwards. -/
def build : List Ctor → CTy → CTy
  | [], t => t
  | .ptr :: l, t => .ptr (build l t)
  | .arr n :: l, t => .arr n (build l t)
  | .fn ps :: l, t => .fn ps (build l t)

mutual
/-- A declarator, with or without a name (C11, 6.7.6 and 6.7.7): what it says, from the name outwards, the name, and the tokens behind it. The first number bounds the depth. -/
def declr : Nat → List Tok → Option (List Ctor × Option Nat × List Tok)
  | 0, _ => none
  | f + 1, .star :: ts => do
    let (m, x, r) ← declr f ts
    some (m ++ [.ptr], x, r)
  | f + 1, .lp :: .star :: ts => do
    let (m, x, r) ← declr f (.star :: ts)
    match r with
    | .rp :: r => do
      let (g, r) ← suffix f r
      some (m ++ g, x, r)
    | _ => none
  | f + 1, .id x :: ts => do
    let (g, r) ← suffix f ts
    some (g, some x, r)
  | f + 1, ts => do
    let (g, r) ← suffix f ts
    some (g, none, r)
/-- Sizes and parameters behind a declarator. -/
def suffix : Nat → List Tok → Option (List Ctor × List Tok)
  | 0, _ => none
  | f + 1, .arr n :: ts => do
    let (g, r) ← suffix f ts
    some (.arr n :: g, r)
  | f + 1, .lp :: ts => do
    let (ps, r) ← params f ts
    let (g, r) ← suffix f r
    some (.fn ps :: g, r)
  | _ + 1, ts => some ([], ts)
/-- Parameters up to the closing parenthesis. -/
def params : Nat → List Tok → Option (CTys × List Tok)
  | 0, _ => none
  | _ + 1, .rp :: r => some (.nil, r)
  | _ + 1, .id 0 :: .rp :: r => some (.nil, r)
  | f + 1, ts => do
    let (t, _, r) ← decl f ts
    match r with
    | .rp :: r => some (.cons t .nil, r)
    | .comma :: r => do
      let (ps, r) ← params f r
      some (.cons t ps, r)
    | _ => none
/-- A declaration: the name of a type and a declarator. -/
def decl : Nat → List Tok → Option (CTy × Option Nat × List Tok)
  | 0, _ => none
  | f + 1, .id s :: ts => do
    let (m, x, r) ← declr f ts
    some (build m (.base s), x, r)
  | _ + 1, _ => none
end

/-- The tokens are the declaration of a name with a type. -/
def Declares (ts : List Tok) (x : Nat) (t : CTy) : Prop := ∃ n, ∀ f, n ≤ f → decl f ts = some (t, some x, [])

mutual
/-- The type of C that a type of the language stands for. -/
def cty : Ty → CTy
  | .base s => .base s
  | .ptr t => .ptr (cty t)
  | .arr n t => .arr n (cty t)
  | .fn as r => .ptr (.fn (ctys as) (cty r))
def ctys : Tys → CTys
  | .nil => .nil
  | .cons t r => .cons (cty t) (ctys r)
end

/-- Pointers to types with names. -/
def simple : Ty → Bool
  | .base _ => true
  | .ptr t => simple t
  | _ => false

/-- Arrays of those. -/
def arrays : Ty → Bool
  | .arr _ t => arrays t
  | t => simple t

mutual
/-- Types whose declarations are right: arrays of pointers to named types; pointers to function pointers whose results are simple. -/
def good : Ty → Bool
  | .base s => s != 0
  | .ptr t => simple t || fnptr t
  | .arr _ t => arrays t
  | .fn as r => simple r && goods as
/-- Function pointers and pointers to them. -/
def fnptr : Ty → Bool
  | .ptr t => fnptr t
  | .fn as r => simple r && goods as
  | _ => false
def goods : Tys → Bool
  | .nil => true
  | .cons t r => good t && goods r
end

end Spec
end Verif.CDecl
