import Verif.Basic

/-! # Expressions and the C they become

`codegen_expression` (src/codegen/codegen.c:215-1700) writes `??`, `?.`, blocks and `if` as GNU statement expressions with helper variables
`_l`, `_t` and `_ifval`; the parser has rewritten `a op= b` to `a = a op b` before (src/parser/parser_expr.c:6503-6592).

Modelled: values are words (all types alike: conversions are in `NumType`); variables are local and found by name; memory is reached through
addresses (`a[i]`, `p.f`, `*p` are loads from an address an expression computes); functions are any functions of a word and of
the world; operands of an operator or assignment are evaluated left to right or right to left (`rf`), as C leaves open. -/

namespace Verif.ExprGen

abbrev Name := String

/-- Memory, and whatever else functions see. -/
structure World (T : Type) where
  mem : Int → Int
  rest : T

/-- The values of the variables with a name, innermost first; none if it has not been set. No values: not declared. -/
abbrev Env := Name → List (Option Int)

/-- Declares a variable. -/
def Env.push (ρ : Env) (x : Name) (v : Option Int) : Env := fun y => if y = x then v :: ρ y else ρ y

/-- Leaves its scope. -/
def Env.pop (ρ : Env) (x : Name) : Env := fun y => if y = x then (ρ y).tail else ρ y

/-- Sets the innermost. -/
def Env.set (ρ : Env) (x : Name) (v : Int) : Env := fun y => if y = x then some v :: (ρ y).tail else ρ y

/-- What the language is over: operators and functions, which yield a word. -/
structure Lang (T : Type) where
  op : Name → Int → Int → Res Int
  fn : Name → Int → World T → Int × World T

/-- Expressions of the source; statements in blocks are expressions too. -/
inductive Ex where
  | lit (n : Int)
  | var (x : Name)
  | bin (op : Name) (a b : Ex)
  | land (a b : Ex)
  | lor (a b : Ex)
  | cond (c a b : Ex)
  /-- what is at an address -/
  | load (a : Ex)
  | call (f : Name) (a : Ex)
  | asg (x : Name) (a : Ex)
  | store (a b : Ex)
  /-- `x op= b` -/
  | opAsg (op : Name) (x : Name) (b : Ex)
  /-- `*a op= b` -/
  | opStore (op : Name) (a b : Ex)
  /-- `a ?? b` -/
  | coal (a b : Ex)
  /-- `x ??= b` -/
  | coalAsg (x : Name) (b : Ex)
  /-- `*a ??= b` -/
  | coalStore (a b : Ex)
  /-- `a?.f`, with the place of the field -/
  | opt (a : Ex) (off : Int)
  /-- `if c { a } else { b }` -/
  | ifE (c a b : Ex)
  /-- `if c { a }` -/
  | ifNo (c a : Ex)
  /-- `let x = a; b` -/
  | letE (x : Name) (a b : Ex)
  /-- `a; b` -/
  | seq (a b : Ex)

/-- Expressions and statements of C. -/
inductive CE where
  | lit (n : Int)
  | var (x : Name)
  | bin (op : Name) (a b : CE)
  | land (a b : CE)
  | lor (a b : CE)
  | cond (c a b : CE)
  | load (a : CE)
  /-- `a->f`, with the place of the field -/
  | arrow (a : CE) (off : Int)
  | call (f : Name) (a : CE)
  | asg (x : Name) (a : CE)
  | store (a b : CE)
  /-- `{ T x = a; b }`: the scope of `x` begins before `a` -/
  | dcl (x : Name) (a b : CE)
  /-- `{ T x; b }` -/
  | raw (x : Name) (b : CE)
  /-- `__typeof__` of an expression with these names; then `b` -/
  | typ (ns : List Name) (b : CE)
  /-- `if (c) { a } else { b }` -/
  | ifs (c a b : CE)
  | seq (a b : CE)
  | skip

/-- Reading a variable. -/
def Env.get (ρ : Env) (x : Name) : Res Int :=
  match ρ x with
  | some v :: _ => .ok v
  | none :: _ => .ub
  | [] => .panic

/-- Writing a variable. -/
def Env.put (ρ : Env) (x : Name) (v : Int) : Res Env :=
  match ρ x with
  | _ :: _ => .ok (ρ.set x v)
  | [] => .panic

/-- Writing memory. -/
def World.write {T : Type} (w : World T) (a v : Int) : World T := { w with mem := fun b => if b = a then v else w.mem b }

/-- C. A name that is not declared is an error (`panic`), an unset variable is undefined behaviour. -/
def run {T : Type} (L : Lang T) (rf : Bool) : CE → Env → World T → Res (Int × Env × World T)
  | .lit n, ρ, w => .ok (n, ρ, w)
  | .var x, ρ, w => do
    let v ← ρ.get x
    .ok (v, ρ, w)
  | .bin op a b, ρ, w =>
    if rf then do
      let (vb, ρ, w) ← run L rf b ρ w
      let (va, ρ, w) ← run L rf a ρ w
      let v ← L.op op va vb
      .ok (v, ρ, w)
    else do
      let (va, ρ, w) ← run L rf a ρ w
      let (vb, ρ, w) ← run L rf b ρ w
      let v ← L.op op va vb
      .ok (v, ρ, w)
  | .land a b, ρ, w => do
    let (va, ρ, w) ← run L rf a ρ w
    if va = 0 then .ok (0, ρ, w) else do
      let (vb, ρ, w) ← run L rf b ρ w
      .ok (if vb = 0 then 0 else 1, ρ, w)
  | .lor a b, ρ, w => do
    let (va, ρ, w) ← run L rf a ρ w
    if va = 0 then do
      let (vb, ρ, w) ← run L rf b ρ w
      .ok (if vb = 0 then 0 else 1, ρ, w)
    else .ok (1, ρ, w)
  | .cond c a b, ρ, w => do
    let (vc, ρ, w) ← run L rf c ρ w
    if vc = 0 then run L rf b ρ w else run L rf a ρ w
  | .load a, ρ, w => do
    let (p, ρ, w) ← run L rf a ρ w
    .ok (w.mem p, ρ, w)
  | .arrow a off, ρ, w => do
    let (p, ρ, w) ← run L rf a ρ w
    .ok (w.mem (p + off), ρ, w)
  | .call f a, ρ, w => do
    let (v, ρ, w) ← run L rf a ρ w
    .ok ((L.fn f v w).1, ρ, (L.fn f v w).2)
  | .asg x a, ρ, w => do
    let (v, ρ, w) ← run L rf a ρ w
    let ρ ← ρ.put x v
    .ok (v, ρ, w)
  | .store a b, ρ, w =>
    if rf then do
      let (v, ρ, w) ← run L rf b ρ w
      let (p, ρ, w) ← run L rf a ρ w
      .ok (v, ρ, w.write p v)
    else do
      let (p, ρ, w) ← run L rf a ρ w
      let (v, ρ, w) ← run L rf b ρ w
      .ok (v, ρ, w.write p v)
  | .dcl x a b, ρ, w => do
    let (v, ρ, w) ← run L rf a (ρ.push x none) w
    let ρ ← ρ.put x v
    let (u, ρ, w) ← run L rf b ρ w
    .ok (u, ρ.pop x, w)
  | .raw x b, ρ, w => do
    let (u, ρ, w) ← run L rf b (ρ.push x none) w
    .ok (u, ρ.pop x, w)
  | .typ ns b, ρ, w => if ns.all (fun x => !(ρ x).isEmpty) then run L rf b ρ w else .panic
  | .ifs c a b, ρ, w => do
    let (vc, ρ, w) ← run L rf c ρ w
    if vc = 0 then run L rf b ρ w else run L rf a ρ w
  | .seq a b, ρ, w => do
    let (_, ρ, w) ← run L rf a ρ w
    run L rf b ρ w
  | .skip, ρ, w => .ok (0, ρ, w)

/-- The names an expression needs from outside. -/
def fv : Ex → List Name
  | .lit _ => []
  | .var x => [x]
  | .bin _ a b | .land a b | .lor a b | .store a b | .opStore _ a b | .coal a b | .coalStore a b | .ifNo a b | .seq a b =>
    fv a ++ fv b
  | .cond c a b | .ifE c a b => fv c ++ fv a ++ fv b
  | .load a | .call _ a | .opt a _ => fv a
  | .asg x a | .opAsg _ x a | .coalAsg x a => x :: fv a
  | .letE x a b => fv a ++ (fv b).filter (· ≠ x)

/-- The last expression of a block, as its names: the one `__typeof__` is put around (codegen.c:1225-1250). -/
def resNames : Ex → List Name
  | .letE _ _ b => resNames b
  | .seq _ b => resNames b
  | e => fv e

/-- The code of an expression, and, as the branch of an `if`, the code that sets `_ifval` to it. -/
structure Code where
  plain : CE
  branch : CE

/-- An expression that is no block. -/
def Code.leaf (c : CE) : Code := ⟨c, .asg "_ifval" c⟩

/-- The expression as it is emitted. Compound assignments: parser_expr.c:6503-6592 (the same node stands on both
sides); `??`: codegen.c:235-245; `?.`: 963-981; blocks: 1206-1218 (without `defer`); `if`: 1219-1301; the rest is written as in C. -/
def gen : Ex → Code
  | .lit n => .leaf (.lit n)
  | .var x => .leaf (.var x)
  | .bin op a b => .leaf (.bin op (gen a).plain (gen b).plain)
  | .land a b => .leaf (.land (gen a).plain (gen b).plain)
  | .lor a b => .leaf (.lor (gen a).plain (gen b).plain)
  | .cond c a b => .leaf (.cond (gen c).plain (gen a).plain (gen b).plain)
  | .load a => .leaf (.load (gen a).plain)
  | .call f a => .leaf (.call f (gen a).plain)
  | .asg x a => .leaf (.asg x (gen a).plain)
  | .store a b => .leaf (.store (gen a).plain (gen b).plain)
  | .opAsg op x b => .leaf (.asg x (.bin op (.var x) (gen b).plain))
  | .opStore op a b => .leaf (.store (gen a).plain (.bin op (.load (gen a).plain) (gen b).plain))
  | .coal a b => .leaf (.dcl "_l" (gen a).plain (.cond (.var "_l") (.var "_l") (gen b).plain))
  | .coalAsg x b => .leaf (.asg x (.dcl "_l" (.var x) (.cond (.var "_l") (.var "_l") (gen b).plain)))
  | .coalStore a b =>
    .leaf (.store (gen a).plain (.dcl "_l" (.load (gen a).plain) (.cond (.var "_l") (.var "_l") (gen b).plain)))
  | .opt a off => .leaf (.dcl "_t" (gen a).plain (.cond (.var "_t") (.arrow (.var "_t") off) (.lit 0)))
  | .ifE c a b =>
    .leaf (.typ (resNames a) (.raw "_ifval" (.seq (.ifs (gen c).plain (gen a).branch (gen b).branch) (.var "_ifval"))))
  | .ifNo c a =>
    .leaf (.typ (resNames a) (.raw "_ifval" (.seq (.ifs (gen c).plain (gen a).branch .skip) (.var "_ifval"))))
  | .letE x a b => ⟨.dcl x (gen a).plain (gen b).plain, .dcl x (gen a).plain (gen b).branch⟩
  | .seq a b => ⟨.seq (gen a).plain (gen b).plain, .seq (gen a).plain (gen b).branch⟩

/-! ## Specification -/

namespace Spec

/-- What an expression means: every operand is evaluated once at most, a compound assignment finds its place once; a new variable is visible behind its
initialiser only; an `if` without `else` has no value. -/
def eval {T : Type} (L : Lang T) (rf : Bool) : Ex → Env → World T → Res (Int × Env × World T)
  | .lit n, ρ, w => .ok (n, ρ, w)
  | .var x, ρ, w => do
    let v ← ρ.get x
    .ok (v, ρ, w)
  | .bin op a b, ρ, w =>
    if rf then do
      let (vb, ρ, w) ← eval L rf b ρ w
      let (va, ρ, w) ← eval L rf a ρ w
      let v ← L.op op va vb
      .ok (v, ρ, w)
    else do
      let (va, ρ, w) ← eval L rf a ρ w
      let (vb, ρ, w) ← eval L rf b ρ w
      let v ← L.op op va vb
      .ok (v, ρ, w)
  | .land a b, ρ, w => do
    let (va, ρ, w) ← eval L rf a ρ w
    if va = 0 then .ok (0, ρ, w) else do
      let (vb, ρ, w) ← eval L rf b ρ w
      .ok (if vb = 0 then 0 else 1, ρ, w)
  | .lor a b, ρ, w => do
    let (va, ρ, w) ← eval L rf a ρ w
    if va = 0 then do
      let (vb, ρ, w) ← eval L rf b ρ w
      .ok (if vb = 0 then 0 else 1, ρ, w)
    else .ok (1, ρ, w)
  | .cond c a b, ρ, w => do
    let (vc, ρ, w) ← eval L rf c ρ w
    if vc = 0 then eval L rf b ρ w else eval L rf a ρ w
  | .load a, ρ, w => do
    let (p, ρ, w) ← eval L rf a ρ w
    .ok (w.mem p, ρ, w)
  | .call f a, ρ, w => do
    let (v, ρ, w) ← eval L rf a ρ w
    .ok ((L.fn f v w).1, ρ, (L.fn f v w).2)
  | .asg x a, ρ, w => do
    let (v, ρ, w) ← eval L rf a ρ w
    let ρ ← ρ.put x v
    .ok (v, ρ, w)
  | .store a b, ρ, w =>
    if rf then do
      let (v, ρ, w) ← eval L rf b ρ w
      let (p, ρ, w) ← eval L rf a ρ w
      .ok (v, ρ, w.write p v)
    else do
      let (p, ρ, w) ← eval L rf a ρ w
      let (v, ρ, w) ← eval L rf b ρ w
      .ok (v, ρ, w.write p v)
  | .opAsg op x b, ρ, w =>
    if rf then do
      let (vb, ρ, w) ← eval L rf b ρ w
      let vx ← ρ.get x
      let v ← L.op op vx vb
      let ρ ← ρ.put x v
      .ok (v, ρ, w)
    else do
      let vx ← ρ.get x
      let (vb, ρ, w) ← eval L rf b ρ w
      let v ← L.op op vx vb
      let ρ ← ρ.put x v
      .ok (v, ρ, w)
  | .opStore op a b, ρ, w =>
    if rf then do
      let (vb, ρ, w) ← eval L rf b ρ w
      let (p, ρ, w) ← eval L rf a ρ w
      let v ← L.op op (w.mem p) vb
      .ok (v, ρ, w.write p v)
    else do
      let (p, ρ, w) ← eval L rf a ρ w
      let old := w.mem p
      let (vb, ρ, w) ← eval L rf b ρ w
      let v ← L.op op old vb
      .ok (v, ρ, w.write p v)
  | .coal a b, ρ, w => do
    let (va, ρ, w) ← eval L rf a ρ w
    if va = 0 then eval L rf b ρ w else .ok (va, ρ, w)
  | .coalAsg x b, ρ, w => do
    let vx ← ρ.get x
    if vx = 0 then do
      let (vb, ρ, w) ← eval L rf b ρ w
      let ρ ← ρ.put x vb
      .ok (vb, ρ, w)
    else .ok (vx, ρ, w)
  | .coalStore a b, ρ, w => do
    let (p, ρ, w) ← eval L rf a ρ w
    if w.mem p = 0 then do
      let (vb, ρ, w) ← eval L rf b ρ w
      .ok (vb, ρ, w.write p vb)
    else .ok (w.mem p, ρ, w)
  | .opt a off, ρ, w => do
    let (p, ρ, w) ← eval L rf a ρ w
    if p = 0 then .ok (0, ρ, w) else .ok (w.mem (p + off), ρ, w)
  | .ifE c a b, ρ, w => do
    let (vc, ρ, w) ← eval L rf c ρ w
    if vc = 0 then eval L rf b ρ w else eval L rf a ρ w
  | .ifNo _ _, _, _ => .panic
  | .letE x a b, ρ, w => do
    let (v, ρ, w) ← eval L rf a ρ w
    let (u, ρ, w) ← eval L rf b (ρ.push x (some v)) w
    .ok (u, ρ.pop x, w)
  | .seq a b, ρ, w => do
    let (_, ρ, w) ← eval L rf a ρ w
    eval L rf b ρ w

/-- The helper variables. -/
def reserved (x : Name) : Prop := x = "_l" ∨ x = "_t" ∨ x = "_ifval"

/-- Without effects: nothing is assigned or called. -/
def Quiet : Ex → Prop
  | .lit _ | .var _ => True
  | .bin _ a b | .land a b | .lor a b => Quiet a ∧ Quiet b
  | .cond c a b => Quiet c ∧ Quiet a ∧ Quiet b
  | .load a => Quiet a
  | .coal a b => Quiet a ∧ Quiet b
  | .opt a _ => Quiet a
  | _ => False

/-- All names of an expression, bound ones too. -/
def names : Ex → List Name
  | .lit _ => []
  | .var x => [x]
  | .bin _ a b | .land a b | .lor a b | .store a b | .opStore _ a b | .coal a b | .coalStore a b | .ifNo a b | .seq a b =>
    names a ++ names b
  | .cond c a b | .ifE c a b => names c ++ names a ++ names b
  | .load a | .call _ a | .opt a _ => names a
  | .asg x a | .opAsg _ x a | .coalAsg x a => x :: names a
  | .letE x a b => x :: names a ++ names b

/-- The names a block declares for its last expression. -/
def lets : Ex → List Name
  | .letE x _ b => x :: lets b
  | .seq _ b => lets b
  | _ => []

/-- Programs whose compound assignments have quiet places, whose new variables are not named in their own
initialisers, and whose `if`s have an `else` and a first result without variables of its block. -/
def Clear : Ex → Prop
  | .lit _ | .var _ => True
  | .bin _ a b | .land a b | .lor a b | .store a b | .coal a b | .seq a b => Clear a ∧ Clear b
  | .cond c a b => Clear c ∧ Clear a ∧ Clear b
  | .ifE c a b => Clear c ∧ Clear a ∧ Clear b ∧ ∀ x ∈ resNames a, x ∉ lets a
  | .ifNo _ _ => False
  | .load a | .call _ a | .opt a _ => Clear a
  | .asg _ a | .opAsg _ _ a | .coalAsg _ a => Clear a
  | .opStore _ a b => Clear a ∧ Clear b ∧ Quiet a
  | .coalStore a b => Clear a ∧ Clear b ∧ Quiet a ∧ Quiet b
  | .letE x a b => Clear a ∧ Clear b ∧ x ∉ names a

/-- Two stores agree on the variables of the program. -/
def Agree (ρ σ : Env) : Prop := ∀ x, ¬ reserved x → ρ x = σ x

end Spec

end Verif.ExprGen
