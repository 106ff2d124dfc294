import Verif.Move.Model

/-!
# The order in which operands are evaluated

How expressions with several operands are printed as C (/repo/src/codegen/codegen.c:415-434, 775-793, 873-940, 1408-1425 and
`codegen_expression_with_move`, `emit_move_invalidation`, /repo/src/codegen/codegen_utils.c:903-985), and what the printed C expression may do.  C does
not say in which order the operands of an operator or the arguments of a call are evaluated (ISO C 6.5p3, 6.5.2.2p10), and taking over a value with a
destructor is printed as an expression that zeroes the variable.

Simplified: a value is a list of numbers (one number, or several for several arguments); the value of a struct is its only member, a number; the
functions that are called do not change variables and their results depend on their arguments only, calling them is observable; assignments other than
`x++`, overloaded operators, pointers and named arguments are left out.  A statement expression `({ ... })` is taken to be evaluated in one go, as a call is.
-/

namespace Verif.EvalOrder

abbrev Name := String
/-- One number, or the numbers of several arguments. -/
abbrev Val := List Int
/-- The values of the variables. -/
abbrev Store := Name → Val
/-- A call that was made, with its arguments. -/
abbrev Ev := Nat × Val

/-- Operators with two operands: the comma between arguments, an operator, and the test against 0 that `&&` ends with (its second operand is ignored). -/
inductive Op where
  | args
  | op (k : Nat)
  | truth
  deriving DecidableEq, Repr

/-- Expressions as they are written (/repo/src/ast/ast.h).  `fld x` is the member of `x`, `post x` is `x++`, `sc` is `&&`; several arguments are
joined by `bin .args`. -/
inductive Src where
  | num (n : Int)
  | var (x : Name)
  | fld (x : Name)
  | post (x : Name)
  | bin (o : Op) (a b : Src)
  | sc (a b : Src)
  | call (f : Nat) (a : Src)
  deriving DecidableEq, Repr

/-- Printed expressions; `mv x` is `({ __typeof__(x) _mv = x; __z_drop_flag_x = 0; memset(&x, 0, sizeof(x)); _mv; })`.  `val` is an operand that was
evaluated. -/
inductive C where
  | val (v : Val)
  | rd (x : Name)
  | mv (x : Name)
  | post (x : Name)
  | bin (o : Op) (a b : C)
  | sc (a b : C)
  | call (f : Nat) (a : C)
  deriving DecidableEq, Repr

/-- Printing.  `zeroed x`: the type of `x` has a destructor (`traits.has_drop`, /repo/src/codegen/codegen_utils.c:929, 970); only such a variable is taken
over, whether its type is `Copy` or not.  Variables are operands or arguments here (/repo/src/codegen/codegen.c:428, 432, 770, 792, 928); the target of a
member is printed as it is. -/
def gen (zeroed : Name → Bool) : Src → C
  | .num n => .val [n]
  | .var x => if zeroed x then .mv x else .rd x
  | .fld x => .rd x
  | .post x => .post x
  | .bin o a b => .bin o (gen zeroed a) (gen zeroed b)
  | .sc a b => .sc (gen zeroed a) (gen zeroed b)
  | .call f a => .call f (gen zeroed a)

/-- A variable after a change. -/
def upd (s : Store) (x : Name) (v : Val) : Store := fun y => if y = x then v else s y

/-- A value that tests as true (ISO C 6.5.13). -/
def truthy (v : Val) : Bool := v.any (· ≠ 0)

/-- What the functions and operators of a program compute. -/
structure Den where
  op : Nat → Val → Val → Val
  fn : Nat → Val → Val

/-- The result of an operator. -/
def Den.bin (d : Den) : Op → Val → Val → Val
  | .args, a, b => a ++ b
  | .op k, a, b => d.op k a b
  | .truth, a, _ => [if truthy a then 1 else 0]

/-- One more (`x++`, /repo/src/codegen/codegen.c:1408-1413). -/
def inc (v : Val) : Val := v.map (· + 1)

/-- One step of the evaluation of a C expression: any operand that can be evaluated may be evaluated next, the second operand of `&&` only after the
first (ISO C 6.5p3, 6.5.2.2p10, 6.5.13p4).  The last argument: the calls that are made. -/
inductive Step (d : Den) : Store → C → Store → C → List Ev → Prop
  | rd (s x) : Step d s (.rd x) s (.val (s x)) []
  | mv (s x) : Step d s (.mv x) (upd s x [0]) (.val (s x)) []
  | post (s x) : Step d s (.post x) (upd s x (inc (s x))) (.val (s x)) []
  | binL {s a s' a' ev} (o b) : Step d s a s' a' ev → Step d s (.bin o a b) s' (.bin o a' b) ev
  | binR {s b s' b' ev} (o a) : Step d s b s' b' ev → Step d s (.bin o a b) s' (.bin o a b') ev
  | bin (s o v w) : Step d s (.bin o (.val v) (.val w)) s (.val (d.bin o v w)) []
  | scL {s a s' a' ev} (b) : Step d s a s' a' ev → Step d s (.sc a b) s' (.sc a' b) ev
  | scF (s v b) : truthy v = false → Step d s (.sc (.val v) b) s (.val [0]) []
  | scT (s v b) : truthy v = true → Step d s (.sc (.val v) b) s (.bin .truth b (.val [])) []
  | callA {s a s' a' ev} (f) : Step d s a s' a' ev → Step d s (.call f a) s' (.call f a') ev
  | call (s f v) : Step d s (.call f (.val v)) s (.val (d.fn f v)) [(f, v)]

/-- Several steps and the calls made by them. -/
inductive Steps (d : Den) : Store → C → Store → C → List Ev → Prop
  | refl (s e) : Steps d s e s e []
  | head {s e s' e' s'' e'' ev evs} : Step d s e s' e' ev → Steps d s' e' s'' e'' evs → Steps d s e s'' e'' (ev ++ evs)

/-- Variables that an expression mentions. -/
def C.ment : C → List Name
  | .val _ => []
  | .rd x => [x]
  | .mv x => [x]
  | .post x => [x]
  | .bin _ a b => a.ment ++ b.ment
  | .sc a b => a.ment ++ b.ment
  | .call _ a => a.ment

/-- Variables that `++` changes. -/
def C.posts : C → List Name
  | .val _ => []
  | .rd _ => []
  | .mv _ => []
  | .post x => [x]
  | .bin _ a b => a.posts ++ b.posts
  | .sc a b => a.posts ++ b.posts
  | .call _ a => a.posts

/-- The behaviour is undefined: `++` on a variable that another operand, which is not sequenced before or after, mentions (ISO C 6.5p2). -/
def C.Ub : C → Prop
  | .bin _ a b => a.Ub ∨ b.Ub ∨ ∃ x, (x ∈ a.posts ∧ x ∈ b.ment) ∨ (x ∈ b.posts ∧ x ∈ a.ment)
  | .sc a b => a.Ub ∨ b.Ub
  | .call _ a => a.Ub
  | _ => False

/-- The expression as the move checker sees it (unit `Move`), and as a part of a list of arguments. -/
def conv : Src → Move.Expr × (Move.Exprs → Move.Exprs)
  | .num _ => (.lit, .cons .lit)
  | .var x => (.var x, .cons (.var x))
  | .fld x => (.un (.var x), .cons (.un (.var x)))
  | .post x => (.un (.var x), .cons (.un (.var x)))
  | .bin .args a b => (.lit, (conv a).2 ∘ (conv b).2)
  | .bin _ a b => (.bin (conv a).1 (conv b).1, .cons (.bin (conv a).1 (conv b).1))
  | .sc a b => (.sc (conv a).1 (conv b).1, .cons (.sc (conv a).1 (conv b).1))
  | .call _ a => (.call .lit ((conv a).2 .nil), .cons (.call .lit ((conv a).2 .nil)))

/-- The move checker accepts `{ let x = ...; e; }` (`check_function`, /repo/src/analysis/typecheck.c:915-968); `owned x`: the type of `x` is not `Copy`
(`is_type_copy`, /repo/src/analysis/move_check.c:146-198). -/
def accepted (owned : Name → Bool) (x : Name) (e : Src) : Bool :=
  Move.accepts owned [] (.block (.cons (.decl x .lit) (.cons (.expr (conv e).1) .nil)))

namespace Spec

/-- The meaning of an expression: operands from left to right.  Value, variables afterwards (what was moved out is not read again), calls. -/
def eval (d : Den) : Src → Store → Val × Store × List Ev
  | .num n, s => ([n], s, [])
  | .var x, s => (s x, s, [])
  | .fld x, s => (s x, s, [])
  | .post x, s => (s x, fun y => if y = x then (s x).map (· + 1) else s y, [])
  | .bin o a b, s =>
      ((match o with
        | .args => (eval d a s).1 ++ (eval d b (eval d a s).2.1).1
        | .op k => d.op k (eval d a s).1 (eval d b (eval d a s).2.1).1
        | .truth => [if ∃ n ∈ (eval d a s).1, n ≠ 0 then 1 else 0]),
       (eval d b (eval d a s).2.1).2.1, (eval d a s).2.2 ++ (eval d b (eval d a s).2.1).2.2)
  | .sc a b, s =>
      if ∃ n ∈ (eval d a s).1, n ≠ 0 then
        ([if ∃ n ∈ (eval d b (eval d a s).2.1).1, n ≠ 0 then 1 else 0], (eval d b (eval d a s).2.1).2.1,
          (eval d a s).2.2 ++ (eval d b (eval d a s).2.1).2.2)
      else ([0], (eval d a s).2.1, (eval d a s).2.2)
  | .call f a, s => (d.fn f (eval d a s).1, (eval d a s).2.1, (eval d a s).2.2 ++ [(f, (eval d a s).1)])

/-- `x` is mentioned. -/
def Mentions (x : Name) : Src → Prop
  | .num _ => False
  | .var y | .fld y | .post y => x = y
  | .bin _ a b | .sc a b => Mentions x a ∨ Mentions x b
  | .call _ a => Mentions x a

/-- `x` is given away. -/
def Moves (x : Name) : Src → Prop
  | .var y => x = y
  | .num _ | .fld _ | .post _ => False
  | .bin _ a b | .sc a b => Moves x a ∨ Moves x b
  | .call _ a => Moves x a

/-- `x++` is in it. -/
def Incs (x : Name) : Src → Prop
  | .post y => x = y
  | .num _ | .fld _ | .var _ => False
  | .bin _ a b | .sc a b => Incs x a ∨ Incs x b
  | .call _ a => Incs x a

/-- There is a call in it. -/
def Calls : Src → Prop
  | .call _ _ => True
  | .num _ | .fld _ | .var _ | .post _ => False
  | .bin _ a b | .sc a b => Calls a ∨ Calls b

/-- One operand does not mention what the other changes: variables with a destructor that it gives away, and variables that it counts up. -/
def Free (drop : Name → Bool) (a b : Src) : Prop :=
  ∀ x, ((drop x = true ∧ Moves x a) ∨ Incs x a) → ¬ Mentions x b

/-- Operands that do not depend on each other; at most one of them makes calls. -/
def Apart (drop : Name → Bool) : Src → Prop
  | .bin _ a b => Apart drop a ∧ Apart drop b ∧ Free drop a b ∧ Free drop b a ∧ ¬ (Calls a ∧ Calls b)
  | .sc a b => Apart drop a ∧ Apart drop b ∧ ∀ x, drop x = true → Moves x a → ¬ Mentions x b
  | .call _ a => Apart drop a
  | _ => True

end Spec

end Verif.EvalOrder
