import Verif.Basic

/-!
# Compile-time integer folding

Transcription of `eval_const_int_expr` (/repo/src/analysis/const_fold.c:5-140), of the
symbol table it consults (/repo/src/parser/parser_utils.c:470-516, 564-585) and of the
three places that record a constant value in that table
(/repo/src/parser/parser_decl.c:731-740 and 843-893, array sizes in
/repo/src/parser/parser_type.c:695-715 and 910-935).

`long long` is a 64-bit two's complement integer, kept here as an `Int` in range.  An
operation whose C meaning is undefined (signed overflow, shift count outside 0..63, left
shift of a negative number or out of range, `LLONG_MIN / -1`) is the outcome `ub`.
-/

namespace Verif.ConstFold

/-- `LLONG_MAX + 1`. -/
def half : Int := 2 ^ 63

/-- `v` is representable in `long long`. -/
def InR (v : Int) : Prop := -half ≤ v ∧ v < half

instance (v : Int) : Decidable (InR v) := by unfold InR; infer_instance

/-- Conversion of an `unsigned long long` to `long long` (/repo/src/analysis/const_fold.c:17,
`*out_val = node->literal.int_val`): modulo 2^64, as every supported compiler does. -/
def toLL (n : Int) : Int := n.bmod (2 ^ 64)

/-- Conversion of a `long long` to `int` (/repo/src/parser/parser_decl.c:738, 875):
modulo 2^32. -/
def toInt32 (n : Int) : Int := n.bmod (2 ^ 32)

/-- Expressions seen by the folder (/repo/src/ast/ast.h, the four node kinds it handles);
`other` stands for every other node kind and for literals that are not integers. -/
inductive Ex where
  | lit (n : Nat)
  | var (name : String)
  | bin (op : String) (a b : Ex)
  | un (op : String) (a : Ex)
  | other
  deriving DecidableEq, Repr

/-- The fields of `ZenSymbol` used here (/repo/src/parser/parser.h:45-62).  -/
structure Sym where
  name : String
  isConst : Bool
  val : Int
  deriving DecidableEq, Repr

/-- Scopes, innermost first, newest symbol first (/repo/src/parser/parser_utils.c:500-509). -/
abbrev Scopes := List (List Sym)

/-- `find_symbol_entry` (/repo/src/parser/parser_utils.c:564-585). -/
def findSym : Scopes → String → Option Sym
  | [], _ => none
  | sc :: rest, n =>
    match sc.find? (fun s => s.name == n) with
    | some s => some s
    | none => findSym rest n

/-- `find_enum_variant` (/repo/src/parser/parser_utils.c:860-872); the registry as a list
of variant names and tags. -/
def findEnum (en : List (String × Int)) (n : String) : Option Int :=
  (en.find? (fun p => p.1 == n)).map (·.2)

/-- A signed result: undefined when not representable. -/
def chk (v : Int) : Res (Option Int) := if InR v then .ok (some v) else .ub

/-- `left / right` and `left % right` on `long long` with `right ≠ 0`: truncation towards
zero; the quotient of `LLONG_MIN` by `-1` overflows and makes both undefined (C17 6.5.5). -/
def divLL (a b : Int) : Res (Option Int) := chk (a.tdiv b)

/-- See `divLL`. -/
def modLL (a b : Int) : Res (Option Int) :=
  if InR (a.tdiv b) then .ok (some (a.tmod b)) else .ub

/-- `left << right` (C17 6.5.7): undefined for a count outside 0..63, a negative left
operand or an unrepresentable result. -/
def shlLL (a b : Int) : Res (Option Int) :=
  if 0 ≤ b ∧ b < 64 ∧ 0 ≤ a then chk (a * 2 ^ b.toNat) else .ub

/-- `left >> right`: undefined for a count outside 0..63, arithmetic shift otherwise (the
implementation-defined choice of every supported compiler). -/
def shrLL (a b : Int) : Res (Option Int) :=
  if 0 ≤ b ∧ b < 64 then .ok (some (a >>> b.toNat)) else .ub

/-- Two's complement bit operation. -/
def bits (f : BitVec 64 → BitVec 64 → BitVec 64) (a b : Int) : Int :=
  (f (BitVec.ofInt 64 a) (BitVec.ofInt 64 b)).toInt

/-- The chain of `strcmp`s on `node->binary.op` (/repo/src/analysis/const_fold.c:53-106). -/
def binop (op : String) (l r : Int) : Res (Option Int) :=
  if op = "+" then chk (l + r)
  else if op = "-" then chk (l - r)
  else if op = "*" then chk (l * r)
  else if op = "/" then (if r = 0 then .ok none else divLL l r)
  else if op = "%" then (if r = 0 then .ok none else modLL l r)
  else if op = "<<" then shlLL l r
  else if op = ">>" then shrLL l r
  else if op = "&" then .ok (some (bits (· &&& ·) l r))
  else if op = "|" then .ok (some (bits (· ||| ·) l r))
  else if op = "^" then .ok (some (bits (· ^^^ ·) l r))
  else .ok none

/-- The chain of `strcmp`s on `node->unary.op` (/repo/src/analysis/const_fold.c:117-132). -/
def unop (op : String) (v : Int) : Res (Option Int) :=
  if op = "-" then chk (-v)
  else if op = "+" then .ok (some v)
  else if op = "~" then .ok (some (~~~ (BitVec.ofInt 64 v)).toInt)
  else .ok none

/-- Continue with a value, or fail when the sub-expression was not constant
(`if (!eval_const_int_expr(..)) return 0;`). -/
def andThen (x : Res (Option Int)) (f : Int → Res (Option Int)) : Res (Option Int) :=
  match x with
  | .ok (some v) => f v
  | .ok none => .ok none
  | .panic => .panic
  | .ub => .ub

/-- `eval_const_int_expr` (/repo/src/analysis/const_fold.c:5-140); `ok none` is the return
value 0, `ok (some v)` is 1 with `*out_val = v`. -/
def fold (sc : Scopes) (en : List (String × Int)) : Ex → Res (Option Int)
  | .lit n => .ok (some (toLL n))
  | .var x =>
    match findSym sc x with
    | some ⟨_, true, v⟩ => .ok (some v)
    | _ => .ok (findEnum en x)
  | .bin op a b =>
    andThen (fold sc en a) fun l => andThen (fold sc en b) fun r => binop op l r
  | .un op a => andThen (fold sc en a) fun v => unop op v
  | .other => .ok none

/-! ## Declarations -/

/-- Pieces of a program that matter to the table: blocks, `def n = e;`, `let n = e;`
(any initialiser), an assignment `n = e;`, and an array type whose size is `e`. -/
inductive Stmt where
  | enter
  | leave
  | def_ (n : String) (e : Ex)
  | let_ (n : String) (e : Ex)
  | assign (n : String) (e : Ex)
  | size (e : Ex)
  deriving DecidableEq, Repr

/-- `add_symbol` (/repo/src/parser/parser_utils.c:500-509): on the current scope; a scope is
created if there is none. -/
def addSym (s : Sym) : Scopes → Scopes
  | [] => [[s]]
  | sc :: rest => (s :: sc) :: rest

/-- Updating the symbol found by `find_symbol_entry`; the three callers have just added it,
so it is the head of the current scope. -/
def setConst (v : Int) : Scopes → Scopes
  | ((s :: sc) :: rest) => ({ s with isConst := true, val := v } :: sc) :: rest
  | x => x

/-- Parser state: the table and the array sizes computed so far. -/
structure St where
  sc : Scopes
  sizes : List Int
  deriving DecidableEq, Repr

/-- What a declaration does to the table.

* `def` (/repo/src/parser/parser_decl.c:843-893): the name is added, the initialiser is
  parsed and folded, a folded value is stored after conversion to `int`.  Names of earlier
  `def`s were already replaced by literals of their stored value when parsing
  (/repo/src/parser/parser_expr.c:3532-3541), which folds to the same number.
* `let` (/repo/src/parser/parser_decl.c:683, 731-740): added; a literal initialiser is
  stored whether or not the variable may change later.
* an assignment does not touch the table.
* an array size is folded and converted to `int` (/repo/src/parser/parser_type.c:702-711);
  a size that is not constant is a compile error (`panic`). -/
def step (en : List (String × Int)) (s : St) : Stmt → Res St
  | .enter => .ok { s with sc := [] :: s.sc }
  | .leave => .ok { s with sc := s.sc.tail }
  | .def_ n e => do
      let sc := addSym ⟨n, false, 0⟩ s.sc
      match ← fold sc en e with
      | some v => .ok { s with sc := setConst (toInt32 v) sc }
      | none => .ok { s with sc := sc }
  | .let_ n e =>
      let sc := addSym ⟨n, false, 0⟩ s.sc
      match e with
      | .lit v => .ok { s with sc := setConst (toInt32 v) sc }
      | _ => .ok { s with sc := sc }
  | .assign _ _ => .ok s
  | .size e => do
      match ← fold s.sc en e with
      | some v => .ok { s with sizes := s.sizes ++ [toInt32 v] }
      | none => .panic

/-- A whole program. -/
def run (en : List (String × Int)) (s : St) : List Stmt → Res St
  | [] => .ok s
  | x :: xs => do
      let s' ← step en s x
      run en s' xs

/-! ## Specification -/

namespace Spec

/-- Bit `i` of the infinite two's complement expansion of an integer. -/
def bit (v : Int) (i : Nat) : Bool := v / 2 ^ i % 2 == 1

/-- Meaning of the binary operators on integers; no mention of machine words.  Quotients
round towards zero and the remainder has the sign of the dividend; a right shift rounds
towards minus infinity; division by zero, negative shift counts and other operators have no
value. -/
def BinVal (op : String) (x y z : Int) : Prop :=
  (op = "+" ∧ z = x + y) ∨ (op = "-" ∧ z = x - y) ∨ (op = "*" ∧ z = x * y) ∨
  (op = "/" ∧ y ≠ 0 ∧ ∃ r, x = z * y + r ∧ r.natAbs < y.natAbs ∧ 0 ≤ r * x) ∨
  (op = "%" ∧ y ≠ 0 ∧ ∃ q, x = q * y + z ∧ z.natAbs < y.natAbs ∧ 0 ≤ z * x) ∨
  (op = "<<" ∧ ∃ k : Nat, y = k ∧ z = x * 2 ^ k) ∨
  (op = ">>" ∧ ∃ k : Nat, y = k ∧ z * 2 ^ k ≤ x ∧ x < (z + 1) * 2 ^ k) ∨
  (op = "&" ∧ ∀ i, bit z i = (bit x i && bit y i)) ∨
  (op = "|" ∧ ∀ i, bit z i = (bit x i || bit y i)) ∨
  (op = "^" ∧ ∀ i, bit z i = (bit x i ^^ bit y i))

/-- Meaning of the unary operators on integers. -/
def UnVal (op : String) (x z : Int) : Prop :=
  (op = "-" ∧ z = -x) ∨ (op = "+" ∧ z = x) ∨ (op = "~" ∧ ∀ i, bit z i = !bit x i)

/-- The mathematical value of an expression under an assignment of values to names. -/
inductive Value (ρ : String → Option Int) : Ex → Int → Prop
  | lit (n : Nat) : Value ρ (.lit n) n
  | var {x v} : ρ x = some v → Value ρ (.var x) v
  | bin {op a b x y z} : Value ρ a x → Value ρ b y → BinVal op x y z →
      Value ρ (.bin op a b) z
  | un {op a x z} : Value ρ a x → UnVal op x z → Value ρ (.un op a) z

/-- Every literal fits in a signed 64-bit number. -/
def Small : Ex → Prop
  | .lit n => (n : Int) < 2 ^ 63
  | .bin _ a b => Small a ∧ Small b
  | .un _ a => Small a
  | _ => True

/-- Run-time values of the visible names, innermost scope first; a name may exist with a
value that is not an integer constant (`none`). -/
abbrev Env := List (List (String × Option Int))

/-- The value a visible name has. -/
def look : Env → String → Option (Option Int)
  | [], _ => none
  | sc :: rest, n =>
    match sc.find? (fun p => p.1 == n) with
    | some p => some p.2
    | none => look rest n

/-- A new binding in the current scope. -/
def bind (n : String) (v : Option Int) : Env → Env
  | [] => [[(n, v)]]
  | sc :: rest => ((n, v) :: sc) :: rest

/-- A new value for the innermost binding of `n`. -/
def set (n : String) (v : Option Int) : Env → Env
  | [] => []
  | sc :: rest =>
    if sc.any (fun p => p.1 == n) then
      (sc.map fun p => if p.1 == n then (n, v) else p) :: rest
    else sc :: set n v rest

/-- Names as an expression sees them: variables first, then enum variants. -/
def rho (en : List (String × Int)) (ρ : Env) (x : String) : Option Int :=
  match look ρ x with
  | some v => v
  | none => (en.find? (fun p => p.1 == x)).map (·.2)

/-- What an expression is worth: its value, or `none` when it has none. -/
def Worth (ρ : String → Option Int) (e : Ex) (o : Option Int) : Prop :=
  ∀ v, o = some v ↔ Value ρ e v

/-- Execution of a program from an environment and a list of array lengths to another.
`P` restricts the integers a `def`, a `let` or an array length may have (`fun _ => True`:
no restriction).  A declared name is in scope, without value, in its own initialiser. -/
inductive Exec (P : Int → Prop) (en : List (String × Int)) :
    Env → List Int → List Stmt → Env → List Int → Prop
  | nil {ρ zs} : Exec P en ρ zs [] ρ zs
  | enter {ρ zs p ρ' zs'} : Exec P en ([] :: ρ) zs p ρ' zs' →
      Exec P en ρ zs (.enter :: p) ρ' zs'
  | leave {sc ρ zs p ρ' zs'} : Exec P en ρ zs p ρ' zs' →
      Exec P en (sc :: ρ) zs (.leave :: p) ρ' zs'
  | def_ {ρ zs n e o p ρ' zs'} : Worth (rho en (bind n none ρ)) e o →
      (∀ v, o = some v → P v) → Exec P en (bind n o ρ) zs p ρ' zs' →
      Exec P en ρ zs (.def_ n e :: p) ρ' zs'
  | let_ {ρ zs n e o p ρ' zs'} : Worth (rho en (bind n none ρ)) e o →
      (∀ v, o = some v → P v) → Exec P en (bind n o ρ) zs p ρ' zs' →
      Exec P en ρ zs (.let_ n e :: p) ρ' zs'
  | assign {ρ zs n e o p ρ' zs'} : Worth (rho en ρ) e o →
      Exec P en (set n o ρ) zs p ρ' zs' →
      Exec P en ρ zs (.assign n e :: p) ρ' zs'
  | size {ρ zs e v p ρ' zs'} : Value (rho en ρ) e v → P v →
      Exec P en ρ (zs ++ [v]) p ρ' zs' →
      Exec P en ρ zs (.size e :: p) ρ' zs'

/-- Representable in a 32-bit `int`. -/
def I32 (v : Int) : Prop := -2 ^ 31 ≤ v ∧ v < 2 ^ 31

/-- The program never assigns, declares no name that is also an enum variant, and its
literals fit in 64 bits. -/
def Plain (en : List (String × Int)) : Stmt → Prop
  | .enter => True
  | .leave => True
  | .def_ n e => en.find? (fun p => p.1 == n) = none ∧ Small e
  | .let_ n e => en.find? (fun p => p.1 == n) = none ∧ Small e
  | .assign _ _ => False
  | .size e => Small e

end Spec

end Verif.ConstFold
