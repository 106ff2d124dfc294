import Verif.Basic

/-!
# Arguments of calls

Models how the arguments of a call reach the parameters: the parameters with their defaults
(`parse_and_convert_args`, /repo/src/parser/parser_utils.c:3942-4240; `ast_to_string`,
parser_utils.c:193-355), the call (/repo/src/parser/parser_expr.c:52-105, 2956-3285, 3327-3417,
5549-5655) and its C code (/repo/src/codegen/codegen.c:719-727 and 775-940).

Simplified: the receiver of a method is left out of its parameters and arguments; functions with a
variable number of arguments, trait objects, tuples made from arguments and moves are left
out; of the types only those matter that are converted (an array given for a slice); buffers for
the text of defaults (4096 bytes) are large enough; strings and characters as defaults are left out.
-/

namespace Verif.Args

/-- Names of variables, functions and parameters. -/
abbrev Name := String

mutual
/-- Expressions. `flt n k` is the decimal `n / 10^k`. `other` are the kinds `ast_to_string` does
not know: conditional expressions, array literals, lambdas, slices, `sizeof`, … -/
inductive Ex where
  | int (n : Nat)
  | flt (n k : Nat)
  | var (x : Name)
  | bin (op : String) (a b : Ex)
  | un (op : String) (a : Ex)
  | call (f : Name) (as : Exs)
  | other (kind : Nat) (as : Exs)
/-- Lists of them. -/
inductive Exs where
  | nil
  | cons (e : Ex) (es : Exs)
end

/-! ## Values -/

/-- What constants, operators and functions mean: anything, but the value of a decimal depends only on the number. -/
structure World (V : Type) where
  int : Nat → V
  flt : Nat → Nat → V
  bin : String → V → V → V
  un : String → V → V
  fn : Name → List V → V
  other : Nat → List V → V
  same : ∀ n k m j, n * 10 ^ j = m * 10 ^ k → flt n k = flt m j

mutual
/-- The value of an expression, `none` if a name has no meaning. -/
def eval {V : Type} (W : World V) (env : Name → Option V) : Ex → Option V
  | .int n => some (W.int n)
  | .flt n k => some (W.flt n k)
  | .var x => env x
  | .bin op a b =>
    match eval W env a, eval W env b with
    | some v, some w => some (W.bin op v w)
    | _, _ => none
  | .un op a => (eval W env a).map (W.un op)
  | .call f as => (evals W env as).map (W.fn f)
  | .other k as => (evals W env as).map (W.other k)
/-- The values of several. -/
def evals {V : Type} (W : World V) (env : Name → Option V) : Exs → Option (List V)
  | .nil => some []
  | .cons e es =>
    match eval W env e, evals W env es with
    | some v, some vs => some (v :: vs)
    | _, _ => none
end

/-! ## Defaults -/

/-- `%f`: `n / 10^k` with six decimals, rounded. -/
def sixDigits (n k : Nat) : Nat := (2 * n * 10 ^ 6 + 10 ^ k) / (2 * 10 ^ k)

mutual
/-- A default written by `ast_to_string` (parser_utils.c:193-355) and read again at the call
(parser_expr.c:3155-3162). Operators are written with parentheses around, so that reading gives the same
tree (C29); decimals with `%f`; the other kinds are written as the empty text, which the parser rejects.
Simplified: decimals exactly between two others are rounded up. -/
def again : Ex → Option Ex
  | .int n => some (.int n)
  | .flt n k => some (.flt (sixDigits n k) 6)
  | .var x => some (.var x)
  | .bin op a b =>
    match again a, again b with
    | some a, some b => some (.bin op a b)
    | _, _ => none
  | .un op a => (again a).map (.un op)
  | .call f as => (agains as).map (.call f)
  | .other _ _ => none
/-- Arguments in a default. -/
def agains : Exs → Option Exs
  | .nil => some .nil
  | .cons e es =>
    match again e, agains es with
    | some e, some es => some (.cons e es)
    | _, _ => none
end

/-! ## Functions and calls -/

/-- A parameter: its name, whether its type is a slice, its default. -/
structure Param where
  name : Name
  slice : Bool
  dflt : Option Ex

/-- An argument: its name if it is given, its expression, whether that is an array. -/
structure Arg where
  name : Option Name
  e : Ex
  array : Bool

/-- Where a call stands, and of what. -/
inductive Place where
  /-- of a function, after its definition -/
  | after
  /-- of a function, in its own body -/
  | inside
  /-- of a function, before its definition, or of a generic function -/
  | before
  /-- `x.f(…)` -/
  | method
  /-- `S::f(…)`, after the `impl` -/
  | static
  deriving DecidableEq

/-- The parser knows the signature: functions are registered in front of their bodies (parser_decl.c:141-147), methods
after them (parser_struct.c:431 and 720); calls of methods do not use it for arguments (parser_expr.c:5549-5655). -/
def Place.sig : Place → Bool
  | .after | .inside | .static => true
  | .before | .method => false

/-- The parser finds the definition: `parsed_funcs_list` has the finished functions that are not in an
`impl` (parser_decl.c:218-221). -/
def Place.defn : Place → Bool
  | .after => true
  | _ => false

/-- The parameters of a function: the tables have room for 16 (parser_utils.c:3953-3969). -/
def declare (ps : List Param) : Res Unit := if ps.length ≤ 16 then .ok () else .ub

/-- `validate_named_arguments`, parser_expr.c:66-105: from the `i`-th argument. -/
def validate (ps : List Param) : Nat → List Arg → Bool
  | _, [] => true
  | i, a :: as =>
    (match a.name, ps[i]? with
      | some n, some p => n == p.name
      | _, _ => true) && validate ps (i + 1) as

/-- The defaults of the parameters behind the arguments, parser_expr.c:3154-3263. -/
def defaults : List Param → Option (List Ex)
  | [] => some []
  | p :: ps =>
    match p.dflt with
    | none => defaults ps
    | some d =>
      match again d, defaults ps with
      | some e, some es => some (e :: es)
      | _, _ => none

/-- Some argument has a name (`has_named`). -/
def named (as : List Arg) : Bool := as.any (·.name.isSome)

/-- An argument of the C call, and whether it was made a slice. -/
structure CArg where
  e : Ex
  wrapped : Bool

/-- The arguments as they are written, codegen.c:775-940: arrays become slices, but not in calls
with names. -/
def written (ps : List Param) (nm : Bool) : Nat → List Arg → List CArg
  | _, [] => []
  | i, a :: as =>
    ⟨a.e, !nm && a.array && (match ps[i]? with
      | some p => p.slice
      | none => false)⟩ :: written ps nm (i + 1) as

/-- The call as it is translated. -/
def compile (ps : List Param) (pl : Place) (as : List Arg) : Res (List CArg) :=
  if pl.defn && named as && !validate ps 0 as then .panic
  else
    match if pl.sig then defaults (ps.drop as.length) else some [] with
    | none => .panic
    | some ds => .ok (written ps (named as) 0 as ++ ds.map (⟨·, false⟩))

/-- The C compiler (or the type checker, typecheck.c:549-585) accepts the call: the number is right, and no array is given
for a slice. -/
def accepted (ps : List Param) (as : List Arg) (cs : List CArg) : Prop :=
  cs.length = ps.length ∧
  ∀ (i : Nat) (p : Param) (a : Arg) (c : CArg), ps[i]? = some p → as[i]? = some a → cs[i]? = some c → p.slice = true → a.array = true → c.wrapped = true

/-- The values the parameters get: the C code stands where the call stands, so that all names have the meaning they have
there. -/
def received {V : Type} (W : World V) (env : Name → Option V) : List CArg → List (Option V)
  | [] => []
  | c :: cs => eval W env c.e :: received W env cs

/-- Names at a place: local variables, then global ones. -/
def scope {V : Type} (locals globals : Name → Option V) (x : Name) : Option V :=
  match locals x with
  | some v => some v
  | none => globals x

/-- A call of a name that is a struct, codegen.c:719-727: the arguments are not written. -/
def callStruct {V : Type} (zero : V) (fields : List Name) (_ : List Arg) : List V := fields.map fun _ => zero

/-! ## Specification -/

namespace Spec

/-- The argument that is meant for the `i`-th parameter: one with its name, or the `i`-th without one. -/
inductive Given (ps : List Param) (as : List Arg) (i : Nat) (a : Arg) : Prop where
  | name (j : Nat) (p : Param) : as[j]? = some a → ps[i]? = some p → a.name = some p.name → Given ps as i a
  | pos : as[i]? = some a → a.name = none → Given ps as i a

/-- Every parameter gets the value of the argument meant for it, or else of its default, where the
function is defined; and there are no other arguments. -/
structure Passed {V : Type} (W : World V) (env globals : Name → Option V) (ps : List Param) (as : List Arg)
    (vs : List (Option V)) : Prop where
  length : vs.length = ps.length
  given : ∀ i a, i < ps.length → Given ps as i a → vs[i]? = some (eval W env a.e)
  dflt : ∀ (i : Nat) (p : Param), ps[i]? = some p → (∀ a, ¬ Given ps as i a) →
    ∃ d, p.dflt = some d ∧ vs[i]? = some (eval W globals d)
  all : ∀ (j : Nat) (a : Arg), as[j]? = some a → ∃ i, i < ps.length ∧ Given ps as i a

mutual
/-- The names in an expression. -/
def vars : Ex → List Name
  | .var x => [x]
  | .bin _ a b => vars a ++ vars b
  | .un _ a => vars a
  | .call _ as => varss as
  | .other _ as => varss as
  | _ => []
/-- in several -/
def varss : Exs → List Name
  | .nil => []
  | .cons e es => vars e ++ varss es
end

mutual
/-- Defaults that can be written again: without the other kinds, decimals with at most six digits. -/
def Simple : Ex → Prop
  | .int _ => True
  | .flt _ k => k ≤ 6
  | .var _ => True
  | .bin _ a b => Simple a ∧ Simple b
  | .un _ a => Simple a
  | .call _ as => Simples as
  | .other _ _ => False
/-- all of them -/
def Simples : Exs → Prop
  | .nil => True
  | .cons e es => Simple e ∧ Simples es
end

/-- The parameters the claim is made for, with the local names of the place of the call. -/
structure Good {V : Type} (ps : List Param) (locals : Name → Option V) : Prop where
  few : ps.length ≤ 16
  distinct : (ps.map (·.name)).Nodup
  simple : ∀ p ∈ ps, ∀ d, p.dflt = some d → Simple d
  closed : ∀ p ∈ ps, ∀ d, p.dflt = some d → ∀ x ∈ vars d, locals x = none

/-- The arguments stand in the order of the parameters, named or not, and those missing have defaults. -/
structure InOrder (ps : List Param) (as : List Arg) : Prop where
  few : as.length ≤ ps.length
  names : ∀ (i : Nat) (a : Arg) (p : Param) (n : Name), as[i]? = some a → ps[i]? = some p → a.name = some n → n = p.name
  rest : ∀ p ∈ ps.drop as.length, p.dflt.isSome

end Spec

end Verif.Args
