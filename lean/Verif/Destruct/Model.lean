import Verif.Basic

/-!
# Taking values apart: `let {x, y} = e`, `let P{x: a} = e`, `let (a, b) = e`, `let Some(v) = e else`

Model of the patterns of `parse_var_decl` (/repo/src/parser/parser_decl.c:327-513) and of what is
printed for them (/repo/src/codegen/codegen_stmt.c:858-949), together with the statements that
matter for their scope: declarations with a destructor, `defer`, blocks and `return`
(/repo/src/codegen/codegen_stmt.c:841-846, 951-963, 1063-1130, 1558-1686).

Values are records of named fields on both sides: options, results and tuples are structs with
the fields `is_some`, `val`, `is_ok`, `err`, `v0`, `v1`, ... (/repo/std/option.zc:4-7,
/repo/std/result.zc:3-8, and the unit `Tuple`).  Values of an enum with payloads carry a tag.

Simplifications: variables are not assigned again; the type of an expression is not modelled, so a
field that does not exist, which the C compiler refuses, shows up when the program is run; types
written in a tuple pattern are those of the elements; user names do not begin with `_tmp_`;
`defer_stack` is not full (unit `Defer`).
-/

namespace Verif.Destruct
open Verif

/-- Values. -/
inductive Val where
  | num (n : Nat)
  | obj (fs : List (String × Val))
  | variant (tag : String) (v : Val)

/-- The value of a field. -/
def Val.field : Val → String → Option Val
  | .obj fs, f => fs.lookup f
  | _, _ => none

/-- What a run shows. -/
inductive Ev where
  | called (f : Nat) (vs : List Val)
  | said (a : Nat) (vs : List Val)
  | dropped (v : Val)

/-- Expressions: a variable, a constant, a call. -/
inductive Expr where
  | var (x : String)
  | con (v : Val)
  | call (f : Nat) (xs : List String)

/-- The patterns of `let` (parser_decl.c:329-390, 395-456): `{a, b}`, `P{f: a, g}` with the field
before the variable, `(a, b)`. -/
inductive Pat where
  | anon (xs : List String)
  | named (s : String) (fs : List (String × String))
  | tuple (xs : List String)

mutual
/-- Statements.  `lets x own e` is `let x = e`, `own` says that the type of `e` has a destructor;
the same flag at `pat`.  `guard v x e b` is `let v(x) = e else b`. -/
inductive Stmt where
  | lets (x : String) (own : Bool) (e : Expr)
  | pat (p : Pat) (own : Bool) (e : Expr)
  | guard (v x : String) (e : Expr) (els : Block)
  | say (a : Nat) (xs : List String)
  | defer (a : Nat) (xs : List String)
  | block (b : Block)
  | ret
/-- Statement lists. -/
inductive Block where
  | nil
  | cons (s : Stmt) (r : Block)
end

/-! ## What is printed -/

/-- Names in the C text: those of the user and `_tmp_n`. -/
inductive CVar where
  | user (x : String)
  | tmp (n : Nat)
  deriving DecidableEq, Repr

/-- C expressions: an expression of the program, or a field of a temporary. -/
inductive CExpr where
  | src (e : Expr)
  | field (t : Nat) (f : String)

mutual
/-- C statements.  `test t f neg b` is `if (!_tmp_t.f) { b }`, without the `!` if `neg` is false. -/
inductive CStmt where
  | decl (x : CVar) (e : CExpr)
  | test (t : Nat) (f : String) (neg : Bool) (b : CBlock)
  | say (a : Nat) (xs : List String)
  | drop (x : String)
  | block (b : CBlock)
  | ret
/-- Lists of C statements. -/
inductive CBlock where
  | nil
  | cons (s : CStmt) (r : CBlock)
end

/-- Text after text. -/
def CBlock.app : CBlock → CBlock → CBlock
  | .nil, b => b
  | .cons s r, b => .cons s (r.app b)

/-- An entry of `defer_stack`. -/
inductive Cl where
  | say (a : Nat) (xs : List String)
  | drop (x : String)
  deriving DecidableEq, Repr

/-- Printing an entry. -/
def Cl.stm : Cl → CStmt
  | .say a xs => .say a xs
  | .drop x => .drop x

/-- Printing entries, top first (codegen_stmt.c:956-959). -/
def unwind : List Cl → CBlock
  | [] => .nil
  | d :: r => .cons d.stm (unwind r)

/-- The field and the variable of each binding (codegen_stmt.c:907-944): without field names the
names of the variables are those of the fields, elements of tuples are `v0`, `v1`, ... -/
def Pat.binds : Pat → List (String × String)
  | .anon xs => xs.map (fun x => (x, x))
  | .named _ fs => fs
  | .tuple xs => go 0 xs
where
  /-- the loop over the names -/
  go : Nat → List String → List (String × String)
    | _, [] => []
    | i, x :: r => ("v" ++ toString i, x) :: go (i + 1) r

/-- The declarations printed for the bindings (codegen_stmt.c:907-944). -/
def bindText (n : Nat) : List (String × String) → CBlock
  | [] => .nil
  | (f, x) :: r => .cons (.decl (.user x) (.field n f)) (bindText n r)

/-- The test and the field of a guard (codegen_stmt.c:868-889): the field that is tested, whether
`!` is printed, and the field that is bound. -/
def guardText (v : String) : String × Bool × String :=
  if v = "Some" then ("is_some", true, "val")
  else if v = "Ok" then ("is_ok", true, "val")
  else if v = "Err" then ("is_ok", false, "err")
  else ("is_" ++ v, true, "val")

mutual
/-- `codegen_node_single`: the text, `defer_stack` and `tmp_counter` afterwards.  The `else` block
of a guard is printed as the list of its statements (codegen_stmt.c:891-893), so what it defers
stays on the stack. -/
def emit : Stmt → List Cl → Nat → CBlock × List Cl × Nat
  | .lets x own e, ds, n =>
    (.cons (.decl (.user x) (.src e)) .nil, if own then .drop x :: ds else ds, n)
  | .pat p _ e, ds, n =>
    (.cons (.decl (.tmp n) (.src e)) (bindText n p.binds), ds, n + 1)
  | .guard v x e els, ds, n =>
    let r := emitB els ds (n + 1)
    (.cons (.decl (.tmp n) (.src e))
      (.cons (.test n (guardText v).1 (guardText v).2.1 r.1)
        (.cons (.decl (.user x) (.field n (guardText v).2.2)) .nil)), r.2.1, r.2.2)
  | .say a xs, ds, n => (.cons (.say a xs) .nil, ds, n)
  | .defer a xs, ds, n => (.nil, .say a xs :: ds, n)
  | .block b, ds, n =>
    let r := emitB b ds n
    (.cons (.block (r.1.app (unwind (r.2.1.take (r.2.1.length - ds.length))))) .nil,
      r.2.1.drop (r.2.1.length - ds.length), r.2.2)
  | .ret, ds, n => ((unwind ds).app (.cons .ret .nil), ds, n)
/-- `codegen_walker`. -/
def emitB : Block → List Cl → Nat → CBlock × List Cl × Nat
  | .nil, ds, n => (.nil, ds, n)
  | .cons s r, ds, n =>
    let q := emit s ds n
    let t := emitB r q.2.1 q.2.2
    (q.1.app t.1, t.2)
end

/-- How many names a pattern has. -/
def Pat.width : Pat → Nat
  | .anon xs => xs.length
  | .named _ fs => fs.length
  | .tuple xs => xs.length

mutual
/-- Patterns fit in the tables of sixteen pointers (parser_decl.c:333-335, 399-400). -/
def narrow : Stmt → Bool
  | .pat p _ _ => decide (p.width ≤ 16)
  | .guard _ _ _ b => narrowB b
  | .block b => narrowB b
  | _ => true
/-- The same for lists. -/
def narrowB : Block → Bool
  | .nil => true
  | .cons s r => narrow s && narrowB r
end

/-! ## What the C text means -/

/-- The names declared directly in a C block. -/
def CBlock.declared : CBlock → List CVar
  | .nil => []
  | .cons (.decl x _) r => x :: r.declared
  | .cons _ r => r.declared

mutual
/-- No name is declared twice in one block (C11 6.7p3). -/
def tidy : CStmt → Bool
  | .test _ _ _ b => decide (b.declared.Nodup) && tidyB b
  | .block b => decide (b.declared.Nodup) && tidyB b
  | _ => true
/-- The same for each statement of a block. -/
def tidyB : CBlock → Bool
  | .nil => true
  | .cons s r => tidy s && tidyB r
end

abbrev CEnv := List (CVar × Val)

/-- The values of variables. -/
def vals (ρ : CEnv) : List String → Option (List Val)
  | [] => some []
  | x :: r =>
    match ρ.lookup (.user x), vals ρ r with
    | some v, some vs => some (v :: vs)
    | _, _ => none

/-- C expressions; `orc` says what functions return.  `none`: the C compiler refuses it. -/
def evalC (orc : Nat → List Val → Val) (ρ : CEnv) : CExpr → Option (Val × List Ev)
  | .src (.var x) => (ρ.lookup (.user x)).map (fun v => (v, []))
  | .src (.con v) => some (v, [])
  | .src (.call f xs) => (vals ρ xs).map (fun vs => (orc f vs, [.called f vs]))
  | .field t f => ((ρ.lookup (.tmp t)).bind (·.field f)).map (fun v => (v, []))

/-- Truth of a number. -/
def truth : Val → Option Bool
  | .num n => some (n != 0)
  | _ => none

mutual
/-- Running a C statement: whether it returned from the function, what it showed, the variables. -/
def runC (orc : Nat → List Val → Val) : CStmt → CEnv → Option (Bool × List Ev × CEnv)
  | .decl x e, ρ => (evalC orc ρ e).map (fun r => (false, r.2, (x, r.1) :: ρ))
  | .test t f neg b, ρ =>
    match ((ρ.lookup (.tmp t)).bind (·.field f)).bind truth with
    | none => none
    | some c =>
      if (c != neg) = true then
        match runCB orc b ρ with
        | some (q, ev, _) => some (q, ev, ρ)
        | none => none
      else some (false, [], ρ)
  | .say a xs, ρ => (vals ρ xs).map (fun vs => (false, [.said a vs], ρ))
  | .drop x, ρ => (ρ.lookup (.user x)).map (fun v => (false, [.dropped v], ρ))
  | .block b, ρ =>
    match runCB orc b ρ with
    | some (q, ev, _) => some (q, ev, ρ)
    | none => none
  | .ret, ρ => some (true, [], ρ)
/-- Running a list. -/
def runCB (orc : Nat → List Val → Val) : CBlock → CEnv → Option (Bool × List Ev × CEnv)
  | .nil, ρ => some (false, [], ρ)
  | .cons s r, ρ =>
    match runC orc s ρ with
    | none => none
    | some (true, ev, ρ') => some (true, ev, ρ')
    | some (false, ev, ρ') =>
      match runCB orc r ρ' with
      | none => none
      | some (q, ev', ρ'') => some (q, ev ++ ev', ρ'')
end

/-- What a function body does: undefined behaviour of the compiler itself if a table overflows, no
program if the C compiler refuses the text, else what the run shows. -/
def result (orc : Nat → List Val → Val) (b : Block) : Res (Option (List Ev)) :=
  if narrowB b then
    let c := (emit (.block b) [] 0).1
    .ok (if tidyB c then (runCB orc c []).map (fun r => r.2.1) else none)
  else .ub

/-! ## What is expected -/

namespace Spec

abbrev Env := List (String × Val)

/-- The values of variables. -/
def args (E : Env) : List String → Option (List Val)
  | [] => some []
  | x :: r =>
    match E.lookup x, args E r with
    | some v, some vs => some (v :: vs)
    | _, _ => none

/-- Expressions. -/
def eval (orc : Nat → List Val → Val) (E : Env) : Expr → Option (Val × List Ev)
  | .var x => (E.lookup x).map (fun v => (v, []))
  | .con v => some (v, [])
  | .call f xs => (args E xs).map (fun vs => (orc f vs, [.called f vs]))

/-- The fields a pattern looks at, with the variable for each. -/
def wanted : Pat → List (String × String)
  | .anon xs => xs.map (fun x => (x, x))
  | .named _ fs => fs
  | .tuple xs => (List.range xs.length).zip xs |>.map (fun p => ("v" ++ toString p.1, p.2))

/-- The new variables: all from the one value. -/
def bind (v : Val) : List (String × String) → Env → Option Env
  | [], E => some E
  | (f, x) :: r, E =>
    match v.field f with
    | some w => bind v r ((x, w) :: E)
    | none => none

/-- Whether a value is of the wanted variant: `some (some w)` with the payload, `some none` if it is
another variant, `none` if the value is of a type without this variant. -/
def opened (c : String) (v : Val) : Option (Option Val) :=
  if c = "Some" then
    match (v.field "is_some").bind truth, v.field "val" with
    | some true, some w => some (some w)
    | some false, some _ => some none
    | _, _ => none
  else if c = "Ok" then
    match (v.field "is_ok").bind truth, v.field "val" with
    | some true, some w => some (some w)
    | some false, some _ => some none
    | _, _ => none
  else if c = "Err" then
    match (v.field "is_ok").bind truth, v.field "err" with
    | some false, some w => some (some w)
    | some true, some _ => some none
    | _, _ => none
  else
    match v with
    | .variant t w => if t = c then some (some w) else some none
    | _ => none

mutual
/-- The meaning of a statement: whether it returned, what it showed, the variables, and what is to be
done when the scopes are left, latest first.  Deferred calls see the variables where they were
deferred.  An `else` block has its own scope and must leave the function. -/
def run (orc : Nat → List Val → Val) : Stmt → Env → List Ev → Option (Bool × List Ev × Env × List Ev)
  | .lets x own e, E, P =>
    match eval orc E e with
    | some (v, ev) => some (false, ev, (x, v) :: E, if own then .dropped v :: P else P)
    | none => none
  | .pat p own e, E, P =>
    match eval orc E e with
    | some (v, ev) =>
      match bind v (wanted p) E with
      | some E' => some (false, ev, E', if own then .dropped v :: P else P)
      | none => none
    | none => none
  | .guard c x e els, E, P =>
    match eval orc E e with
    | some (v, ev) =>
      match opened c v with
      | some (some w) => some (false, ev, (x, w) :: E, P)
      | some none =>
        match runB orc els E P with
        | some (true, ev', E', P') => some (true, ev ++ ev', E', P')
        | _ => none
      | none => none
    | none => none
  | .say a xs, E, P => (args E xs).map (fun vs => (false, [.said a vs], E, P))
  | .defer a xs, E, P => (args E xs).map (fun vs => (false, [], E, .said a vs :: P))
  | .block b, E, P =>
    match runB orc b E P with
    | some (true, ev, E', P') => some (true, ev, E', P')
    | some (false, ev, _, P') => some (false, ev ++ P'.take (P'.length - P.length), E, P)
    | none => none
  | .ret, E, P => some (true, P, E, P)
/-- Lists. -/
def runB (orc : Nat → List Val → Val) : Block → Env → List Ev → Option (Bool × List Ev × Env × List Ev)
  | .nil, E, P => some (false, [], E, P)
  | .cons s r, E, P =>
    match run orc s E P with
    | some (true, ev, E', P') => some (true, ev, E', P')
    | some (false, ev, E', P') =>
      match runB orc r E' P' with
      | some (q, ev', E'', P'') => some (q, ev ++ ev', E'', P'')
      | none => none
    | none => none
end

/-- What a function body shows. -/
def shows (orc : Nat → List Val → Val) (b : Block) : Option (List Ev) :=
  (run orc (.block b) [] []).map (fun r => r.2.1)

/-- The names a statement adds to its scope. -/
def names : Stmt → List String
  | .lets x _ _ => [x]
  | .pat p _ _ => (wanted p).map Prod.snd
  | .guard _ x _ _ => [x]
  | _ => []

mutual
/-- No name is declared where it is visible already. -/
def Fresh : List String → Stmt → Prop
  | seen, .guard _ x _ els => x ∉ seen ∧ FreshB seen els
  | seen, .block b => FreshB seen b
  | seen, s => (names s).Nodup ∧ ∀ x ∈ names s, x ∉ seen
/-- The same for lists. -/
def FreshB : List String → Block → Prop
  | _, .nil => True
  | seen, .cons s r => Fresh seen s ∧ FreshB (names s ++ seen) r
end

/-- Nothing is deferred and nothing with a destructor is declared directly in the list. -/
def Quiet : Block → Prop
  | .nil => True
  | .cons s r =>
    (match s with
      | .defer _ _ => False
      | .lets _ own _ => own = false
      | .guard _ _ _ els => Quiet els
      | _ => True) ∧ Quiet r

mutual
/-- Guards are for options and results, and defer nothing in their `else` block; values that are
taken apart have no destructor; patterns have at most sixteen names. -/
def Plain : Stmt → Prop
  | .pat p own _ => own = false ∧ (wanted p).length ≤ 16
  | .guard v _ _ els => (v = "Some" ∨ v = "Ok" ∨ v = "Err") ∧ Quiet els ∧ PlainB els
  | .block b => PlainB b
  | _ => True
/-- The same for lists. -/
def PlainB : Block → Prop
  | .nil => True
  | .cons s r => Plain s ∧ PlainB r
end

mutual
/-- Somewhere in the statement there is a pattern with this many names. -/
def Wide (k : Nat) : Stmt → Prop
  | .pat p _ _ => (wanted p).length = k
  | .guard _ _ _ els => WideB k els
  | .block b => WideB k b
  | _ => False
/-- The same for lists. -/
def WideB (k : Nat) : Block → Prop
  | .nil => False
  | .cons s r => Wide k s ∨ WideB k r
end

end Spec

end Verif.Destruct
