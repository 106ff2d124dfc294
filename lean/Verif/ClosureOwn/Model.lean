/-!
# Values with destructors and lambdas

A variable of a type that implements `Drop` is destroyed once: at the end of its scope, or by
whoever it was moved to.  Modelled: the C code of a function with such variables that creates
lambdas capturing them and calls them (`codegen_lambda_expr`, /repo/src/codegen/codegen.c:147-221,
the call of a closure, /repo/src/codegen/codegen.c:727-775, `emit_lambda_defs`,
/repo/src/codegen/codegen_decl.c:315-411), the flags that say whether a variable is still to be
destroyed (/repo/src/codegen/codegen_stmt.c:780-830 and 993-1060) and what a move does
(`codegen_expression_with_move`, `emit_move_invalidation`, /repo/src/codegen/codegen_utils.c:902-982).

Simplified: all variables are of one such type, whose values are numbered in the order in which
they are made (`none` is the zeroed value, whose destructor does nothing); bodies are straight
lines; at most `MAX_DEFER` variables are to be destroyed (see the unit `Defer`); functions called
only look at their parameters.  Which variables a lambda captures is the subject of the unit
`Closure`, whether a variable is used after it was moved that of the unit `Move`; lambdas in
lambdas are left out (the C code of those is not compiled, see `Closure.nested_violated`).
-/

namespace Verif.ClosureOwn

/-- A variable of the C function with its value and its flag `__z_drop_flag_x`. -/
structure Slot where
  name : String
  res : Option Nat
  flag : Bool
  deriving DecidableEq, Repr

/-- A move out of `x`: the value is taken, the flag cleared and the variable zeroed
(/repo/src/codegen/codegen_utils.c:903-950, 969-979; /repo/src/codegen/codegen_stmt.c:1051-1055). -/
def take (x : String) : List Slot → Option Nat × List Slot
  | [] => (none, [])
  | s :: ss =>
      if s.name = x then (s.res, { s with res := none, flag := false } :: ss)
      else ((take x ss).1, s :: (take x ss).2)

/-- Moves out of several variables, in order. -/
def takeAll : List String → List Slot → List (Option Nat) × List Slot
  | [], ss => ([], ss)
  | x :: xs, ss =>
      let a := take x ss
      let b := takeAll xs a.2
      (a.1 :: b.1, b.2)

/-- The end of a scope: the deferred `if (__z_drop_flag_x) T__Drop_glue(&x);`, last declared first
(/repo/src/codegen/codegen_stmt.c:1005-1016, 819-823; variables are kept last first). -/
def atEnd : List Slot → List Nat
  | [] => []
  | s :: ss => (if s.flag then s.res.toList else []) ++ atEnd ss

/-- Statements in the body of a lambda: `let y = T::new()`, `let z = y`, and something that only
looks at `y`. -/
inductive B where
  | new (y : String)
  | move (z y : String)
  | use (y : String)
  deriving DecidableEq, Repr

/-- A lambda: variables captured by value and by reference, parameters, body. -/
structure Lambda where
  vals : List String
  refs : List String
  params : List String
  body : List B
  deriving DecidableEq, Repr

/-- A declaration makes the variable and its flag (/repo/src/codegen/codegen_stmt.c:997-1055); the next
number and the variables. -/
def runB (σ : Nat × List Slot) : B → Nat × List Slot
  | .new y => (σ.1 + 1, ⟨y, some σ.1, true⟩ :: σ.2)
  | .move z y => (σ.1, ⟨z, (take y σ.2).1, true⟩ :: (take y σ.2).2)
  | .use _ => σ

/-- The C function of a lambda (/repo/src/codegen/codegen_decl.c:343-411) as far as destructors go: the
variables of the body are destroyed at its end; there are no flags for the parameters, and nothing
is done about the captures.  The result is the next number and what was destroyed. -/
def runBody (n : Nat) (bs : List B) : Nat × List Nat :=
  ((bs.foldl runB (n, [])).1, atEnd (bs.foldl runB (n, [])).2)

/-- Whether the C code of a body is compiled: a move clears the flag of the variable by name
(/repo/src/codegen/codegen_utils.c:933-934), and captures and parameters have none. -/
def bodyCompiles (locals : List String) : List B → Bool
  | [] => true
  | .new y :: bs => bodyCompiles (y :: locals) bs
  | .move z y :: bs => locals.contains y && bodyCompiles (z :: locals) bs
  | .use _ :: bs => bodyCompiles locals bs

/-- Statements of the function: as in lambdas, and the creation of a closure in a variable `c`, the
call of a closure, and the call of an ordinary function. -/
inductive S where
  | new (x : String)
  | move (y x : String)
  | use (x : String)
  | lam (c : String) (l : Lambda)
  | call (c : String) (args : List String)
  | fn (args : List String)
  deriving DecidableEq, Repr

/-- State: next number, variables, the members of the contexts of all closures made so far, the
closures, and the values destroyed so far. -/
structure State where
  next : Nat
  vars : List Slot
  ctxs : List (Option Nat)
  fns : List (String × Lambda)
  dropped : List Nat
  deriving DecidableEq, Repr

/-- At the start of the function. -/
def init : State := ⟨0, [], [], [], []⟩

/-- One statement.
* `lam` (/repo/src/codegen/codegen.c:149-214): captures by value are moved into the new context, those
  by reference are left where they are.
* `call` (/repo/src/codegen/codegen.c:727-775): the arguments are moved into the parameters of the C
  function of the lambda, which are forgotten when it returns.
* `fn` (/repo/src/codegen/codegen_stmt.c:780-823): the arguments are moved into the parameters, which have
  flags and are destroyed, last first. -/
def step (σ : State) : S → State
  | .new x => { σ with next := σ.next + 1, vars := ⟨x, some σ.next, true⟩ :: σ.vars }
  | .move y x => { σ with vars := ⟨y, (take x σ.vars).1, true⟩ :: (take x σ.vars).2 }
  | .use _ => σ
  | .lam c l =>
      { σ with
        vars := (takeAll l.vals σ.vars).2
        ctxs := (takeAll l.vals σ.vars).1 ++ σ.ctxs
        fns := (c, l) :: σ.fns }
  | .call c args =>
      match σ.fns.lookup c with
      | none => { σ with vars := (takeAll args σ.vars).2 }
      | some l =>
          { σ with
            next := (runBody σ.next l.body).1
            vars := (takeAll args σ.vars).2
            dropped := σ.dropped ++ (runBody σ.next l.body).2 }
  | .fn args =>
      { σ with
        vars := (takeAll args σ.vars).2
        dropped := σ.dropped ++ (takeAll args σ.vars).1.reverse.filterMap id }

/-- Whether the C code of the lambda a statement creates is compiled. -/
def compiles : S → Bool
  | .lam _ l => bodyCompiles [] l.body
  | _ => true

/-- The whole function: `none` if the C compiler rejects a lambda; otherwise how many values were
made and which were destroyed, in order. -/
def run (p : List S) : Option (Nat × List Nat) :=
  if p.all compiles then
    some ((p.foldl step init).next, (p.foldl step init).dropped ++ atEnd (p.foldl step init).vars)
  else none

/-! ## Specification -/

namespace Spec

/-- The variable declared last as `x` has the value `r`. -/
def Holds (vars : List Slot) (x : String) (r : Nat) : Prop :=
  ∃ pre s post, vars = pre ++ s :: post ∧ (∀ t ∈ pre, t.name ≠ x) ∧ s.name = x ∧ s.res = some r

/-- Every value made is destroyed exactly once. -/
def Exact (made : Nat) (destroyed : List Nat) : Prop := ∀ r, r < made → destroyed.count r = 1

/-- No capture by value and no argument of a closure. -/
def Borrows : S → Prop
  | .lam _ l => l.vals = []
  | .call _ args => args = []
  | _ => True

/-- A body moves a name it has not declared. -/
def MovesOutside (locals : List String) : List B → Prop
  | [] => False
  | .new y :: bs => MovesOutside (y :: locals) bs
  | .move z y :: bs => y ∉ locals ∨ MovesOutside (z :: locals) bs
  | .use _ :: bs => MovesOutside locals bs

end Spec

end Verif.ClosureOwn
