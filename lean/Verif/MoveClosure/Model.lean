import Verif.Move.Lemmas

/-!
# The use-after-move check and closures: model

`check_expr_lambda` (src/analysis/typecheck.c:1569-1635), which marks what a closure captures by value as
moved and checks the body with a state of its own, in straight-line functions; the state is that of
`Verif.Move`.

Simplified: every variable has a type that is not `Copy` and was declared with it (closures are `Copy`);
a closure is made and named in one step; bodies are straight lines without closures of their own.
The captures of a closure are given (`analyze_lambda_captures`, src/parser/parser_expr.c:640-800, is the
subject of `Verif.Closure`).
-/

namespace Verif.MoveClosure
open Move

/-- A statement of the body of a closure: looking at a value, giving it away (as an argument, a new
variable's value or a result), declaring a variable with a new value, assigning a new value -/
inductive B where
  | look (x : String)
  | give (x : String)
  | decl (x : String)
  | assign (x : String)
  deriving DecidableEq, Repr

/-- A statement of the function; captures are by reference if `true` -/
inductive Op where
  | base (b : B)
  | lam (f : String) (caps : List (String × Bool)) (body : List B)
  | call (f : String)
  deriving DecidableEq, Repr

/-- `check_use_validity` (src/analysis/move_check.c:215-248) -/
def use (m : MS) (x : String) : Option MS := if getM m x then none else some m

/-- a plain statement: `check_expr_var` (src/analysis/typecheck.c:970-983), `mark_symbol_moved` and
`mark_symbol_valid` (src/analysis/move_check.c:250-316); a declaration changes nothing
(src/analysis/typecheck.c:798-832) -/
def chkB (m : MS) : B → Option MS
  | .look x => use m x
  | .give x => (use m x).map fun m => setM m x true
  | .decl _ => some m
  | .assign x => some (setM m x false)

/-- the statements of a body -/
def chkBody : MS → List B → Option MS
  | m, [] => some m
  | m, b :: bs => (chkB m b).bind fun m => chkBody m bs

/-- the captures (src/analysis/typecheck.c:1571-1596) -/
def chkCaps : MS → List (String × Bool) → Option MS
  | m, [] => some m
  | m, (x, r) :: cs => (use m x).bind fun m => chkCaps (if r then m else setM m x true) cs

/-- a statement (src/analysis/typecheck.c:1569-1635); the body begins with an empty state, and the state
after it is dropped -/
def chkOp (m : MS) : Op → Option MS
  | .base b => chkB m b
  | .lam _ caps body => (chkCaps m caps).bind fun m => (chkBody [] body).map fun _ => m
  | .call _ => some m

/-- the function -/
def chk : MS → List Op → Option MS
  | m, [] => some m
  | m, o :: os => (chkOp m o).bind fun m => chk m os

namespace Spec

/-- A closure: what it holds by value (`some true`: still there), and its body -/
structure Clo where
  cell : String → Option Bool
  body : List B

/-- Which variables hold their value, and the closures -/
structure St where
  vars : String → Bool
  clos : String → Option Clo

def upd {A : Type} (f : String → A) (x : String) (v : A) : String → A := fun y => if y = x then v else f y

/-- Within a call: local variables, what the closure holds, and the variables of the function -/
structure Env where
  loc : String → Option Bool
  cell : String → Option Bool
  vars : String → Bool

/-- the variable a name stands for -/
def Env.get (e : Env) (x : String) : Bool :=
  match e.loc x with
  | some b => b
  | none => (e.cell x).getD (e.vars x)

def Env.set (e : Env) (x : String) (b : Bool) : Env :=
  match e.loc x with
  | some _ => { e with loc := upd e.loc x (some b) }
  | none =>
      match e.cell x with
      | some _ => { e with cell := upd e.cell x (some b) }
      | none => { e with vars := upd e.vars x b }

/-- `none`: a value is used that was given away before -/
def runB (e : Env) : B → Option Env
  | .look x => if e.get x then some e else none
  | .give x => if e.get x then some (e.set x false) else none
  | .decl x => some { e with loc := upd e.loc x (some true) }
  | .assign x => some (e.set x true)

def runBody : Env → List B → Option Env
  | e, [] => some e
  | e, b :: bs => (runB e b).bind fun e => runBody e bs

/-- making a closure: values captured by value go into it -/
def capture : (String → Bool) → (String → Option Bool) → List (String × Bool) →
    Option ((String → Bool) × (String → Option Bool))
  | v, c, [] => some (v, c)
  | v, c, (x, r) :: cs =>
      if v x then (if r then capture v c cs else capture (upd v x false) (upd c x (some true)) cs) else none

def runOp (s : St) : Op → Option St
  | .base (.look x) => if s.vars x then some s else none
  | .base (.give x) => if s.vars x then some { s with vars := upd s.vars x false } else none
  | .base (.decl x) => some { s with vars := upd s.vars x true }
  | .base (.assign x) => some { s with vars := upd s.vars x true }
  | .lam f caps body =>
      (capture s.vars (fun _ => none) caps).map fun p => ⟨p.1, upd s.clos f (some ⟨p.2, body⟩)⟩
  | .call f =>
      match s.clos f with
      | none => some s
      | some c =>
          (runBody ⟨fun _ => none, c.cell, s.vars⟩ c.body).map fun e =>
            ⟨e.vars, upd s.clos f (some ⟨e.cell, c.body⟩)⟩

def run : St → List Op → Option St
  | s, [] => some s
  | s, o :: os => (runOp s o).bind fun s => run s os

/-- At the start no value has been given away -/
def start : St := ⟨fun _ => true, fun _ => none⟩

/-- A body that uses what it captures and its own variables, and gives away only the latter -/
def Tame (caps : List String) : List String → List B → Prop
  | _, [] => True
  | loc, .look x :: bs => (x ∈ caps ∨ x ∈ loc) ∧ Tame caps loc bs
  | loc, .give x :: bs => x ∈ loc ∧ Tame caps loc bs
  | loc, .decl x :: bs => x ∉ caps ∧ Tame caps (x :: loc) bs
  | loc, .assign x :: bs => (x ∈ caps ∨ x ∈ loc) ∧ Tame caps loc bs

/-- No statement gives away one of the variables `R`, and closures are tame and capture by reference only
these -/
def OpOk (R : List String) : Op → Prop
  | .base (.give x) => x ∉ R
  | .base _ => True
  | .lam _ caps body =>
      Tame (caps.map (·.1)) [] body ∧ (∀ x, (x, true) ∈ caps → x ∈ R) ∧ (∀ x, (x, false) ∈ caps → x ∉ R)
  | .call _ => True

/-- No variable is declared after its name was used -/
def Fresh : List String → List Op → Prop
  | _, [] => True
  | seen, .base (.decl x) :: os => x ∉ seen ∧ Fresh (x :: seen) os
  | seen, .base (.look _) :: os => Fresh seen os
  | seen, .base (.give x) :: os => Fresh (x :: seen) os
  | seen, .base (.assign x) :: os => Fresh (x :: seen) os
  | seen, .lam _ caps _ :: os => Fresh (caps.map (·.1) ++ seen) os
  | seen, .call _ :: os => Fresh seen os

end Spec

end Verif.MoveClosure
