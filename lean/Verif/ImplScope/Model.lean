import Verif.Basic

/-!
# Methods whose `impl` is closed too early

While the methods of `impl T { ... }` are parsed, `current_impl_struct` is `T` (`parse_impl`, /repo/src/parser/parser_struct.c:386, 557); functions are parsed differently
then (`parse_function`, /repo/src/parser/parser_decl.c:130-230; `self`, /repo/src/parser/parser_utils.c:4006-4125).  The first loop over an array imports `std/slice.zc`
in the middle of the function it is in (`auto_import_std_slice`, /repo/src/parser/parser_stmt.c:26-129), and the `impl` blocks of that file set `current_impl_struct` to
`NULL` at their end (/repo/src/parser/parser_struct.c:680).

Simplified: a function is its name, whether it has such a loop, whether it is generic; bodies are printed for functions that are not generic
(/repo/src/codegen/codegen_stmt.c:552-556).  `impl Trait for T` is left out; it sets and clears `current_impl_struct` in the same way (386, 506).
-/

namespace Verif.ImplScope

abbrev Name := String

/-- A function or method with a body (/repo/src/ast/ast.h). -/
structure Fn where
  name : Name
  loops : Bool
  generic : Bool
  deriving DecidableEq, Repr

/-- What is in a program; `slice` is an import of `std/slice.zc`. -/
inductive Top where
  | fn (f : Fn)
  | impl (t : Name) (ms : List Fn)
  | slice
  deriving DecidableEq, Repr

/-- `ParserContext` (/repo/src/parser/parser.h:280-330): the `impl` that is open, whether there is the template `Slice`, the C names of the functions in
`parsed_funcs_list` and of the methods of `parsed_impls_list` that have no parameters (both lists with the last first), the names given to `register_func` by
`parse_function`, and the type of `self` of each function. -/
structure St where
  impl : Option Name
  slice : Bool
  funcs : List Name
  methods : List Name
  plain : List Name
  selfs : List (Name × Option Name)
  deriving DecidableEq, Repr

/-- `parse_function` (/repo/src/parser/parser_decl.c:130-230), for a function that is called `c` in C in the end; `parse_impl` changes the name of the node that is in the
list (/repo/src/parser/parser_struct.c:703-706).  The second result is whether there is a node, `NULL` otherwise (216-222). -/
def parseFn (c : Name) (f : Fn) (s : St) : St × Bool :=
  let s1 := { s with
    selfs := (c, s.impl) :: s.selfs
    plain := if !f.generic && s.impl.isNone then f.name :: s.plain else s.plain }
  let s2 := if f.loops && !s1.slice then { s1 with slice := true, impl := none } else s1
  if f.generic then (s2, s2.impl.isSome)
  else (if s2.impl.isNone then { s2 with funcs := c :: s2.funcs } else s2, true)

/-- the C name of a method (/repo/src/parser/parser_struct.c:704) -/
def mangle (t m : Name) : Name := t ++ "__" ++ m

/-- The methods of an `impl` (/repo/src/parser/parser_struct.c:685-778); without a node its name is read through `NULL` (703). -/
def parseMethods (t : Name) : List Fn → St → Res St
  | [], s => .ok s
  | f :: r, s =>
    let q := parseFn (mangle t f.name) f s
    if q.2 then parseMethods t r (if f.generic then q.1 else { q.1 with methods := mangle t f.name :: q.1.methods })
    else .ub

/-- One item (`parse_program_nodes`, /repo/src/parser/parser_core.c). -/
def parseTop : Top → St → Res St
  | .fn f, s => .ok (parseFn f.name f s).1
  | .impl t ms, s =>
    match parseMethods t ms { s with impl := some t } with
    | .ok s' => .ok { s' with impl := none }
    | .panic => .panic
    | .ub => .ub
  | .slice, s => .ok { s with slice := true }

/-- The program, item by item. -/
def parse : List Top → St → Res St
  | [], s => .ok s
  | x :: r, s =>
    match parseTop x s with
    | .ok s' => parse r s'
    | .panic => .panic
    | .ub => .ub

/-- The context at the beginning. -/
def St.init : St := ⟨none, false, [], [], [], []⟩

/-- The C functions that are printed (/repo/src/codegen/codegen_main.c:627-806). -/
def St.printed (s : St) : List Name := s.funcs ++ s.methods

namespace Spec

/-- the functions of a program that are printed -/
def functions : List Top → List Name
  | [] => []
  | .fn f :: r => (if f.generic then [] else [f.name]) ++ functions r
  | _ :: r => functions r

/-- its methods that are printed -/
def methods : List Top → List Name
  | [] => []
  | .impl t ms :: r => (ms.filter fun f => !f.generic).map (fun f => mangle t f.name) ++ methods r
  | _ :: r => methods r

/-- what `self` is in each function -/
def selfs : List Top → List (Name × Option Name)
  | [] => []
  | .fn f :: r => (f.name, none) :: selfs r
  | .impl t ms :: r => ms.map (fun f => (mangle t f.name, some t)) ++ selfs r
  | .slice :: r => selfs r

/-- no method has the first loop of the program: `b` is whether there was one before, or an import of `std/slice.zc` -/
def Safe : Bool → List Top → Prop
  | _, [] => True
  | b, .fn f :: r => Safe (b || f.loops) r
  | b, .impl _ ms :: r => (b = true ∨ ∀ f ∈ ms, f.loops = false) ∧ Safe b r
  | _, .slice :: r => Safe true r

end Spec

end Verif.ImplScope
