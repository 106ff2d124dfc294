import Verif.GenBody.Model

/-!
# Model of instances of generic functions

`instantiate_function_template` and `trigger_instantiations` (src/parser/parser_utils.c:2334-2662) with the places that call them
(src/parser/parser_expr.c:2400-2431, 3416-3486; src/parser/parser_decl.c:86-224).

Simplified: one type parameter; of the body of a function only the names of functions and variables are kept that stand in it, with the kinds of nodes
around them; structs in return types and in `sizeof` are left out (their instances are those of the unit `Generics`); functions of `impl` blocks
are left out; the buffers are those of the unit `GenBody`.
-/

namespace Verif.GenCall

open Generics (Name isIdent sanitize)
open GenBody (mangledPart)

/-- The kinds of nodes around a name (src/ast/ast.h:117-178). -/
inductive Kind where
  | block | ret | varDecl | if | while | for | forRange | loop | repeat | unless | guard | match | matchCase | binary | unary | call | member | index | cast
  | structInit | arrayLiteral | slice | assert | defer | destruct | ternary | lambda | doWhile | try | await
  deriving DecidableEq, Repr

/-- The nodes that `trigger_instantiations` looks into (parser_utils.c:2419-2482). -/
def entered : Kind → Bool
  | .block | .ret | .varDecl | .if | .while | .for | .match | .matchCase | .binary | .unary | .call | .member | .index | .cast | .structInit => true
  | _ => false

/-- What stands in a body: the call `g<t>(…)`, or a name. -/
inductive Item where
  | call (g t : Name)
  | var (n : Name)
  deriving DecidableEq, Repr

/-- An item and the nodes around it. -/
structure Ref where
  path : List Kind
  item : Item
  deriving DecidableEq, Repr

/-- The name that the parser leaves for a call (parser_utils.c:2508-2511, parser_expr.c:2424-2425). -/
def Item.name : Item → Name
  | .call g t => g ++ '_' :: sanitize t
  | .var n => n

/-- A generic function (`GenericFuncTemplate`). -/
structure Tpl where
  name : Name
  param : Name
  refs : List Ref
  deriving DecidableEq, Repr

/-- An instance: its name, the function it was made of and the type put in for the parameter. -/
structure Inst where
  name : Name
  tpl : Name
  arg : Name
  deriving DecidableEq, Repr

/-- `func_templates` (the newest first), the names of `func_registry`, and `instantiated_funcs` in the order in which they were added. -/
structure St where
  tpls : List Tpl
  funcs : List Name
  insts : List Inst
  deriving DecidableEq, Repr

/-- `is_primitive_type_name` (parser_utils.c:168-188). -/
def primitives : List Name :=
  ["int", "i32", "u8", "i8", "i16", "u16", "u32", "i64", "u64", "f32", "float", "f64", "double", "void", "bool", "char", "usize", "isize", "uint", "byte", "int8_t",
    "uint8_t", "int16_t", "uint16_t", "int32_t", "uint32_t", "int64_t", "uint64_t", "size_t", "ptrdiff_t"].map String.toList

/-- `"Ptr"` -/
def ptrKw : Name := ['P', 't', 'r']

/-- `unmangle_ptr_suffix` (parser_utils.c:2256-2289). -/
def unmangle (s : Name) : Name :=
  if 3 < s.length ∧ s.drop (s.length - 3) = ptrKw ∧ primitives.contains (s.take (s.length - 3)) then s.take (s.length - 3) ++ ['*'] else s

/-- `is_still_generic` (parser_utils.c:2499-2507). -/
def stillGeneric (known : List Name) (clean : Name) : Bool :=
  (match clean with
    | [c] => 'A' ≤ c && c ≤ 'Z'
    | _ => false) || known.contains clean

/-- The search of `trigger_instantiations` for a function whose name a name begins with (parser_utils.c:2394-2417). -/
def template (tpls : List Tpl) (n : Name) : Option Tpl :=
  if n.contains '_' then tpls.find? fun t => (t.name ++ ['_']).isPrefixOf n else none

/-- The names of a copied body that `trigger_instantiations` comes to (parser_utils.c:1915-2211, 2334-2486). -/
def names (t : Tpl) (arg : Name) : List Name :=
  (t.refs.filter fun r => r.path.all entered).map fun r => mangledPart t.param (sanitize arg) 0 none r.item.name

/-- `instantiate_function_template` (parser_utils.c:2488-2662) with `trigger_instantiations` for the names of the new body; `none`: it has not ended
after so many calls within calls. -/
def inst (known : List Name) : Nat → St → Name → Name → Name → Option St
  | 0, _, _, _, _ => none
  | n + 1, st, f, concrete, arg =>
    match st.tpls.find? fun t => t.name = f with
    | none => some st
    | some t =>
      if stillGeneric known (sanitize concrete) then some st
      else if st.funcs.contains (f ++ '_' :: sanitize concrete) then some st
      else
        ((names t arg).foldlM (fun (st' : St) m =>
            match template st'.tpls m with
            | none => some st'
            | some t' => inst known n st' t'.name (m.drop (t'.name.length + 1)) (unmangle (m.drop (t'.name.length + 1)))) st).map fun (st' : St) =>
          St.mk st'.tpls ((f ++ '_' :: sanitize concrete) :: st'.funcs) (st'.insts ++ [Inst.mk (f ++ '_' :: sanitize concrete) f arg])

/-- A call in the source (parser_expr.c:2400-2431); `none` also stands for the error about an unknown generic function. -/
def useCall (known : List Name) (fuel : Nat) (st : St) (g t : Name) : Option St :=
  if st.tpls.any fun x => x.name = g then inst known fuel st g t t else none

/-- A definition: a generic function, or another function with the calls of generic functions in it. -/
inductive Decl where
  | tpl (t : Tpl)
  | fn (name : Name) (calls : List (Name × Name))
  deriving DecidableEq, Repr

/-- The calls in a body. -/
def Tpl.calls (t : Tpl) : List (Name × Name) := t.refs.filterMap fun r => match r.item with
  | .call g x => some (g, x)
  | .var _ => none

/-- `parse_function` (src/parser/parser_decl.c:86-224): in the body of a generic function its parameter is known; the function itself is known
behind it only, other functions at once. -/
def declare (fuel : Nat) (st : St) : Decl → Option St
  | .tpl t => (t.calls.foldlM (fun st' c => useCall [t.param] fuel st' c.1 c.2) st).map fun st' => { st' with tpls := t :: st'.tpls }
  | .fn n calls => calls.foldlM (fun st' c => useCall [] fuel st' c.1 c.2) { st with funcs := n :: st.funcs }

/-- A program. -/
def run (fuel : Nat) (D : List Decl) : Option St := D.foldlM (declare fuel) ⟨[], [], []⟩

/-! ## specification -/

namespace Spec

/-- The instances a program needs: those called in functions, those called with a type in generic functions, and those that instances call
with their own type. -/
inductive Needs (D : List Decl) : Name → Name → Prop
  | fn {n calls g c} : Decl.fn n calls ∈ D → (g, c) ∈ calls → Needs D g c
  | typed {t g c} : Decl.tpl t ∈ D → (g, c) ∈ t.calls → c ≠ t.param → Needs D g c
  | param {t g c} : Decl.tpl t ∈ D → Needs D t.name c → (g, t.param) ∈ t.calls → Needs D g c

/-- The types that a program puts in. -/
def Used (D : List Decl) (c : Name) : Prop :=
  (∃ n calls g, Decl.fn n calls ∈ D ∧ (g, c) ∈ calls) ∨ (∃ t g, Decl.tpl t ∈ D ∧ (g, c) ∈ t.calls ∧ c ≠ t.param)

/-- Generic functions come before their calls. -/
def Ordered (seen : List Name) : List Decl → Prop
  | [] => True
  | .tpl t :: D => (∀ c ∈ t.calls, c.1 ∈ seen) ∧ t.name ∉ seen ∧ Ordered (t.name :: seen) D
  | .fn _ calls :: D => (∀ c ∈ calls, c.1 ∈ seen) ∧ Ordered seen D

/-- The programs for which the instances are right. -/
structure Fine (D : List Decl) : Prop where
  /-- generic functions are defined once, before they are called -/
  ordered : Ordered [] D
  /-- types can be got back from names, and are not taken for parameters -/
  undone : ∀ c, Used D c → unmangle (sanitize c) = c
  plain : ∀ c t, Used D c → Decl.tpl t ∈ D → t.param ∉ GenBody.Spec.segs (sanitize c)
  concrete : ∀ c, Used D c → ∀ x, sanitize c = [x] → ¬ ('A' ≤ x ∧ x ≤ 'Z')
  /-- parameters are words without `_`, and no parts of names of functions -/
  param : ∀ t, Decl.tpl t ∈ D → t.param ≠ [] ∧ (∀ x ∈ t.param, isIdent x = true) ∧ '_' ∉ t.param
  ident : ∀ t, Decl.tpl t ∈ D → ∀ x ∈ t.name, isIdent x = true
  apart : ∀ t u, Decl.tpl t ∈ D → Decl.tpl u ∈ D → t.param ∉ GenBody.Spec.segs u.name
  /-- no name of an instance begins with the name of another generic function -/
  clear : ∀ t u c, Decl.tpl t ∈ D → Decl.tpl u ∈ D → Used D c → t.name ++ ['_'] <+: u.name ++ '_' :: sanitize c → t.name = u.name
  /-- nor is it that of another function -/
  own : ∀ t n calls c, Decl.tpl t ∈ D → Decl.fn n calls ∈ D → Used D c → n ≠ t.name ++ '_' :: sanitize c
  /-- calls with the parameter stand where they are looked for -/
  visible : ∀ t r g, Decl.tpl t ∈ D → r ∈ t.refs → r.item = .call g t.param → r.path.all entered = true
  /-- other names begin with no name of a generic function, before and behind the replacement -/
  vars : ∀ t u r n c, Decl.tpl t ∈ D → Decl.tpl u ∈ D → r ∈ t.refs → r.item = .var n → Used D c →
    ¬ u.name ++ ['_'] <+: mangledPart t.param (sanitize c) 0 none n

end Spec
end Verif.GenCall
