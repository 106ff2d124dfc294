import Verif.GenCall.Model

/-!
# Model of methods of generic structs

`register_impl_template` (src/parser/parser_utils.c:700-720), `instantiate_methods` (2983-3092), `instantiate_generic` (3094-3252) and
`instantiate_generic_multi` (3272-3366), with the types that a copied body asks for (`trigger_instantiations`, 2334-2392) and those of fields
(`copy_fields_replacing`, 2880-2941).

Simplified: methods are their names, the text of their return type and the types in `sizeof` of their bodies; generic functions called in methods are
left out (unit `GenCall`), as are the second search for pointers in fields (2943-2976) and the buffers of 256 bytes (unit `Generics`).
-/

namespace Verif.GenImpl

open Generics (Name sanitize placeholder cutLast replaceTypeStr)
open GenCall (unmangle ptrKw)

/-- A generic struct: its name, its parameter and the types of its fields (`GenericTemplate`). -/
structure Tpl where
  name : Name
  param : Name
  fields : List Name
  deriving DecidableEq, Repr

/-- A method: what follows the name of the struct in its own, the text of its return type, the types in `sizeof`. -/
structure Meth where
  suffix : Name
  ret : Name
  sizeofs : List Name
  deriving DecidableEq, Repr

/-- An `impl` block of a generic struct (`GenericImplTemplate`). -/
structure Impl where
  struct : Name
  param : Name
  meths : List Meth
  deriving DecidableEq, Repr

/-- A request for an instance: the struct, its argument as a part of a name, and as a type. -/
structure Req where
  tpl : Name
  arg : Name
  type : Name
  deriving DecidableEq, Repr

/-- The name of an instance (parser_utils.c:3108-3111). -/
def Req.name (r : Req) : Name := r.tpl ++ '_' :: sanitize r.arg

/-- An instance (`Instantiation`). -/
structure Inst where
  name : Name
  tpl : Name
  arg : Name
  type : Name
  deriving DecidableEq, Repr

/-- `ctx->templates`, `ctx->impl_templates` and `ctx->instantiations`, the newest first; the `impl` blocks that were written, with the instances. -/
structure St where
  tpls : List Tpl
  impls : List Impl
  insts : List Inst
  made : List (Impl × Inst)
  deriving DecidableEq, Repr

/-- `is_unmangle_primitive` (parser_utils.c:2856-2869). -/
def primitive (b : Name) : Bool :=
  (["int", "uint", "char", "bool", "void", "byte", "rune", "float", "double", "f32", "f64", "size_t", "usize", "isize", "ptrdiff_t"].map String.toList).contains b ||
    (["i8", "u8", "int8", "int16", "int32", "int64", "uint8", "uint16", "uint32", "uint64"].map String.toList).any fun p => p.isPrefixOf b

/-- The type of the argument of a return type (parser_utils.c:3052-3073). -/
def ptrArg (a : Name) : Name :=
  if 3 < a.length ∧ a.drop (a.length - 3) = ptrKw then
    if primitive (a.take (a.length - 3)) then a.take (a.length - 3) ++ ['*'] else Generics.structKw ++ a.take (a.length - 3) ++ ['*']
  else a

/-- `strrchr(clean_arg, '>')` cut off (parser_utils.c:3043-3050). -/
def cutRight (a : Name) : Name := if '>' ∈ a then ((a.reverse.dropWhile (· ≠ '>')).drop 1).reverse else a

/-- What a return type asks for: every generic struct whose name it begins with (parser_utils.c:3023-3081). -/
def retNeeds (tpls : List Tpl) (r : Name) : List Req :=
  if r.contains '_' || r.contains '<' then
    tpls.filterMap fun t =>
      if t.name.isPrefixOf r then
        match r.drop t.name.length with
        | '_' :: a => some ⟨t.name, a, ptrArg a⟩
        | '<' :: a => some ⟨t.name, cutRight a, ptrArg (cutRight a)⟩
        | _ => none
      else none
  else []

/-- The type of a `sizeof` without `*` or `Ptr` (parser_utils.c:2347-2363). -/
def strip (s : Name) : Name :=
  if '*' ∈ s then s.takeWhile (· ≠ '*') else if 3 < s.length ∧ s.drop (s.length - 3) = ptrKw then s.take (s.length - 3) else s

/-- What a `sizeof` asks for (parser_utils.c:2341-2392). -/
def sizeofNeeds (tpls : List Tpl) (s : Name) : Option Req :=
  match cutLast (strip s) with
  | some (t, a) => if t ≠ [] ∧ (tpls.any fun x => x.name = t) then some ⟨t, a, unmangle a⟩ else none
  | none => none

/-- What a field asks for (parser_utils.c:2895-2940). -/
def fieldNeeds (tpls : List Tpl) (f : Name) : Option Req :=
  (Generics.nested (tpls.map (·.name)) f).map fun x => ⟨x.1, x.2, unmangle x.2⟩

/-- The types of a method in an instance, and what they ask for (parser_utils.c:2994-3006, 3023-3084). -/
def Meth.needs (tpls : List Tpl) (p : Impl) (i : Inst) (m : Meth) : List Req :=
  retNeeds tpls (replaceTypeStr p.param (unmangle i.type) (some (p.struct, i.name)) m.ret) ++
    m.sizeofs.filterMap fun s => sizeofNeeds tpls (replaceTypeStr p.param (unmangle i.type) (some (p.struct, i.name)) s)

/-- What an `impl` block asks for in an instance. -/
def Impl.needs (tpls : List Tpl) (p : Impl) (i : Inst) : List Req := p.meths.flatMap (·.needs tpls p i)

/-- What the fields of an instance ask for (parser_utils.c:3170-3176). -/
def Tpl.needs (tpls : List Tpl) (t : Tpl) (i : Inst) : List Req := t.fields.filterMap fun f => fieldNeeds tpls (replaceTypeStr t.param i.type none f)

/-- `instantiate_methods` (parser_utils.c:2983-3092); `check_impl(ctx, "Methods", …)` never holds, as no `impl` is registered under that name. -/
def methods (rec : St → Req → Option St) (st : St) (p : Impl) (i : Inst) : Option St :=
  ((p.needs st.tpls i).foldlM rec st).map fun st' => { st' with made := st'.made ++ [(p, i)] }

/-- `instantiate_generic` (parser_utils.c:3094-3252); `none`: an unknown generic struct, or not ended after so many calls within calls. -/
def inst : Nat → St → Req → Option St
  | 0, _, _ => none
  | n + 1, st, r =>
    if placeholder r.arg then some st
    else if st.insts.any fun i => i.name = r.name then some st
    else
      match st.tpls.find? fun t => t.name = r.tpl with
      | none => none
      | some t =>
        let i : Inst := ⟨r.name, r.tpl, r.arg, r.type⟩
        ((t.needs st.tpls i).foldlM (inst n) { st with insts := i :: st.insts }).bind fun st' =>
          (st'.impls.filter fun p => p.struct = r.tpl).foldlM (fun st'' p => methods (inst n) st'' p i) st'

/-- A definition, or the use of a type. -/
inductive Decl where
  | struct (t : Tpl)
  | impl (p : Impl)
  | use (r : Req)
  | useMulti (tpl : Name) (args : List Name)
  deriving DecidableEq, Repr

/-- `instantiate_generic_multi` (parser_utils.c:3272-3366): methods are not looked for; the argument kept is the first. -/
def instMulti (st : St) (tpl : Name) (args : List Name) : Option St :=
  if st.insts.any fun i => i.name = Generics.mangled tpl args then some st
  else if st.tpls.any fun t => t.name = tpl then
    some { st with insts := ⟨Generics.mangled tpl args, tpl, args.headD ['T'], args.headD ['T']⟩ :: st.insts }
  else none

/-- One of them: `register_template`, `register_impl_template` (parser_utils.c:700-720), and the two kinds of instances. -/
def declare (fuel : Nat) (st : St) : Decl → Option St
  | .struct t => some { st with tpls := t :: st.tpls }
  | .impl p =>
    (st.insts.filter fun i => i.tpl = p.struct).foldlM (fun st' i => methods (inst fuel) st' p i) { st with impls := p :: st.impls }
  | .use r => inst fuel st r
  | .useMulti t args => instMulti st t args

/-- A program. -/
def run (fuel : Nat) (st : St) (D : List Decl) : Option St := D.foldlM (declare fuel) st

/-- The functions that are written: the methods of the blocks that were made (parser_utils.c:3018-3031). -/
def functions (st : St) : List Name := st.made.flatMap fun x => x.1.meths.map fun m => x.2.name ++ m.suffix

/-! ## specification -/

namespace Spec

/-- Every `impl` block with every instance of its struct. -/
def pairs (impls : List Impl) (i : Inst) : List (Impl × Inst) := (impls.filter fun p => p.struct = i.tpl).map fun p => (p, i)

/-- A request that is met: the type is a parameter, or the instance is there. -/
def Met (insts : List Inst) (r : Req) : Prop := placeholder r.arg = true ∨ ∃ i ∈ insts, i.name = r.name

/-- The instances that a program with these generic structs asks for. -/
inductive Asked (tpls : List Tpl) (D : List Decl) : Inst → Prop
  | use {r} : Decl.use r ∈ D → Asked tpls D ⟨r.name, r.tpl, r.arg, r.type⟩
  | field {i t r} : Asked tpls D i → t ∈ tpls → t.name = i.tpl → r ∈ t.needs tpls i → Asked tpls D ⟨r.name, r.tpl, r.arg, r.type⟩
  | meth {i p r} : Asked tpls D i → Decl.impl p ∈ D → p.struct = i.tpl → r ∈ p.needs tpls i → Asked tpls D ⟨r.name, r.tpl, r.arg, r.type⟩

/-- No struct with several parameters is used. -/
def Single : Decl → Prop
  | .useMulti _ _ => False
  | _ => True

/-- No generic struct is defined (they all were before). -/
def NoStruct : Decl → Prop
  | .struct _ => False
  | _ => True

end Spec
end Verif.GenImpl
