import Verif.Basic

/-!
# Traits, trait objects, method calls and mixins

Models the C code of traits and of their implementations: `emit_trait_defs`
(/repo/src/codegen/codegen_decl.c:588-740), `emit_impl_vtables` (codegen_decl.c:995-1120),
`extract_call_args` (/repo/src/codegen/codegen_utils.c:654-694), the names given by
`parse_impl` (/repo/src/parser/parser_struct.c:268-520), the trait objects built by
`parse_var_decl` (/repo/src/parser/parser_decl.c:753-768) and by calls
(/repo/src/parser/parser_expr.c:3010-3125); the function a method call runs, decided in
`parse_expr_prec_impl` (parser_expr.c:5383-5540) and in `codegen_expression`
(/repo/src/codegen/codegen.c:521-706); the fields of structs with `use`
(/repo/src/parser/parser_struct.c:912-965).

Simplified: no generic types, no primitive receivers, no async, varargs or `@cfg`; every method is
called with as many arguments as it has parameters (the C compiler checks that); every field
is one word.
-/

namespace Verif.Traits

/-- C text. -/
abbrev Text := List Char

/-! ## Programs -/

/-- Types of parameters and results. `fnPtr pre post` is a pointer to a function whose
declaration reads `pre name post`. -/
inductive Ty where
  | prim (t : Text)
  | named (n : Text)
  | ptr (t : Ty)
  | fnPtr (pre post : Text)
  | selfT
  deriving DecidableEq

/-- A parameter. -/
structure Param where
  name : Text
  ty : Ty
  deriving DecidableEq

/-- The head of a method: `fn name(self, params) -> ret`. `self`, if there, is the first parameter. -/
structure Sig where
  name : Text
  self : Bool
  params : List Param
  ret : Ty
  deriving DecidableEq

/-- `trait name { methods }`. -/
structure Trait where
  name : Text
  methods : List Sig

/-- `impl trait for target { methods }`. -/
structure Impl where
  trait : Text
  target : Text
  methods : List Sig

/-- A program: names of structs, traits and trait implementations in the order of their
declarations, inherent methods (struct and method), names of functions. -/
structure Prog where
  structs : List Text
  traits : List Trait
  impls : List Impl
  inherent : List (Text × Text)
  plain : List Text

/-! ## C declarations and their names -/

/-- Declarations at the top level of the C program. -/
inductive Decl where
  /-- `typedef struct S S;` -/
  | strct (s : Text)
  /-- `typedef struct T { void *self; T_VTable *vtable; } T;` -/
  | obj (t : Text)
  /-- `typedef struct T_VTable { … } T_VTable;` -/
  | vtype (t : Text)
  /-- `T_VTable S_T_VTable = { … };` -/
  | table (s t : Text)
  /-- the function that calls method `m` of an object of trait `T` -/
  | wrap (t m : Text)
  /-- the function of method `m` of `impl T for S` -/
  | tmeth (s t m : Text)
  /-- the function of method `m` of `impl S` -/
  | meth (s m : Text)
  /-- a function -/
  | plain (f : Text)
  deriving DecidableEq

/-- The name of a declaration. codegen_decl.c:626-671 and 1089, parser_struct.c:415 and 585. -/
def cname : Decl → Text
  | .strct s => s
  | .obj t => t
  | .vtype t => t ++ "_VTable".toList
  | .table s t => s ++ '_' :: t ++ "_VTable".toList
  | .wrap t m => t ++ '_' :: '_' :: m
  | .tmeth s t m => s ++ '_' :: '_' :: t ++ '_' :: m
  | .meth s m => s ++ '_' :: '_' :: m
  | .plain f => f

/-- All declarations of the C program. `Copy` has no tables (codegen_decl.c:1082-1087). -/
def decls (P : Prog) : List Decl :=
  P.structs.map .strct ++
  P.traits.flatMap (fun t => .obj t.name :: .vtype t.name :: t.methods.map fun m => .wrap t.name m.name) ++
  P.impls.flatMap (fun i => (if i.trait = "Copy".toList then [] else [.table i.target i.trait]) ++
    i.methods.map fun m => .tmeth i.target i.trait m.name) ++
  P.inherent.map (fun p => .meth p.1 p.2) ++ P.plain.map .plain

/-! ## The text of parameters and arguments -/

/-- The text of a type. `Self` is replaced by `self` (`void*` in the table, the trait's name in
the wrapper, the struct in the method), for results by `substitute_proto_self` (codegen_decl.c:588-607)
and by the parser; in parameters of traits it stays (`replace_type_str` looks at the whole list of parameters). -/
def Ty.text (self : Text) : Ty → Text
  | .prim t => t
  | .named n => n
  | .ptr t => t.text self ++ ['*']
  | .fnPtr pre post => pre ++ "*".toList ++ post
  | .selfT => self

/-- The declaration of a parameter. /repo/src/parser/parser_utils.c:4144-4180. -/
def Param.text (p : Param) : Text :=
  match p.ty with
  | .fnPtr pre post => pre ++ p.name ++ post
  | t => t.text "Self".toList ++ ' ' :: p.name

/-- Strings joined by `", "`. -/
def joined : List Text → Text
  | [] => []
  | [a] => a
  | a :: r => a ++ ',' :: ' ' :: joined r

/-- The text of the parameters of a method. parser_utils.c:3942-4240. -/
def Sig.args (s : Sig) : Text :=
  joined ((if s.self then ["void* self".toList] else []) ++ s.params.map Param.text)

/-- Whether the text occurs (`strstr`). -/
def occurs (pat : Text) : Text → Bool
  | [] => pat.isEmpty
  | c :: r => pat.isPrefixOf (c :: r) || occurs pat r

/-- `has_self`: codegen_decl.c:634 and 674. -/
def Sig.hasSelf (s : Sig) : Bool := occurs "self".toList s.args

/-- Pieces between commas, also empty ones. -/
def pieces : Text → List Text
  | [] => [[]]
  | ',' :: r => [] :: pieces r
  | c :: r =>
    match pieces r with
    | [] => [[c]]
    | p :: ps => (c :: p) :: ps

/-- `strtok` leaves out the empty pieces. -/
def tokens (a : Text) : List Text := (pieces a).filter (fun p => !p.isEmpty)

/-- What follows the last blank or star. codegen_utils.c:671-682 (the later of both). -/
def lastWord : Text → Text
  | [] => []
  | c :: r => if r.contains ' ' || r.contains '*' then lastWord r else if c = ' ' ∨ c = '*' then r else c :: r

/-- `extract_call_args` (codegen_utils.c:654-694). Leading blanks are skipped first, which makes
no difference to the last word unless there is nothing else. -/
def extractArgs (a : Text) : Text := joined ((tokens a).map fun p => lastWord (p.dropWhile (· = ' ')))

/-- The text after the first comma, if there is one. -/
def afterComma : Text → Option Text
  | [] => none
  | ',' :: r => some r
  | _ :: r => afterComma r

/-- The text of the call in the wrapper between `(` and `)`. codegen_decl.c:692-721. -/
def Sig.callText (s : Sig) : Text :=
  "self->self".toList ++
    (if s.hasSelf then
      match afterComma (extractArgs s.args) with
      | some r => ',' :: ' ' :: r
      | none => []
    else if (extractArgs s.args).isEmpty then [] else ',' :: ' ' :: extractArgs s.args)

/-! ## Reading the C code

The meaning of the text in C: arguments are separated by commas, with any number of blanks. -/

/-- Without the blanks at both ends. -/
def trim (a : Text) : Text := ((a.dropWhile (· = ' ')).reverse.dropWhile (· = ' ')).reverse

/-- The arguments of the call in the wrapper: an object and names of parameters. -/
def Sig.passed (s : Sig) : List Text := (pieces s.callText).map trim

/-- The values passed to the method: `none` if a name is unknown to the C compiler. -/
def readArgs (env : List (Text × Int)) : List Text → Option (List Int)
  | [] => some []
  | n :: ns =>
    match env.lookup n, readArgs env ns with
    | some v, some vs => some (v :: vs)
    | _, _ => none

/-- The parameters of the wrapper and their values; `self` is the trait object, which its own call names
`self->self`. -/
def Sig.env (s : Sig) (self : Int) (vs : List Int) : List (Text × Int) :=
  ("self->self".toList, self) :: (s.params.map (·.name)).zip vs

/-! ## Tables -/

/-- The C type of a member of the table: result and parameters after `self`. codegen_decl.c:628-655. -/
def slotType (s : Sig) : Text × List Text :=
  (s.ret.text "void*".toList, (if s.hasSelf && !s.self then s.params.drop 1 else s.params).map (·.ty.text "Self".toList))

/-- The C type of the function of a method of `impl … for S`: whether it takes `self`, result and other parameters.
codegen_decl.c:960-985. -/
def funcType (target : Text) (s : Sig) : Bool × Text × List Text :=
  (s.self, s.ret.text target, s.params.map (·.ty.text target))

/-- The first implementation of the trait for the struct in the list of the compiler, which
has the last one first; the others have no table, and `Copy` has none. codegen_decl.c:1061-1087. -/
def tableOf (P : Prog) (t s : Text) : Option Impl :=
  if t = "Copy".toList then none else P.impls.reverse.find? fun i => i.trait = t ∧ i.target = s

/-- The loop over the implementations, the last one first, with those it has seen: its own table has 1024 entries,
the prefix of methods 256 bytes. codegen_decl.c:995-1120. -/
def emitTables : List Impl → List (Text × Text) → Res (List (Text × Text))
  | [], seen => .ok seen
  | i :: r, seen =>
    if (i.trait, i.target) ∈ seen then emitTables r seen
    else if 1024 ≤ seen.length then .ub
    else if i.trait ≠ "Copy".toList ∧ i.methods ≠ [] ∧ 256 ≤ i.target.length + i.trait.length + 3 + 1 then .ub
    else emitTables r (seen ++ [(i.trait, i.target)])

/-- What a call does. -/
inductive Out where
  /-- the method `m` of `impl t for s` runs with these arguments -/
  | run (s t m : Text) (self : Int) (vs : List Int)
  | rejected
  | ub
  deriving DecidableEq

/-- The call of method `m` of a trait object of trait `t` made from a pointer to a struct `s`: the wrapper
reads the member of the table, which is NULL if the implementation lacks the method (the initialiser of the
table has only the methods of the implementation, codegen_decl.c:1089-1115), and calls it with a cast type.
`void* self` and `S* self` are taken as the same type. -/
def dispatch (P : Prog) (t s m : Text) (self : Int) (vs : List Int) : Out :=
  match P.traits.find? (fun x => x.name = t), tableOf P t s with
  | some tr, some im =>
    match tr.methods.find? (fun x => x.name = m) with
    | none => .rejected
    | some sg =>
      match readArgs (sg.env self vs) sg.passed with
      | none => .rejected
      | some as =>
        match im.methods.find? (fun x => x.name = m) with
        | none => .ub
        | some f =>
          if funcType s f = (true, slotType sg) then
            match as with
            | a :: as => .run s t m a as
            | [] => .ub
          else .ub
  | _, _ => .rejected

/-! ## What the C compiler checks -/

/-- Names in a type. -/
def Ty.names : Ty → List Text
  | .named n => [n]
  | .ptr t => t.names
  | .selfT => ["Self".toList]
  | _ => []

/-- A struct that is passed by value. -/
def Ty.value : Ty → Option Text
  | .named n => some n
  | _ => none

/-- The C compiler accepts the table type and the wrapper of a method: `before` are the traits written before.
The structs are known but have no members yet (codegen_main.c:488-560); the wrapper is a
definition, so its parameters and result must be complete. Without parameters and `self` there is a comma too many
(codegen_decl.c:635-651). -/
def sigOk (structs before : List Text) (s : Sig) : Prop :=
  s.args ≠ [] ∧
  (∀ p ∈ s.params, ∀ n ∈ p.ty.names, n ∈ structs ∨ n ∈ before) ∧
  (s.ret ≠ .selfT → ∀ n ∈ s.ret.names, n ∈ structs ∨ n ∈ before) ∧
  (∀ p ∈ s.params, ∀ n, p.ty.value = some n → n ∉ structs) ∧
  (∀ n, s.ret.value = some n → n ∉ structs)

/-- All traits, in order. -/
def traitsOk (structs : List Text) : List Text → List Trait → Prop
  | _, [] => True
  | before, t :: ts => (∀ m ∈ t.methods, sigOk structs before m) ∧ traitsOk structs (before ++ [t.name]) ts

/-- The C compiler accepts the traits and tables: no name is declared twice, tables have only
members of their type. -/
def Accepted (P : Prog) : Prop :=
  ((decls P).map cname).Nodup ∧ traitsOk P.structs [] P.traits ∧
  ∀ i ∈ P.impls, i.trait ≠ "Copy".toList → ∃ t ∈ P.traits, t.name = i.trait ∧
    ∀ m ∈ i.methods, m.name ∈ t.methods.map (·.name)

/-! ## Method calls -/

/-- The functions registered by the compiler (`find_func`). -/
def funcs (P : Prog) : List Text :=
  P.impls.flatMap (fun i => i.methods.map fun m => cname (.tmeth i.target i.trait m.name)) ++
  P.inherent.map (fun p => cname (.meth p.1 p.2)) ++ P.plain

/-- A method of the struct, or else of the last implementation of a trait for it.
parser_expr.c:5400-5432 and codegen.c:602-632. -/
def lookup (P : Prog) (s m : Text) : Option Text :=
  if cname (.meth s m) ∈ funcs P then some (cname (.meth s m))
  else
    (P.impls.reverse.find? fun i => i.target = s ∧ cname (.tmeth s i.trait m) ∈ funcs P).map
      fun i => cname (.tmeth s i.trait m)

/-- The function a call of method `m` of a struct `s` runs, and the struct its receiver is cast to.
`before` has the declarations before the call, `P` all; `temp` stands for a receiver that is not a variable or
member (codegen.c:557-596). `uses` are the mixins of each struct (codegen.c:655-675).
Simplified: the buffers of 128 to 512 bytes for names are taken as large enough. -/
def resolve (before P : Prog) (uses : Text → List Text) (temp : Bool) (s m : Text) : Text × Option Text :=
  match lookup before s m with
  | some n => (n, none)
  | none =>
    if temp then (cname (.meth s m), none)
    else
      match lookup P s m with
      | some n => (n, none)
      | none =>
        match (uses s).find? fun u => cname (.meth u m) ∈ funcs P with
        | some u => (cname (.meth u m), some u)
        | none => (cname (.meth s m), none)

/-! ## Mixins -/

/-- A member of a struct: a field, or `use S;`. -/
inductive Member where
  | field (n : Text)
  | use (s : Text)

/-- The fields of a struct, given those of the structs before. parser_struct.c:912-965: an
unknown struct adds nothing. -/
def flatten (known : List (Text × List Text)) (ms : List Member) : List Text :=
  ms.flatMap fun
    | .field n => [n]
    | .use s => (known.lookup s).getD []

/-- The mixins of a struct that were known: the table has 8 entries. parser_struct.c:928-935. -/
def usesOf (known : List (Text × List Text)) (ms : List Member) : Res (List Text) :=
  let us := ms.filterMap fun
    | .field _ => none
    | .use s => if (known.lookup s).isSome then some s else none
  if us.length ≤ 8 then .ok us else .ub

/-- The fields of all structs, in order, after those already known. -/
def layouts (known : List (Text × List Text)) : List (Text × List Member) → List (Text × List Text)
  | [] => known
  | d :: ds => layouts (known ++ [(d.1, flatten known d.2)]) ds

/-- A method of mixin `u` called on a value with fields `vs` of a struct reads its `i`-th field through the pointer
`(U*)&x`: the `i`-th word. codegen.c:679-682. -/
def readMixin (vs : List Int) (i : Nat) : Option Int := vs[i]?

/-! ## Specification -/

namespace Spec

/-- A name of a struct or trait without `_`. -/
def Clean (n : Text) : Prop := n ≠ [] ∧ '_' ∉ n

/-- An identifier, as far as the text of arguments is concerned. -/
def Ident (n : Text) : Prop := n ≠ [] ∧ ∀ c ∈ n, c ≠ ' ' ∧ c ≠ '*' ∧ c ≠ ',' ∧ c ≠ '-'

/-- A type that can stand in a trait: a primitive, or a pointer, without commas. -/
def Plain (structs : List Text) : Ty → Prop
  | .prim t => ',' ∉ t
  | .named _ => False
  | .ptr (.named n) => n ∈ structs ∧ ',' ∉ n
  | .ptr t => Plain structs t
  | .fnPtr _ _ => False
  | .selfT => False

/-- A method a trait can have. -/
structure GoodSig (structs : List Text) (s : Sig) : Prop where
  self : s.self = true
  idents : ∀ p ∈ s.params, Ident p.name
  distinct : (s.params.map (·.name)).Nodup
  types : ∀ p ∈ s.params, Plain structs p.ty
  ret : Plain structs s.ret

/-- Programs whose traits work. -/
structure Good (P : Prog) : Prop where
  clean : ∀ n, n ∈ P.structs ∨ n ∈ P.traits.map (·.name) → Clean n
  structs : P.structs.Nodup
  traits : (P.traits.map (·.name)).Nodup
  apart : ∀ n ∈ P.structs, n ∉ P.traits.map (·.name)
  methods : ∀ t ∈ P.traits, (t.methods.map (·.name)).Nodup ∧ ∀ m ∈ t.methods, GoodSig P.structs m
  target : ∀ i ∈ P.impls, i.target ∈ P.structs
  impls : (P.impls.map fun i => (i.target, i.trait)).Nodup
  complete : ∀ i ∈ P.impls, ∃ t ∈ P.traits, t.name = i.trait ∧
    (∀ m, m ∈ i.methods ↔ m ∈ t.methods) ∧ (i.methods.map (·.name)).Nodup
  inherent : P.inherent.Nodup ∧ ∀ p ∈ P.inherent, p.1 ∈ P.structs ∧
    ∀ t ∈ P.traits, ∀ m ∈ t.methods, p.2 ≠ t.name ++ '_' :: m.name
  plain : P.plain.Nodup ∧ ∀ f ∈ P.plain, f ∉ P.structs ∧ f ∉ P.traits.map (·.name) ∧
    (∀ a b, f ≠ a ++ '_' :: '_' :: b) ∧ ∀ a, f ≠ a ++ "_VTable".toList
  few : P.impls.length ≤ 1024
  short : ∀ i ∈ P.impls, i.target.length + i.trait.length < 252

/-- The declaration that `x.m(…)` means for `x : S`. -/
inductive Calls (P : Prog) (uses : Text → List Text) (s m : Text) : Decl → Prop where
  | own : (s, m) ∈ P.inherent → Calls P uses s m (.meth s m)
  | trait (i : Impl) : (s, m) ∉ P.inherent → i ∈ P.impls → i.target = s → m ∈ i.methods.map (·.name) →
      Calls P uses s m (.tmeth s i.trait m)
  | mixin (u : Text) : (s, m) ∉ P.inherent → (∀ i ∈ P.impls, i.target = s → m ∉ i.methods.map (·.name)) →
      u ∈ uses s → (u, m) ∈ P.inherent → Calls P uses s m (.meth u m)

/-- `m` is not taken for the method of a trait by its name with the trait's name, or the other way around. -/
def Unqualified (P : Prog) (m : Text) : Prop :=
  (∀ t ∈ P.traits, ∀ x ∈ t.methods, m ≠ t.name ++ '_' :: x.name) ∧
  ∀ p ∈ P.inherent, ∀ t ∈ P.traits, p.2 ≠ t.name ++ '_' :: m

/-- A part of a program: what stands before some place in it. -/
structure Part (Q P : Prog) : Prop where
  impls : ∀ i ∈ Q.impls, i ∈ P.impls
  inherent : ∀ p ∈ Q.inherent, p ∈ P.inherent
  plain : ∀ f ∈ Q.plain, f ∈ P.plain

/-- The fields of a struct with those of its mixins in their places. -/
inductive Expands (defs : List (Text × List Member)) : List Member → List Text → Prop where
  | nil : Expands defs [] []
  | field {n ms fs} : Expands defs ms fs → Expands defs (.field n :: ms) (n :: fs)
  | use {u us ms fs gs} : (u, us) ∈ defs → Expands defs us fs → Expands defs ms gs →
      Expands defs (.use u :: ms) (fs ++ gs)

/-- Mixins are declared before the structs that use them. -/
def UseBefore : List Text → List (Text × List Member) → Prop
  | _, [] => True
  | before, d :: ds => (∀ u, .use u ∈ d.2 → u ∈ before) ∧ UseBefore (before ++ [d.1]) ds

/-- The value of the field with a name. -/
def valueOf (names : List Text) (vs : List Int) (f : Text) : Option Int := (names.zip vs).lookup f

end Spec

end Verif.Traits
