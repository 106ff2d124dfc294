import Verif.Basic

/-!
# Model of the destruction of structs

Which types have a destructor: `impl Drop for T` (src/parser/parser_struct.c:347-365), instances of generic structs
(src/parser/parser_utils.c:3146-3162, 3330-3345) and `propagate_drop_traits` (src/parser/parser_utils.c:4387-4420); what is run when a variable goes
away: `emit_auto_drop_glues` (src/codegen/codegen_main.c:298-336), `check_impl` (src/parser/parser_utils.c:2813-2853) and the test for a destructor
at the declaration of a variable (src/codegen/codegen_stmt.c:993-1011).

When a variable goes away (end of scope, return, moves) is the subject of the unit `Defer`; here it goes away once.

Simplified: names of types are distinct, so that the order of the lists in `find_struct_def` (src/parser/parser_utils.c:1071-1126) and
`find_struct_def_codegen` (src/codegen/codegen_utils.c:119-156) does not matter; the members of an instance are given with the parameter replaced
(see the unit `Generics`); there is no variable with the name of the type (src/parser/parser_struct.c:350).
-/

namespace Verif.DropGlue

/-- The characters of a C string, without the final 0. -/
abbrev Name := List Char

/-- Types of members and variables, as far as destruction is concerned (`TypeKind`, src/ast/ast.h). -/
inductive Ty where
  | scalar
  | ptr
  | named (n : Name)
  | array (t : Ty) (k : Nat)
  deriving DecidableEq, Repr

/-- What a definition defines. -/
inductive Kind where
  | struct
  | union
  | enum
  deriving DecidableEq, Repr

/-- A definition: members, or for an enum its variants with their payloads. -/
structure Def where
  name : Name
  kind : Kind
  members : List (Name × Ty)
  deriving DecidableEq, Repr

/-- What the parser meets, in this order: definitions (also generic ones), `impl Drop for n`, and the instance `d` of the
generic struct `t`, made where it is first used. -/
inductive Item where
  | decl (d : Def)
  | impl (n : Name)
  | inst (d : Def) (t : Name)
  deriving DecidableEq, Repr

/-- The tables of the parser (`ParserContext`, src/parser/parser.h); `flags` are the types whose `traits.has_drop` is set. -/
structure St where
  parsed : List Def
  insts : List Def
  impls : List Name
  flags : List Name
  deriving DecidableEq, Repr

/-- `find_struct_def` (src/parser/parser_utils.c:1071-1126). -/
def St.lookup (st : St) (n : Name) : Option Def := (st.insts ++ st.parsed).find? (·.name = n)

/-- Parsing one item.  Definitions of enums have no `type_info` (src/parser/parser_struct.c:1088-1240), so that there is no flag to set; the
flag of an instance is the one its template has at that moment. -/
def step (st : St) : Item → St
  | .decl d => { st with parsed := d :: st.parsed }
  | .impl n => { st with
      impls := n :: st.impls
      flags := match st.lookup n with
        | some d => if d.kind = .enum then st.flags else n :: st.flags
        | none => st.flags }
  | .inst d t => { st with insts := d :: st.insts, flags := if t ∈ st.flags then d.name :: st.flags else st.flags }

/-- The tables after parsing. -/
def parse (P : List Item) : St := P.foldl step ⟨[], [], [], []⟩

/-- A member whose type is a struct with the flag (src/parser/parser_utils.c:4402-4408). -/
def owned (fl : List Name) : Ty → Bool
  | .named k => fl.contains k
  | _ => false

/-- One round of `propagate_drop_traits` (src/parser/parser_utils.c:4392-4418): the new flags, and whether there are any. -/
def pass : List Def → List Name → Bool × List Name
  | [], fl => (false, fl)
  | d :: ds, fl =>
    if !fl.contains d.name && (d.kind != .enum && d.members.any fun m => owned fl m.2) then (true, (pass ds (d.name :: fl)).2)
    else pass ds fl

/-- `propagate_drop_traits` (src/parser/parser_utils.c:4387-4420); the first argument bounds the number of rounds, see `rounds_closed`. -/
def rounds (ds : List Def) : Nat → List Name → List Name
  | 0, fl => fl
  | k + 1, fl => if (pass ds fl).1 then rounds ds k (pass ds fl).2 else (pass ds fl).2

/-- The tables when code is generated (src/main.c:544): only structs that were parsed are looked at, not instances. -/
def final (P : List Item) : St :=
  { parse P with flags := rounds (parse P).parsed ((parse P).parsed.length + 1) (parse P).flags }

/-- `check_impl(ctx, "Drop", n)` (src/parser/parser_utils.c:2813-2853): for `n` itself, or for what stands before its first `_`. -/
def checkImpl (st : St) (n : Name) : Bool :=
  st.impls.contains n || (st.impls.map (·.takeWhile (· ≠ '<'))).contains (n.takeWhile (· ≠ '_'))

/-- A step from a value to a part of it. -/
inductive Step where
  | member (x : Name)
  | elem (i : Nat)
  deriving DecidableEq, Repr

/-- What `n__Drop_glue` does (src/codegen/codegen_main.c:298-336): the parts, given by their paths, whose `__Drop_drop` is called, in this order.  The first
argument bounds the depth, see `calls_spec_partial`. -/
def calls (st : St) : Nat → Name → List (List Step)
  | 0, _ => []
  | f + 1, n =>
    match st.lookup n with
    | none => []
    | some d =>
      (if checkImpl st n then [[]] else []) ++
        d.members.flatMap fun m => match m.2 with
          | .named k => if st.flags.contains k then (calls st f k).map (Step.member m.1 :: ·) else []
          | _ => []

/-- What is called when a variable goes away (src/codegen/codegen_stmt.c:993-1011): the glue, if its type is a struct with the flag. -/
def destroy (st : St) (f : Nat) : Ty → List (List Step)
  | .named n => if st.flags.contains n then calls st f n else []
  | _ => []

/-! ## specification -/

namespace Spec

/-- The definition of an item. -/
def defOf : Item → Option Def
  | .decl d => some d
  | .impl _ => none
  | .inst d _ => some d

/-- The definitions of a program. -/
def defs (P : List Item) : List Def := P.filterMap defOf

/-- The user has written a destructor for the type: for itself, or for the generic type of which it is an instance. -/
def Manual (P : List Item) (n : Name) : Prop := .impl n ∈ P ∨ ∃ d t, .inst d t ∈ P ∧ d.name = n ∧ .impl t ∈ P

/-- The part at the end of a path, in a value of a type, has the type `n`. -/
inductive Part (P : List Item) : Ty → List Step → Name → Prop
  | here (n) : Part P (.named n) [] n
  | member {d n x t p m} : d ∈ defs P → d.name = n → (x, t) ∈ d.members → Part P t p m → Part P (.named n) (.member x :: p) m
  | elem {t k i p m} : i < k → Part P t p m → Part P (.array t k) (.elem i :: p) m

/-- A value of the type has a part with a destructor. -/
def Owner (P : List Item) (t : Ty) : Prop := ∃ p m, Part P t p m ∧ Manual P m

/-- Programs for which the destructors are right. -/
structure Fine (P : List Item) : Prop where
  /-- types have different names -/
  names : ((defs P).map (·.name)).Nodup
  /-- `impl Drop for n` stands behind the definition of the struct (or union) `n` -/
  impl : ∀ A B n, P = A ++ .impl n :: B → ∃ d, .decl d ∈ A ∧ d.name = n ∧ d.kind ≠ .enum
  /-- generic types are defined, not themselves instances, and used behind their `impl Drop`; the names of their instances begin with theirs -/
  inst : ∀ A B d t, P = A ++ .inst d t :: B → .impl t ∉ B ∧ (∃ g, .decl g ∈ P ∧ g.name = t) ∧ ∃ a, d.name = t ++ '_' :: a
  generic : ∀ d t e u, .inst d t ∈ P → .inst e u ∈ P → e.name ≠ t
  /-- instances whose parts have destructors have one themselves -/
  whole : ∀ d t, .inst d t ∈ P → .impl t ∈ P ∨ ∀ m ∈ d.members, ¬ Owner P m.2
  /-- no parts of arrays, unions and enums have destructors -/
  array : ∀ d ∈ defs P, ∀ x t k, (x, .array t k) ∈ d.members → ¬ Owner P t
  choice : ∀ d ∈ defs P, d.kind ≠ .struct → ∀ m ∈ d.members, ¬ Owner P m.2
  /-- names of types with destructors are without `_`, and no other name begins with such a name and `_` -/
  plain : ∀ n, .impl n ∈ P → '_' ∉ n ∧ '<' ∉ n
  prefixes : ∀ d n, .decl d ∈ P → .impl n ∈ P → d.name.takeWhile (· ≠ '_') = n → d.name = n

/-- No struct contains itself. -/
def Ranked (P : List Item) (rank : Name → Nat) : Prop :=
  ∀ d ∈ defs P, ∀ x k, (x, .named k) ∈ d.members → rank k < rank d.name

end Spec
end Verif.DropGlue
