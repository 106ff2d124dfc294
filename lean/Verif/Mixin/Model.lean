import Verif.Basic

/-!
# Struct embedding (`use S;`) and the methods of embedded structs

Model of

* the struct parser, /repo/src/parser/parser_struct.c:795-1070 (`use name: T;` adds a field of that
  name, `use S;` copies the fields of `S`), with the lookup of `S`,
  /repo/src/parser/parser_utils.c:722-728 and 1062-1111;
* the search for the method of a call `x.m(...)`, /repo/src/codegen/codegen.c:597-705 ("Mixin
  Lookup Logic"; the same search is in /repo/src/parser/parser_utils.c:3574-3617);
* the struct that is emitted, /repo/src/codegen/codegen_decl.c:429-485 and
  /repo/src/codegen/codegen_stmt.c:1155-1167, laid out by the C compiler as the System V ABI says.

Memory is modelled to the bit, because fields may have a width in bits.  An object begins at bit 0.

Simplifications: a field carries the size and the alignment of its C type, so a field that is
itself a struct (`use name: T;`) is a block of bits; generic structs, forward declarations, module
prefixes, `@align` and custom attributes are not modelled; methods that come from a trait are
those of the unit `Traits` and are not searched here; arguments of calls are part of the body.
-/

namespace Verif.Mixin
open Verif

/-- A field: its name, the size and alignment of its C type in bytes, and its width in bits, 0 for
a field that is not a bit field (/repo/src/ast/ast.h:470-476). -/
structure Fld where
  name : String
  size : Nat
  align : Nat
  width : Nat
  deriving DecidableEq, Repr

/-- What may stand between the braces of a struct (parser_struct.c:860-1020). -/
inductive Item where
  | field (f : Fld)
  | named (f : Fld)
  | use (s : String)
  deriving DecidableEq, Repr

/-- The declaration of a struct or union, with `@packed`. -/
structure Decl where
  name : String
  items : List Item
  union : Bool
  packed : Bool
  deriving DecidableEq, Repr

/-- What the parser keeps of it (`node->strct`, parser_struct.c:1020-1060). -/
structure SDef where
  name : String
  fields : List Fld
  union : Bool
  packed : Bool
  used : List String
  deriving DecidableEq, Repr

/-- `find_struct_def` (parser_utils.c:1071-1111): the list is searched from its head, where
`add_to_struct_list` (parser_utils.c:722-728) puts the newest. -/
def find (env : List SDef) (n : String) : Option SDef :=
  env.find? (fun d => d.name == n)

/-- The loop over the items (parser_struct.c:860-1018).  `use name: T;` makes a fresh field node
(parser_struct.c:883-907), `use S;` copies name and type of each field of `S` if `S` is known
(parser_struct.c:911-957) and records it in `used`; if `S` is not known nothing happens
(parser_struct.c:958-965).  A fresh field node has width 0. -/
def parseItems (env : List SDef) : List Item → List Fld × List String
  | [] => ([], [])
  | .field f :: r => (f :: (parseItems env r).1, (parseItems env r).2)
  | .named f :: r => ({ f with width := 0 } :: (parseItems env r).1, (parseItems env r).2)
  | .use s :: r =>
    match find env s with
    | some d => (d.fields.map (fun f => { f with width := 0 }) ++ (parseItems env r).1,
        s :: (parseItems env r).2)
    | none => parseItems env r

/-- `parse_struct` (parser_struct.c:795-1070).  The list of the used structs is a block of eight
pointers that is never enlarged (parser_struct.c:932-936). -/
def declare (env : List SDef) (d : Decl) : Res (List SDef) :=
  if (parseItems env d.items).2.length ≤ 8 then
    .ok (⟨d.name, (parseItems env d.items).1, d.union, d.packed, (parseItems env d.items).2⟩ :: env)
  else .ub

/-- The declarations of a program, in order. -/
def parse (env : List SDef) : List Decl → Res (List SDef)
  | [] => .ok env
  | d :: r =>
    match declare env d with
    | .ok env' => parse env' r
    | .panic => .panic
    | .ub => .ub

/-! ## The layout of the emitted struct (System V ABI, in bits) -/

/-- Rounding up to a multiple. -/
def up (n a : Nat) : Nat := (n + (a - 1)) / a * a

/-- Where a field goes when `off` bits are taken: an ordinary field at the next multiple of its
alignment, a bit field at the next bit unless it would cross a boundary of its type.
`__attribute__((packed))` (codegen_decl.c:481-484) removes alignment. -/
def place (packed : Bool) (off : Nat) (f : Fld) : Nat :=
  if f.width = 0 then up off (8 * (if packed then 1 else f.align))
  else if packed then off
  else if off / (8 * f.size) = (off + f.width - 1) / (8 * f.size) then off
  else up off (8 * f.size)

/-- The number of bits of a field (codegen_stmt.c:1155-1167). -/
def len (f : Fld) : Nat := if f.width = 0 then 8 * f.size else f.width

/-- The fields of a struct, one after the other. -/
def layout (packed : Bool) : Nat → List Fld → List (Fld × Nat)
  | _, [] => []
  | off, f :: r => (f, place packed off f) :: layout packed (place packed off f + len f) r

/-- The fields with their places; those of a union are all at the beginning
(codegen_decl.c:457-464). -/
def places (d : SDef) : List (Fld × Nat) :=
  if d.union then d.fields.map (fun f => (f, 0)) else layout d.packed 0 d.fields

/-- The place and the length of the field of a name. -/
def slot (d : SDef) (n : String) : Option (Nat × Nat) :=
  ((places d).find? (fun p => p.1.name == n)).map (fun p => (p.2, len p.1))

/-- The alignment of the struct in bytes. -/
def alignOf (d : SDef) : Nat :=
  if d.packed then 1 else d.fields.foldl (fun a f => max a f.align) 1

/-- The end of the last field. -/
def extent (ps : List (Fld × Nat)) : Nat := ps.foldl (fun a p => max a (p.2 + len p.1)) 0

/-- `sizeof`, in bits. -/
def sizeOf (d : SDef) : Nat := up (extent (places d)) (8 * alignOf d)

/-! ## Methods -/

/-- Memory, or a value: the bits from 0 on. -/
abbrev Bits := Nat → Bool

/-- Reading `l` bits at `s`. -/
def get (m : Bits) (s l : Nat) : Bits := fun i => if i < l then m (s + i) else false

/-- Writing `l` bits at `s`. -/
def put (m : Bits) (s l : Nat) (v : Bits) : Bits :=
  fun i => if s ≤ i ∧ i < s + l then v (i - s) else m i

/-- The body of a method, as what it does with `self`: reading and writing `self.f`, and
`*self = src`. -/
inductive Code where
  | ret (v : Bits)
  | read (f : String) (k : Bits → Code)
  | write (f : String) (v : Bits) (k : Code)
  | assign (src : Bits) (k : Code)

/-- Running a method of the struct `d` on the object at bit 0; `none` if the C compiler refuses it.
`self` is a pointer to `d`, so fields are looked for where `d` has them. -/
def run (d : SDef) : Code → Bits → Option (Bits × Bits)
  | .ret v, m => some (v, m)
  | .read f k, m =>
    match slot d f with
    | some p => run d (k (get m p.1 p.2)) m
    | none => none
  | .write f v k, m =>
    match slot d f with
    | some p => run d k (put m p.1 p.2 v)
    | none => none
  | .assign src k, m => run d k (put m 0 (sizeOf d) src)

/-- The functions of a program under their emitted names (`find_func`). -/
abbrev Funs := List (String × Code)

/-- The emitted name of a method. -/
def mangle (s m : String) : String := s ++ "__" ++ m

/-- `find_func` finds it. -/
def known (fs : Funs) (n : String) : Bool := fs.any (fun f => f.1 == n)

/-- `char mixin_check[128]` (codegen.c:670-672). -/
def cut (s : String) : String := String.ofList (s.toList.take 127)

/-- The struct whose method a call `x.m(...)` goes to, for an `x` of type `s` or `s*`
(codegen.c:597-688).  `rvalue` says that `x` is not a pointer and is a call, a literal, an operator
or a cast, for which the search is not made (codegen.c:555-592). -/
def base (env : List SDef) (fs : Funs) (rvalue : Bool) (s m : String) : String :=
  if rvalue then s
  else if known fs (mangle s m) then s
  else
    match find env s with
    | some d =>
      match d.used.find? (fun k => known fs (cut (mangle k m))) with
      | some k => k
      | none => s
    | none => s

/-- The emitted call `base__m((base*)&x)` (codegen.c:690-705): the function runs on the object as
if it were one of its own struct. -/
def call (env : List SDef) (fs : Funs) (rvalue : Bool) (s m : String) (mem : Bits) :
    Option (Bits × Bits) :=
  match fs.find? (fun f => f.1 == mangle (base env fs rvalue s m) m), find env (base env fs rvalue s m) with
  | some f, some d => run d f.2 mem
  | _, _ => none

/-! ## What is expected -/

namespace Spec

/-- An object as a user sees it: a value for each field. -/
abbrev Rec := String → Bits

/-- The fields of the object of struct `d` in memory. -/
def val (d : SDef) (m : Bits) : Rec := fun n =>
  match slot d n with
  | some p => get m p.1 p.2
  | none => fun _ => false

/-- A value cut to the bits of a field. -/
def trim (l : Nat) (v : Bits) : Bits := fun i => if i < l then v i else false

/-- What a method written for the struct `k` does to a record that has at least the fields of `k`:
`self.f` is the field `f` of the record, and `*self = src` gives each field of `k` the value it has
in `src`. -/
def exec (k : SDef) : Code → Rec → Option (Bits × Rec)
  | .ret v, r => some (v, r)
  | .read f c, r => if (k.fields.any (fun g => g.name == f)) = true then exec k (c (r f)) r else none
  | .write f v c, r =>
    match k.fields.find? (fun g => g.name == f) with
    | some g => exec k c (fun n => if n = f then trim (len g) v else r n)
    | none => none
  | .assign src c, r =>
    exec k c (fun n => if (k.fields.any (fun g => g.name == n)) = true then val k src n else r n)

/-- The method `c` of the struct `k`, called on an object of the struct `d`, does with the fields of
that object what it says, and leaves the other fields alone. -/
def Works (d k : SDef) (c : Code) : Prop :=
  ∀ m, (run k c m).map (fun p => (p.1, val d p.2)) = exec k c (val d m)

/-- No `*self = src` in the body. -/
inductive NoAssign : Code → Prop where
  | ret (v : Bits) : NoAssign (.ret v)
  | read (f : String) (k : Bits → Code) (h : ∀ v, NoAssign (k v)) : NoAssign (.read f k)
  | write (f : String) (v : Bits) (k : Code) (h : NoAssign k) : NoAssign (.write f v k)

/-- The fields an item list stands for: those of embedded structs in place of the `use`. -/
inductive Expands (ds : List Decl) : List Item → List Fld → Prop where
  | nil : Expands ds [] []
  | field (f : Fld) (r : List Item) (fs : List Fld) : Expands ds r fs →
      Expands ds (.field f :: r) (f :: fs)
  | named (f : Fld) (r : List Item) (fs : List Fld) : Expands ds r fs →
      Expands ds (.named f :: r) (f :: fs)
  | use (d : Decl) (r : List Item) (gs fs : List Fld) : d ∈ ds → Expands ds d.items gs →
      Expands ds r fs → Expands ds (.use d.name :: r) (gs ++ fs)

/-- `s` embeds `k`, directly or through others. -/
inductive Embeds (ds : List Decl) : String → String → Prop where
  | direct (d : Decl) (k : String) : d ∈ ds → .use k ∈ d.items → Embeds ds d.name k
  | deep (d : Decl) (j k : String) : d ∈ ds → .use j ∈ d.items → Embeds ds j k → Embeds ds d.name k

/-- Structs have different names, and every embedded struct is declared above. -/
def Ordered (ds : List Decl) : Prop := go [] ds
where
  go : List String → List Decl → Prop
    | _, [] => True
    | seen, d :: r => d.name ∉ seen ∧ (∀ k, Item.use k ∈ d.items → k ∈ seen) ∧ go (d.name :: seen) r

/-- Structs that are embedded have no bit fields; `use name: T` has no width. -/
def NoBits (ds : List Decl) : Prop :=
  ∀ d ∈ ds, (∀ f : Fld, Item.named f ∈ d.items → f.width = 0) ∧
    ∀ d' ∈ ds, Item.use d.name ∈ d'.items → ∀ f : Fld, Item.field f ∈ d.items → f.width = 0

/-- The types of fields have an alignment and a size. -/
def Sized (fs : List Fld) : Prop := ∀ f ∈ fs, 0 < f.size ∧ 0 < f.align

/-- The types of all fields of a program have an alignment and a size. -/
def AllSized (ds : List Decl) : Prop :=
  ∀ d ∈ ds, ∀ f : Fld, (Item.field f ∈ d.items ∨ Item.named f ∈ d.items) → 0 < f.size ∧ 0 < f.align

/-- The structs that are embedded directly, in order. -/
def uses (is : List Item) : List String :=
  is.filterMap fun i => match i with
    | .use s => some s
    | _ => none

end Spec

end Verif.Mixin
