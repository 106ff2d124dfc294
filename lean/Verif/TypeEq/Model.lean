/-!
# Type equality: model

`type_eq` and its helpers (src/ast/ast.c:95-220).

A type is a tree of heap objects, so every node carries its address; `a == b` compares addresses.
Simplified: `name` is not NULL where it is compared and `inner` is not NULL for pointers, arrays, vectors
and aliases (the parser sets them); fields that `type_eq` never reads (`is_const`, `args`, ...) are
left out, except the parts by which enums, functions and `_BitInt`s differ, to say what is ignored.
-/

namespace Verif.TypeEq

/-- integer kinds without a payload, apart from `char` (src/ast/ast.h:31-77) -/
inductive IntK where
  | int | bool | i8 | u8 | i16 | u16 | i32 | u32 | i64 | u64 | usize | isize | byte | rune | uint | i128 | u128
  | cint | cuint | clong | culong | cllong | cullong | cshort | cushort | cchar | cuchar
  deriving DecidableEq

/-- floating kinds -/
inductive FloatK where
  | float | f32 | f64
  deriving DecidableEq

/-- `Type` (src/ast/ast.h:82-130); the first field is the address of the object -/
inductive Ty where
  | unknown (a : Nat)
  | void (a : Nat)
  | u0 (a : Nat)
  | string (a : Nat)
  | char (a : Nat)
  | int (a : Nat) (k : IntK)
  | bitint (a : Nat) (signed : Bool) (width : Nat)
  | float (a : Nat) (k : FloatK)
  | struct (a : Nat) (name : String)
  | generic (a : Nat) (name : String)
  | enum (a : Nat) (name : String)
  | func (a : Nat) (args : List String) (ret : String)
  | alias (a : Nat) (opq : Bool) (name : String) (inner : Ty)
  | ptr (a : Nat) (inner : Ty)
  | array (a : Nat) (size : Nat) (inner : Ty)
  | vector (a : Nat) (size : Nat) (inner : Ty)

/-- address of the object -/
def Ty.addr : Ty → Nat
  | unknown a | void a | u0 a | string a | char a | int a _ | bitint a _ _ | float a _ | struct a _
  | generic a _ | enum a _ | func a _ _ | alias a _ _ _ | ptr a _ | array a _ _ | vector a _ _ => a

/-- the names that count as integers (src/ast/ast.c:131-136) -/
def intNames : List String :=
  ["int8_t", "uint8_t", "int16_t", "uint16_t", "int32_t", "uint32_t", "int64_t", "uint64_t", "size_t",
    "ssize_t", "ptrdiff_t"]

/-- `is_integer_type` (src/ast/ast.c:111-137) -/
def isInteger : Ty → Bool
  | .int .. | .char .. | .bitint .. => true
  | .struct _ n => intNames.contains n
  | _ => false

/-- `is_float_type` (src/ast/ast.c:139-147) -/
def isFloat : Ty → Bool
  | .float .. => true
  | _ => false

/-- `TYPE_UNKNOWN == t->kind` -/
def isUnknown : Ty → Bool
  | .unknown _ => true
  | _ => false

/-- `TYPE_STRING == t->kind` -/
def isString : Ty → Bool
  | .string _ => true
  | _ => false

/-- `is_char_ptr` (src/ast/ast.c:97-110) -/
def isCharPtr : Ty → Bool
  | .ptr _ (.char _) => true
  | .ptr _ (.struct _ n) => n == "char"
  | _ => false

/-- `type_eq` (src/ast/ast.c:149-220), both arguments given -/
def typeEq (a b : Ty) : Bool :=
  if a.addr = b.addr then true
  else if isUnknown a || isUnknown b then true
  else if isInteger a && isInteger b then true
  else if isFloat a && isFloat b then true
  else if isString a && isCharPtr b then true
  else if isString b && isCharPtr a then true
  else
    match a, b with
    | .struct _ n, .struct _ m => n == m
    | .generic _ n, .generic _ m => n == m
    | .alias _ o n i, .alias c p m j =>
        if o then p && n == m else typeEq i (.alias c p m j)
    | .ptr _ i, .ptr _ j => typeEq i j
    | .array _ s i, .array _ t j => s == t && typeEq i j
    | .vector _ s i, .vector _ t j => s == t && typeEq i j
    -- same kind, nothing more compared (line 219)
    | .void _, .void _ | .u0 _, .u0 _ | .string _, .string _ | .enum _ _, .enum _ _
    | .func _ _ _, .func _ _ _ => true
    | .int _ _, .int _ _ | .char _, .char _ | .bitint _ _ _, .bitint _ _ _ | .float _ _, .float _ _
    | .unknown _, .unknown _ => true
    | _, _ => false
termination_by sizeOf a

/-! ## What is meant -/

namespace Spec

/-- types up to what `type_eq` deliberately ignores ("lax integer matching", "lax float matching") -/
inductive Shape where
  | void | u0 | string | int | float | enum | func
  | struct (name : String)
  | generic (name : String)
  | ptr (i : Shape)
  | array (n : Nat) (i : Shape)
  | vector (n : Nat) (i : Shape)
  | other
  deriving DecidableEq

/-- the shape of a type -/
def shape : Ty → Shape
  | .unknown _ | .alias .. => .other
  | .void _ => .void
  | .u0 _ => .u0
  | .string _ => .string
  | .char _ | .int .. | .bitint .. => .int
  | .float .. => .float
  | .struct _ n =>
      if n ∈ ["int8_t", "uint8_t", "int16_t", "uint16_t", "int32_t", "uint32_t", "int64_t", "uint64_t",
        "size_t", "ssize_t", "ptrdiff_t"] then .int else .struct n
  | .generic _ n => .generic n
  | .enum _ _ => .enum
  | .func .. => .func
  | .ptr _ i => .ptr (shape i)
  | .array _ n i => .array n (shape i)
  | .vector _ n i => .vector n (shape i)

/-- no unknown type and no alias anywhere -/
def Plain : Ty → Prop
  | .unknown _ | .alias .. => False
  | .ptr _ i | .array _ _ i | .vector _ _ i => Plain i
  | _ => True

/-- no alias anywhere -/
def NoAlias : Ty → Prop
  | .alias .. => False
  | .ptr _ i | .array _ _ i | .vector _ _ i => NoAlias i
  | _ => True

/-- moreover no string -/
def NoString : Ty → Prop
  | .string _ => False
  | .ptr _ i | .array _ _ i | .vector _ _ i => NoString i
  | _ => True

/-- one object per address: what is at the same address is the same, in both trees -/
def Heap (a b : Ty) : Prop := ∃ mem : Nat → Ty, At mem a ∧ At mem b
where
  /-- the nodes of `t` are those of the memory -/
  At (mem : Nat → Ty) : Ty → Prop
    | .ptr x i => mem x = .ptr x i ∧ At mem i
    | .array x n i => mem x = .array x n i ∧ At mem i
    | .vector x n i => mem x = .vector x n i ∧ At mem i
    | .alias x o n i => mem x = .alias x o n i ∧ At mem i
    | t => mem t.addr = t

/-- the same type, objects copied -/
inductive Copy : Ty → Ty → Prop
  | unknown a b : Copy (.unknown a) (.unknown b)
  | void a b : Copy (.void a) (.void b)
  | u0 a b : Copy (.u0 a) (.u0 b)
  | string a b : Copy (.string a) (.string b)
  | char a b : Copy (.char a) (.char b)
  | int a b k : Copy (.int a k) (.int b k)
  | bitint a b s w : Copy (.bitint a s w) (.bitint b s w)
  | float a b k : Copy (.float a k) (.float b k)
  | struct a b n : Copy (.struct a n) (.struct b n)
  | generic a b n : Copy (.generic a n) (.generic b n)
  | enum a b n : Copy (.enum a n) (.enum b n)
  | func a b p r : Copy (.func a p r) (.func b p r)
  | alias a b o n {i j} : Copy i j → Copy (.alias a o n i) (.alias b o n j)
  | ptr a b {i j} : Copy i j → Copy (.ptr a i) (.ptr b j)
  | array a b n {i j} : Copy i j → Copy (.array a n i) (.array b n j)
  | vector a b n {i j} : Copy i j → Copy (.vector a n i) (.vector b n j)

end Spec

end Verif.TypeEq
