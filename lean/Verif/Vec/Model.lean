import Verif.Basic

/-!
# `std/vec.zc` — growable vector

Model of `Vec<T>` (std/vec.zc:5-309).  A vector object is its C fields plus the memory
block `data` points to.  `usize` is a natural number except in `reverse`, where the
wrap-around of `len - 1` is modelled.  `memcmp` of two elements is equality of their
representations (element types with padding bytes are outside the model).
-/

namespace Verif.Vec

open Verif

/-- `struct Vec<T>` (std/vec.zc:5-9); `buf` is the block `data` points to (NULL = empty). -/
structure Vec (α : Type) where
  buf : Mem α
  len : Nat
  cap : Nat
  deriving DecidableEq, Repr

variable {α : Type}

/-- `Vec::new` (std/vec.zc:72-74). -/
def new : Vec α := ⟨[], 0, 0⟩

/-- `Vec::with_capacity` (std/vec.zc:76-85). -/
def withCapacity (cap : Nat) : Vec α :=
  if cap = 0 then ⟨[], 0, 0⟩ else ⟨Mem.malloc cap, 0, cap⟩

/-- `Vec::grow` (std/vec.zc:87-91). -/
def grow (v : Vec α) : Vec α :=
  let cap := if v.cap = 0 then 8 else v.cap * 2
  ⟨Mem.realloc v.buf cap, v.len, cap⟩

/-- The doubling loop of `grow_to_fit` (std/vec.zc:99-101).  The test `0 < cap` is always
true in the code (line 98) and only serves termination. -/
def doubleUntil (cap newLen : Nat) : Nat :=
  if _h : 0 < cap ∧ cap < newLen then doubleUntil (cap * 2) newLen else cap
termination_by newLen - cap
decreasing_by omega

/-- `Vec::grow_to_fit` (std/vec.zc:93-104). -/
def growToFit (v : Vec α) (newLen : Nat) : Vec α :=
  if v.cap ≥ newLen then v
  else
    let cap0 := if v.cap = 0 then 8 else v.cap
    let cap := doubleUntil cap0 newLen
    ⟨Mem.realloc v.buf cap, v.len, cap⟩

/-- `Vec::push` (std/vec.zc:122-128). -/
def push (v : Vec α) (item : α) : Res (Vec α) := do
  let v := if v.len ≥ v.cap then grow v else v
  let buf ← Mem.store v.buf v.len item
  pure ⟨buf, v.len + 1, v.cap⟩

/-- `Vec::insert` (std/vec.zc:130-144). -/
def insert (v : Vec α) (idx : Nat) (item : α) : Res (Vec α) :=
  if idx > v.len then .panic
  else do
    let v := if v.len ≥ v.cap then grow v else v
    let buf ← if idx < v.len then Mem.memmove v.buf (idx + 1) idx (v.len - idx) else pure v.buf
    let buf ← Mem.store buf idx item
    pure ⟨buf, v.len + 1, v.cap⟩

/-- `Vec::pop` (std/vec.zc:146-153). -/
def pop (v : Vec α) : Res (Vec α × α) :=
  if v.len = 0 then .panic
  else do
    let a ← Mem.load v.buf (v.len - 1)
    pure (⟨v.buf, v.len - 1, v.cap⟩, a)

/-- `Vec::pop_opt` (std/vec.zc:155-161). -/
def popOpt (v : Vec α) : Res (Vec α × Option α) :=
  if v.len = 0 then pure (v, none)
  else do
    let a ← Mem.load v.buf (v.len - 1)
    pure (⟨v.buf, v.len - 1, v.cap⟩, some a)

/-- `Vec::remove` (std/vec.zc:163-175). -/
def remove (v : Vec α) (idx : Nat) : Res (Vec α × α) :=
  if idx ≥ v.len then .panic
  else do
    let item ← Mem.load v.buf idx
    let buf ← if idx < v.len - 1 then Mem.memmove v.buf idx (idx + 1) (v.len - idx - 1)
              else pure v.buf
    pure (⟨buf, v.len - 1, v.cap⟩, item)

/-- `Vec::append` (std/vec.zc:177-183); `other` is passed by value. -/
def append (v other : Vec α) : Res (Vec α) := do
  let newLen := v.len + other.len
  let v := growToFit v newLen
  let buf ← Mem.memcpy v.buf v.len other.buf 0 other.len
  pure ⟨buf, newLen, v.cap⟩

/-- `Vec::get` / `Vec::index` (std/vec.zc:185-195). -/
def get (v : Vec α) (idx : Nat) : Res α :=
  if idx ≥ v.len then .panic else Mem.load v.buf idx

/-- `Vec::last` (std/vec.zc:205-211). -/
def last (v : Vec α) : Res α :=
  if v.len = 0 then .panic else Mem.load v.buf (v.len - 1)

/-- `Vec::first` (std/vec.zc:241-247). -/
def first (v : Vec α) : Res α :=
  if v.len = 0 then .panic else Mem.load v.buf 0

/-- Loop of `Vec::contains` (std/vec.zc:218-223). -/
def containsLoop [DecidableEq α] (v : Vec α) (item : α) (i : Nat) : Res Bool :=
  if i < v.len then do
    let a ← Mem.load v.buf i
    if a = item then pure true else containsLoop v item (i + 1)
  else pure false
termination_by v.len - i

/-- `Vec::contains` (std/vec.zc:217-224). -/
def contains [DecidableEq α] (v : Vec α) (item : α) : Res Bool := containsLoop v item 0

/-- `Vec::clear` (std/vec.zc:230-232). -/
def clear (v : Vec α) : Vec α := ⟨v.buf, 0, v.cap⟩

/-- `Vec::free` / `Vec::forget` / the zeroing of a moved-from variable (std/vec.zc:234-239,
280-284; src/codegen/codegen_utils.c:903-949).  Ownership of the block is not tracked. -/
def free (_ : Vec α) : Vec α := ⟨[], 0, 0⟩

/-- `Vec::set` (std/vec.zc:249-255). -/
def set (v : Vec α) (idx : Nat) (item : α) : Res (Vec α) :=
  if idx ≥ v.len then .panic
  else do
    let buf ← Mem.store v.buf idx item
    pure ⟨buf, v.len, v.cap⟩

/-- Loop of `Vec::reverse` (std/vec.zc:260-266). -/
def reverseLoop (buf : Mem α) (i j : Nat) : Res (Mem α) :=
  if i < j then do
    let tmp ← Mem.load buf i
    let b ← Mem.load buf j
    let buf ← Mem.store buf i b
    let buf ← Mem.store buf j tmp
    reverseLoop buf (i + 1) (j - 1)
  else pure buf
termination_by j - i

/-- `Vec::reverse` (std/vec.zc:257-267).  `len - 1` on `usize` wraps modulo 2^64. -/
def reverse (v : Vec α) : Res (Vec α) := do
  let j := if v.len = 0 then 2 ^ 64 - 1 else v.len - 1
  let buf ← reverseLoop v.buf 0 j
  pure ⟨buf, v.len, v.cap⟩

/-- Loop of `Vec::eq` (std/vec.zc:271-276). -/
def eqLoop [DecidableEq α] (v w : Vec α) (i : Nat) : Res Bool :=
  if i < v.len then do
    let a ← Mem.load v.buf i
    let b ← Mem.load w.buf i
    if a ≠ b then pure false else eqLoop v w (i + 1)
  else pure true
termination_by v.len - i

/-- `Vec::eq` (std/vec.zc:269-277). -/
def eq [DecidableEq α] (v w : Vec α) : Res Bool :=
  if v.len ≠ w.len then pure false else eqLoop v w 0

/-- Loop of `Vec::clone` (std/vec.zc:291-295). -/
def cloneLoop (v : Vec α) (newData : Mem α) (i : Nat) : Res (Mem α) :=
  if i < v.len then do
    let a ← Mem.load v.buf i
    let newData ← Mem.store newData i a
    cloneLoop v newData (i + 1)
  else pure newData
termination_by v.len - i

/-- `Vec::clone` (std/vec.zc:286-302). -/
def clone (v : Vec α) : Res (Vec α) :=
  if v.len = 0 then pure ⟨[], 0, 0⟩
  else do
    let buf ← cloneLoop v (Mem.malloc v.len) 0
    pure ⟨buf, v.len, v.len⟩

/-- The calls a client can make on a family of vectors named by numbers. -/
inductive Op (α : Type) where
  | new (i : Nat)
  | withCapacity (i n : Nat)
  | push (i : Nat) (a : α)
  | insert (i k : Nat) (a : α)
  | pop (i : Nat)
  | popOpt (i : Nat)
  | remove (i k : Nat)
  | append (i j : Nat)
  | get (i k : Nat)
  | first (i : Nat)
  | last (i : Nat)
  | contains (i : Nat) (a : α)
  | clear (i : Nat)
  | free (i : Nat)
  | set (i k : Nat) (a : α)
  | reverse (i : Nat)
  | eq (i j : Nat)
  | clone (i j : Nat)
  | length (i : Nat)
  | isEmpty (i : Nat)

/-- What a call returns to the client. -/
inductive Ret (α : Type) where
  | unit
  | val (a : α)
  | opt (o : Option α)
  | bool (b : Bool)
  | nat (n : Nat)
  deriving DecidableEq, Repr

/-- Assigning one named object. -/
def upd {β : Type} (s : Nat → β) (i : Nat) (v : β) : Nat → β := fun k => if k = i then v else s k

/-- One client call on the concrete vectors.  `append i j` moves vector `j` into the call
(the variable is zeroed) before the callee runs; `clone i j` assigns the clone of `i` to `j`. -/
def step [DecidableEq α] (s : Nat → Vec α) : Op α → Res ((Nat → Vec α) × Ret α)
  | .new i => pure (upd s i new, .unit)
  | .withCapacity i n => pure (upd s i (withCapacity n), .unit)
  | .push i a => do let v ← push (s i) a; pure (upd s i v, .unit)
  | .insert i k a => do let v ← insert (s i) k a; pure (upd s i v, .unit)
  | .pop i => do let (v, a) ← pop (s i); pure (upd s i v, .val a)
  | .popOpt i => do let (v, o) ← popOpt (s i); pure (upd s i v, .opt o)
  | .remove i k => do let (v, a) ← remove (s i) k; pure (upd s i v, .val a)
  | .append i j => do
      let other := s j
      let s := upd s j (free other)
      let v ← append (s i) other
      pure (upd s i v, .unit)
  | .get i k => do let a ← get (s i) k; pure (s, .val a)
  | .first i => do let a ← first (s i); pure (s, .val a)
  | .last i => do let a ← last (s i); pure (s, .val a)
  | .contains i a => do let b ← contains (s i) a; pure (s, .bool b)
  | .clear i => pure (upd s i (clear (s i)), .unit)
  | .free i => pure (upd s i (free (s i)), .unit)
  | .set i k a => do let v ← set (s i) k a; pure (upd s i v, .unit)
  | .reverse i => do let v ← reverse (s i); pure (upd s i v, .unit)
  | .eq i j => do let b ← eq (s i) (s j); pure (s, .bool b)
  | .clone i j => do let v ← clone (s i); pure (upd s j v, .unit)
  | .length i => pure (s, .nat (s i).len)
  | .isEmpty i => pure (s, .bool ((s i).len == 0))

/-- A history of calls: the list of returned values, or how the history ends. -/
def run [DecidableEq α] (s : Nat → Vec α) : List (Op α) → Res (List (Ret α))
  | [] => pure []
  | op :: ops => do
      let (s', r) ← step s op
      let rs ← run s' ops
      pure (r :: rs)

/-! ## Specification: finite sequences -/

namespace Spec

/-- The same calls on mathematical sequences; `none` means the call is not allowed
(the program must panic). -/
def step [DecidableEq α] (s : Nat → List α) : Op α → Option ((Nat → List α) × Ret α)
  | .new i => some (upd s i [], .unit)
  | .withCapacity i _ => some (upd s i [], .unit)
  | .push i a => some (upd s i (s i ++ [a]), .unit)
  | .insert i k a =>
      if k ≤ (s i).length then some (upd s i ((s i).take k ++ a :: (s i).drop k), .unit) else none
  | .pop i => (s i).getLast?.map fun a => (upd s i (s i).dropLast, .val a)
  | .popOpt i => some (upd s i (s i).dropLast, .opt (s i).getLast?)
  | .remove i k => (s i)[k]?.map fun a => (upd s i ((s i).eraseIdx k), .val a)
  | .append i j =>
      some (upd (upd s j []) i ((if i = j then [] else s i) ++ s j), .unit)
  | .get i k => (s i)[k]?.map fun a => (s, .val a)
  | .first i => (s i).head?.map fun a => (s, .val a)
  | .last i => (s i).getLast?.map fun a => (s, .val a)
  | .contains i a => some (s, .bool (decide (a ∈ s i)))
  | .clear i => some (upd s i [], .unit)
  | .free i => some (upd s i [], .unit)
  | .set i k a => if k < (s i).length then some (upd s i ((s i).set k a), .unit) else none
  | .reverse i => some (upd s i (s i).reverse, .unit)
  | .eq i j => some (s, .bool (decide (s i = s j)))
  | .clone i j => some (upd s j (s i), .unit)
  | .length i => some (s, .nat (s i).length)
  | .isEmpty i => some (s, .bool (s i).isEmpty)

/-- Specification of a history: the returned values, or a panic at the first call that is
not allowed. -/
def run [DecidableEq α] (s : Nat → List α) : List (Op α) → Res (List (Ret α))
  | [] => .ok []
  | op :: ops =>
    match step s op with
    | none => .panic
    | some (s', r) =>
      match run s' ops with
      | .ok rs => .ok (r :: rs)
      | .panic => .panic
      | .ub => .ub

/-- The history never reverses an empty sequence. -/
def NoEmptyReverse [DecidableEq α] (s : Nat → List α) : List (Op α) → Prop
  | [] => True
  | op :: ops =>
    (match op with
     | .reverse i => s i ≠ []
     | _ => True) ∧
    (match step s op with
     | none => True
     | some (s', _) => NoEmptyReverse s' ops)

end Spec

end Verif.Vec
