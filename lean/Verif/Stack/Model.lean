import Verif.Basic

/-!
# `std/stack.zc` — LIFO stack

Model of `Stack<T>` (std/stack.zc:4-71).  `malloc(0)` is implementation-defined in C: the
parameter `m0` says whether it returns NULL (`true`) or a unique pointer (`false`, as glibc
and musl do).
-/

namespace Verif.Stack
open Verif

/-- `struct Stack<T>` (std/stack.zc:4-8); `null` records `data == NULL`, `buf` is the block. -/
structure Stack (α : Type) where
  null : Bool
  buf : Mem α
  len : Nat
  cap : Nat
  deriving DecidableEq, Repr

variable {α : Type}

/-- `Stack::new` (std/stack.zc:11-13). -/
def new : Stack α := ⟨true, [], 0, 0⟩

/-- `Stack::free` (std/stack.zc:15-21): note that `cap` keeps its value. -/
def free (s : Stack α) : Stack α := ⟨true, [], 0, s.cap⟩

/-- `Stack::clone` (std/stack.zc:23-30). -/
def clone (m0 : Bool) (s : Stack α) : Res (Stack α) := do
  let buf ← Mem.memcpy (Mem.malloc s.cap) 0 s.buf 0 s.len
  pure ⟨decide (s.cap = 0) && m0, buf, s.len, s.cap⟩

/-- `Stack::push` (std/stack.zc:32-43). -/
def push (s : Stack α) (value : α) : Res (Stack α) := do
  let s := if s.null then ⟨false, Mem.malloc 8, s.len, 8⟩ else s
  let s := if s.len = s.cap then ⟨s.null, Mem.realloc s.buf (s.cap * 2), s.len, s.cap * 2⟩ else s
  let buf ← Mem.store s.buf s.len value
  pure ⟨s.null, buf, s.len + 1, s.cap⟩

/-- `Stack::pop` (std/stack.zc:45-52). -/
def pop (s : Stack α) : Res (Stack α × Option α) :=
  if s.len > 0 then do
    let a ← Mem.load s.buf (s.len - 1)
    pure (⟨s.null, s.buf, s.len - 1, s.cap⟩, some a)
  else pure (s, none)

/-- `Stack::clear` (std/stack.zc:58-60). -/
def clear (s : Stack α) : Stack α := ⟨s.null, s.buf, 0, s.cap⟩

/-- Client calls on a family of stacks named by numbers. -/
inductive Op (α : Type) where
  | new (i : Nat)
  | push (i : Nat) (a : α)
  | pop (i : Nat)
  | clear (i : Nat)
  | free (i : Nat)
  | clone (i j : Nat)
  | length (i : Nat)
  | isEmpty (i : Nat)

/-- Values returned to the client. -/
inductive Ret (α : Type) where
  | unit
  | opt (o : Option α)
  | nat (n : Nat)
  | bool (b : Bool)
  deriving DecidableEq, Repr

/-- Assigning one named object. -/
def upd {β : Type} (s : Nat → β) (i : Nat) (v : β) : Nat → β := fun k => if k = i then v else s k

/-- One client call (`length`, `is_empty`: std/stack.zc:54-56, 62-64). -/
def step (m0 : Bool) (s : Nat → Stack α) : Op α → Res ((Nat → Stack α) × Ret α)
  | .new i => pure (upd s i new, .unit)
  | .push i a => do let v ← push (s i) a; pure (upd s i v, .unit)
  | .pop i => do let (v, o) ← pop (s i); pure (upd s i v, .opt o)
  | .clear i => pure (upd s i (clear (s i)), .unit)
  | .free i => pure (upd s i (free (s i)), .unit)
  | .clone i j => do let v ← clone m0 (s i); pure (upd s j v, .unit)
  | .length i => pure (s, .nat (s i).len)
  | .isEmpty i => pure (s, .bool ((s i).len == 0))

/-- A history of calls. -/
def run (m0 : Bool) (s : Nat → Stack α) : List (Op α) → Res (List (Ret α))
  | [] => pure []
  | op :: ops => do
      let (s', r) ← step m0 s op
      let rs ← run m0 s' ops
      pure (r :: rs)

namespace Spec

/-- The same calls on lists whose head is the top of the stack. -/
def step (s : Nat → List α) : Op α → (Nat → List α) × Ret α
  | .new i => (upd s i [], .unit)
  | .push i a => (upd s i (a :: s i), .unit)
  | .pop i => (upd s i (s i).tail, .opt (s i).head?)
  | .clear i => (upd s i [], .unit)
  | .free i => (upd s i [], .unit)
  | .clone i j => (upd s j (s i), .unit)
  | .length i => (s, .nat (s i).length)
  | .isEmpty i => (s, .bool (s i).isEmpty)

/-- Returned values of a history. -/
def run (s : Nat → List α) : List (Op α) → List (Ret α)
  | [] => []
  | op :: ops => (step s op).2 :: run (step s op).1 ops

/-- `used i`: something was pushed on stack `i` (or on the stack it was cloned from) since it
was created. -/
def used (u : Nat → Bool) : Op α → (Nat → Bool)
  | .new i => upd u i false
  | .push i _ => upd u i true
  | .clone i j => upd u j (u i)
  | _ => u

/-- The history never clones a stack nothing was ever pushed on. -/
def NoUnusedClone (u : Nat → Bool) : List (Op α) → Prop
  | [] => True
  | op :: ops => (∀ i j, op = .clone i j → u i = true) ∧ NoUnusedClone (used u op) ops

end Spec
end Verif.Stack
