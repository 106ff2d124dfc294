import Verif.Basic

/-!
# `std/queue.zc` — ring-buffer queue

Model of `Queue<T>` (std/queue.zc:4-114) at byte level: `es` is `sizeof(T)` and an element is
its `es` bytes.  The byte level matters because `_grow` keeps the new block in a variable
`let new_data = malloc(..)` whose C type is `void*` (src/codegen/codegen_utils.c:296-302,
src/codegen/codegen_stmt.c:986,1063-1117): `new_data + first_part` (std/queue.zc:39) then
advances by bytes, not by elements.  In `clone` the block is accessed through
`new_queue.data`, which has type `T*`.
-/

namespace Verif.Queue
open Verif

/-- An element of a type of size `es`: its bytes. -/
abbrev Elem (es : Nat) := {l : List UInt8 // l.length = es}

/-- `struct Queue<T>` (std/queue.zc:4-10); `buf` is the block `data` points to, in bytes. -/
structure Queue where
  buf : Mem UInt8
  cap : Nat
  head : Nat
  tail : Nat
  count : Nat
  deriving DecidableEq, Repr

/-- Reading `n` bytes starting at `off` (an element access `self.data[i]`). -/
def loadBytes (m : Mem UInt8) (off : Nat) : Nat → Res (List UInt8)
  | 0 => pure []
  | n + 1 => do
      let b ← Mem.load m off
      let bs ← loadBytes m (off + 1) n
      pure (b :: bs)

/-- Writing bytes starting at `off` (an element assignment `self.data[i] = v`). -/
def storeBytes (m : Mem UInt8) (off : Nat) : List UInt8 → Res (Mem UInt8)
  | [] => pure m
  | b :: bs => do
      let m ← Mem.store m off b
      storeBytes m (off + 1) bs

/-- `Queue::new` (std/queue.zc:13-15) and the state after `free` (17-26). -/
def new : Queue := ⟨[], 0, 0, 0, 0⟩

/-- The copy inside `Queue::_grow` (std/queue.zc:32-41). -/
def growCopy (es : Nat) (q : Queue) (newData : Mem UInt8) : Res (Mem UInt8) :=
  if q.count > 0 then
    if q.tail > q.head then
      Mem.memcpy newData 0 q.buf (q.head * es) (es * q.count)
    else do
      let firstPart := q.cap - q.head
      let secondPart := q.tail
      let newData ← Mem.memcpy newData 0 q.buf (q.head * es) (es * firstPart)
      -- `new_data` is a `void*`: the offset is `firstPart` bytes
      Mem.memcpy newData firstPart q.buf 0 (es * secondPart)
  else pure newData

/-- `Queue::_grow` (std/queue.zc:28-48). -/
def grow (es : Nat) (q : Queue) : Res Queue := do
  let newCap := if q.cap = 0 then 8 else q.cap * 2
  let newData ← growCopy es q (Mem.malloc (es * newCap))
  pure ⟨newData, newCap, 0, q.count, q.count⟩

/-- The copy inside `Queue::clone` (std/queue.zc:58-68). -/
def cloneCopy (es : Nat) (q : Queue) (newData : Mem UInt8) : Res (Mem UInt8) :=
  if q.count > 0 then
    if q.tail > q.head then
      Mem.memcpy newData 0 q.buf (q.head * es) (es * q.count)
    else do
      let firstPart := q.cap - q.head
      let secondPart := q.tail
      let newData ← Mem.memcpy newData 0 q.buf (q.head * es) (es * firstPart)
      Mem.memcpy newData (firstPart * es) q.buf 0 (es * secondPart)
  else pure newData

/-- `Queue::clone` (std/queue.zc:50-71). -/
def clone (es : Nat) (q : Queue) : Res Queue := do
  let newData ← cloneCopy es q (Mem.malloc (es * q.cap))
  pure ⟨newData, q.cap, 0, q.count, q.count⟩

/-- `Queue::push` (std/queue.zc:73-81). -/
def push (es : Nat) (q : Queue) (value : List UInt8) : Res Queue := do
  let q ← if q.count = q.cap then grow es q else pure q
  let buf ← storeBytes q.buf (q.tail * es) value
  pure ⟨buf, q.cap, q.head, (q.tail + 1) % q.cap, q.count + 1⟩

/-- `Queue::pop` (std/queue.zc:83-93). -/
def pop (es : Nat) (q : Queue) : Res (Queue × Option (List UInt8)) :=
  if q.count = 0 then pure (q, none)
  else do
    let value ← loadBytes q.buf (q.head * es) es
    pure (⟨q.buf, q.cap, (q.head + 1) % q.cap, q.tail, q.count - 1⟩, some value)

/-- `Queue::clear` (std/queue.zc:99-103). -/
def clear (q : Queue) : Queue := ⟨q.buf, q.cap, 0, 0, 0⟩

/-- Client calls on a family of queues named by numbers. -/
inductive Op (es : Nat) where
  | new (i : Nat)
  | push (i : Nat) (a : Elem es)
  | pop (i : Nat)
  | clear (i : Nat)
  | free (i : Nat)
  | clone (i j : Nat)
  | length (i : Nat)
  | isEmpty (i : Nat)

/-- Values returned to the client. -/
inductive Ret where
  | unit
  | opt (o : Option (List UInt8))
  | nat (n : Nat)
  | bool (b : Bool)
  deriving DecidableEq, Repr

/-- Assigning one named object. -/
def upd {β : Type} (s : Nat → β) (i : Nat) (v : β) : Nat → β := fun k => if k = i then v else s k

/-- One client call (`length`, `is_empty`: std/queue.zc:95-97, 105-107). -/
def step (es : Nat) (s : Nat → Queue) : Op es → Res ((Nat → Queue) × Ret)
  | .new i => pure (upd s i new, .unit)
  | .push i a => do let v ← push es (s i) a.1; pure (upd s i v, .unit)
  | .pop i => do let (v, o) ← pop es (s i); pure (upd s i v, .opt o)
  | .clear i => pure (upd s i (clear (s i)), .unit)
  | .free i => pure (upd s i new, .unit)
  | .clone i j => do let v ← clone es (s i); pure (upd s j v, .unit)
  | .length i => pure (s, .nat (s i).count)
  | .isEmpty i => pure (s, .bool ((s i).count == 0))

/-- A history of calls. -/
def run (es : Nat) (s : Nat → Queue) : List (Op es) → Res (List Ret)
  | [] => pure []
  | op :: ops => do
      let (s', r) ← step es s op
      let rs ← run es s' ops
      pure (r :: rs)

namespace Spec
variable {es : Nat}

/-- The same calls on lists, oldest element first. -/
def step (s : Nat → List (Elem es)) : Op es → (Nat → List (Elem es)) × Ret
  | .new i => (upd s i [], .unit)
  | .push i a => (upd s i (s i ++ [a]), .unit)
  | .pop i => (upd s i (s i).tail, .opt ((s i).head?.map (·.1)))
  | .clear i => (upd s i [], .unit)
  | .free i => (upd s i [], .unit)
  | .clone i j => (upd s j (s i), .unit)
  | .length i => (s, .nat (s i).length)
  | .isEmpty i => (s, .bool (s i).isEmpty)

/-- Returned values of a history. -/
def run (s : Nat → List (Elem es)) : List (Op es) → List Ret
  | [] => []
  | op :: ops => (step s op).2 :: run (step s op).1 ops

/-- Capacity and ring offset (position of the oldest element) of each queue, as determined by
the history: capacity doubles from 8 when a push finds the queue full, the offset advances
with each successful pop and restarts at 0 on growth, clear and clone. -/
def ring (s : Nat → List (Elem es)) (g : Nat → Nat × Nat) : Op es → (Nat → Nat × Nat)
  | .new i => upd g i (0, 0)
  | .push i _ =>
      if (s i).length = (g i).1 then upd g i (if (g i).1 = 0 then 8 else (g i).1 * 2, 0) else g
  | .pop i => if s i = [] then g else upd g i ((g i).1, ((g i).2 + 1) % (g i).1)
  | .clear i => upd g i ((g i).1, 0)
  | .free i => upd g i (0, 0)
  | .clone i j => upd g j ((g i).1, 0)
  | .length _ => g
  | .isEmpty _ => g

/-- The condition under which one call is faithful: no growth of a queue of multi-byte
elements whose oldest element is not at the start of the block, and no clone of a completely
full queue. -/
def Good (s : Nat → List (Elem es)) (g : Nat → Nat × Nat) : Op es → Prop
  | .push i _ => (s i).length = (g i).1 → es = 1 ∨ (g i).2 = 0
  | .clone i _ => (g i).1 = 0 ∨ (s i).length ≠ (g i).1
  | _ => True

/-- Every call of the history is faithful in that sense. -/
def GoodHistory (s : Nat → List (Elem es)) (g : Nat → Nat × Nat) : List (Op es) → Prop
  | [] => True
  | op :: ops => Good s g op ∧ GoodHistory (step s op).1 (ring s g op) ops

end Spec
end Verif.Queue
