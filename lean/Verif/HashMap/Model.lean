import Verif.Probe

/-!
# `std/map.zc` — string-keyed hash map with open addressing

Model of `Map<V>` (std/map.zc:21-256).  The four parallel arrays `keys`, `vals`, `occupied`,
`deleted` are one list of slots.  Keys are values of an arbitrary type with decidable equality
(`strcmp(..) == 0`), together with the identity of the heap block that `strdup` returned, so
that use-after-free, double free and leaks are visible.  The hash function
(std/map.zc:6-19) is a parameter: the theorems hold for every collision pattern.
`len >= cap * 0.75` is the exact integer comparison `4 * len >= 3 * cap`.  Loops take a step
budget; using it up is the outcome `hang`.
-/

namespace Verif.HashMap
open Verif

/-- One index of the parallel arrays (std/map.zc:21-28); `calloc`ed memory is
`⟨false, false, none, none⟩`.  `key` is the text and the heap block id of the copy. -/
structure Slot (κ V : Type) where
  occ : Bool
  del : Bool
  key : Option (κ × Nat)
  val : Option V
  deriving DecidableEq, Repr

/-- The zero slot of `calloc`. -/
def Slot.zero {κ V : Type} : Slot κ V := ⟨false, false, none, none⟩

/-- `struct Map<V>` (std/map.zc:21-28) with the state of the heap of key copies: `next` is the
number of blocks handed out by `strdup`, `freed` the ids passed to `free`. -/
structure Tab (κ V : Type) where
  slots : List (Slot κ V)
  len : Nat
  cap : Nat
  next : Nat
  freed : List Nat
  deriving DecidableEq, Repr

variable {κ V : Type} [DecidableEq κ] (hash : κ → Nat)

/-- `Map::new` (std/map.zc:87-89). -/
def new : Tab κ V := ⟨[], 0, 0, 0, []⟩

/-- `strcmp(self.keys[idx], key) == 0`: undefined on NULL or on a freed copy. -/
def keyEq (t : Tab κ V) (s : Slot κ V) (k : κ) : Run Bool :=
  match s.key with
  | none => .ub
  | some (k', id) => if id ∈ t.freed then .ub else .ok (decide (k' = k))

/-- `!self.deleted[idx] && strcmp(self.keys[idx], key) == 0` (std/map.zc:130, 161, 186). -/
def slotHit (t : Tab κ V) (s : Slot κ V) (k : κ) : Run Bool :=
  if !s.del then keyEq t s k else .ok false

/-- Loop of `get` (std/map.zc:156-169); the result is the slot's value. -/
def getLoop (t : Tab κ V) (k : κ) (start : Nat) : Nat → Nat → Run (Option V)
  | 0, _ => .hang
  | f + 1, idx =>
    match t.slots[idx]? with
    | none => .ub
    | some s =>
      if !s.occ then .ok none
      else do
        let hit ← slotHit t s k
        if hit then
          match s.val with
          | none => .ub
          | some v => .ok (some v)
        else
          let idx := (idx + 1) % t.cap
          if idx = start then .ok none else getLoop t k start f idx

/-- `Map::get` (std/map.zc:147-170). -/
def get (f : Nat) (t : Tab κ V) (k : κ) : Run (Option V) :=
  if t.cap = 0 then .ok none
  else
    let idx := hash k % t.cap
    getLoop t k idx f idx

/-- Slot search of `put` (std/map.zc:129-144): no test for having come around. -/
def putLoop (t : Tab κ V) (k : κ) : Nat → Nat → Run Nat
  | 0, _ => .hang
  | f + 1, idx =>
    match t.slots[idx]? with
    | none => .ub
    | some s =>
      if !s.occ then .ok idx
      else do
        let hit ← slotHit t s k
        if hit then .ok idx else putLoop t k f ((idx + 1) % t.cap)

/-- Writing the slot found by `put` (std/map.zc:131-140). -/
def putAt (t : Tab κ V) (k : κ) (v : V) (idx : Nat) : Run (Tab κ V) :=
  match t.slots[idx]? with
  | none => .ub
  | some s =>
    let dup := !s.occ || s.del
    .ok ⟨t.slots.set idx ⟨true, false, if dup then some (k, t.next) else s.key, some v⟩,
      if !s.occ then t.len + 1 else t.len, t.cap, if dup then t.next + 1 else t.next, t.freed⟩

/-- Re-insertion loop of `_resize` (std/map.zc:106-110) with `put` as a parameter.  The key
passed to `put` is the old copy, which `put` duplicates again. -/
def readd (put : Tab κ V → κ → V → Run (Tab κ V)) (t : Tab κ V) : List (Slot κ V) → Run (Tab κ V)
  | [] => .ok t
  | s :: ss =>
    if s.occ && !s.del then
      match s.key, s.val with
      | some (k, id), some v =>
        if id ∈ t.freed then .ub
        else do
          let t ← put t k v
          readd put t ss
      | _, _ => .ub
    else readd put t ss

/-- `Map::_resize` (std/map.zc:91-117).  The old arrays are freed but not the old key copies. -/
def resize (put : Tab κ V → κ → V → Run (Tab κ V)) (t : Tab κ V) (newCap : Nat) :
    Run (Tab κ V) :=
  readd put ⟨List.replicate newCap Slot.zero, 0, newCap, t.next, t.freed⟩ t.slots

/-- `Map::put` (std/map.zc:119-145). -/
def put : Nat → Tab κ V → κ → V → Run (Tab κ V)
  | 0, _, _, _ => .hang
  | f + 1, t, k, v => do
    let t ← if 4 * t.len ≥ 3 * t.cap then
        resize (put f) t (if t.cap * 2 < 8 then 8 else t.cap * 2)
      else pure t
    let idx ← putLoop t k f (hash k % t.cap)
    putAt t k v idx

/-- Loop of `remove` (std/map.zc:183-194): no test for having come around. -/
def removeLoop (t : Tab κ V) (k : κ) : Nat → Nat → Run (Tab κ V)
  | 0, _ => .hang
  | f + 1, idx =>
    match t.slots[idx]? with
    | none => .ub
    | some s =>
      if !s.occ then .ok t
      else do
        let hit ← slotHit t s k
        if hit then
          match s.key with
          | none => .ub
          | some (_, id) =>
            .ok ⟨t.slots.set idx ⟨true, true, s.key, s.val⟩, t.len - 1, t.cap, t.next,
              id :: t.freed⟩
        else removeLoop t k f ((idx + 1) % t.cap)

/-- `Map::remove` (std/map.zc:177-195). -/
def remove (f : Nat) (t : Tab κ V) (k : κ) : Run (Tab κ V) :=
  if t.cap = 0 then .ok t
  else removeLoop t k f (hash k % t.cap)

/-- Key-freeing loop of `free` (std/map.zc:207-211); a second `free` of a block is undefined. -/
def freeKeys : List (Slot κ V) → List Nat → Run (List Nat)
  | [], fr => .ok fr
  | s :: ss, fr =>
    if s.occ && !s.del then
      match s.key with
      | none => freeKeys ss fr
      | some (_, id) => if id ∈ fr then .ub else freeKeys ss (id :: fr)
    else freeKeys ss fr

/-- `Map::free` (std/map.zc:205-223). -/
def free (t : Tab κ V) : Run (Tab κ V) := do
  let fr ← freeKeys t.slots t.freed
  .ok ⟨[], 0, 0, t.next, fr⟩

/-- Loop of `MapIter::next` (std/map.zc:64-79) over the slots that remain from index `i`;
`none` at the end. -/
def scan : List (Slot κ V) → Nat → Run (Option (κ × V) × Nat)
  | [], i => .ok (none, i)
  | s :: ss, i =>
    if s.occ && !s.del then
      match s.key, s.val with
      | some (k, _), some v => .ok (some (k, v), i + 1)
      | _, _ => .ub
    else scan ss (i + 1)

/-- `MapIter::next` (std/map.zc:63-84) from index `i`.  At the end line 81 reads
`self.vals[0]`, which is undefined when there is no slot. -/
def iterNext (t : Tab κ V) (i : Nat) : Run (Option (κ × V) × Nat) := do
  let (r, i) ← scan (t.slots.drop i) i
  match r with
  | some e => .ok (some e, i)
  | none => if t.slots.length = 0 then .ub else .ok (none, i)

/-- `for entry in map`: call `next` until it reports the end, collecting the entries
(protocol of the `for` loop over an iterator).  `f` bounds the number of calls. -/
def iterAll (t : Tab κ V) : Nat → Nat → Run (List (κ × V))
  | 0, _ => .hang
  | f + 1, i => do
    let (r, i) ← iterNext t i
    match r with
    | none => .ok []
    | some e => do
      let es ← iterAll t f i
      .ok (e :: es)

/-- Client calls. -/
inductive Op (κ V : Type) where
  | put (k : κ) (v : V)
  | get (k : κ)
  | contains (k : κ)
  | remove (k : κ)
  | length
  | isEmpty
  | free

/-- Values returned to the client. -/
inductive Ret (V : Type) where
  | unit
  | opt (v : Option V)
  | bool (b : Bool)
  | nat (n : Nat)
  deriving DecidableEq, Repr

/-- One client call with step budget `f` for each loop.  `contains` is std/map.zc:172-175. -/
def step (f : Nat) (t : Tab κ V) : Op κ V → Run (Tab κ V × Ret V)
  | .put k v => do let t ← put hash f t k v; pure (t, .unit)
  | .get k => do let r ← get hash f t k; pure (t, .opt r)
  | .contains k => do let r ← get hash f t k; pure (t, .bool r.isSome)
  | .remove k => do let t ← remove hash f t k; pure (t, .unit)
  | .length => .ok (t, .nat t.len)
  | .isEmpty => .ok (t, .bool (t.len == 0))
  | .free => do let t ← free t; pure (t, .unit)

/-- A history of calls: final state and returned values. -/
def run (f : Nat) (t : Tab κ V) : List (Op κ V) → Run (Tab κ V × List (Ret V))
  | [] => .ok (t, [])
  | op :: ops => do
      let (t, r) ← step hash f t op
      let (t, rs) ← run f t ops
      pure (t, r :: rs)

namespace Spec

/-- The same calls on a dictionary, written as a list of pairs with distinct keys. -/
def step (d : List (κ × V)) : Op κ V → List (κ × V) × Ret V
  | .put k v =>
    (if k ∈ d.map Prod.fst then d.map (fun e => if e.1 = k then (k, v) else e)
     else (k, v) :: d, .unit)
  | .get k => (d, .opt (d.lookup k))
  | .contains k => (d, .bool (decide (k ∈ d.map Prod.fst)))
  | .remove k => (d.filter (fun e => e.1 ≠ k), .unit)
  | .length => (d, .nat d.length)
  | .isEmpty => (d, .bool d.isEmpty)
  | .free => ([], .unit)

/-- Final dictionary and returned values of a history. -/
def run (d : List (κ × V)) : List (Op κ V) → List (κ × V) × List (Ret V)
  | [] => (d, [])
  | op :: ops =>
    let (d, r) := step d op
    let (d, rs) := run d ops
    (d, r :: rs)

end Spec
end Verif.HashMap
