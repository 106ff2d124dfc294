import Verif.Probe

/-!
# `std/set.zc` — hash set with open addressing

Model of `Set<T>` (std/set.zc:18-164).  The three parallel arrays `data`, `occupied`,
`deleted` are one list of slots.  The hash function (FNV-1a over the bytes of the value,
std/set.zc:6-16) is a parameter: the theorems hold for every function from values to numbers,
so for every collision pattern.  (Assumption: `==` on values implies equal bytes; this fails
for `0.0`/`-0.0` and padded structs.)  `len >= cap * 0.75` is exact integer comparison
`4 * len >= 3 * cap`.
-/

namespace Verif.HashSet
open Verif

/-- One index of the parallel arrays `data`, `occupied`, `deleted` (std/set.zc:18-24);
`calloc`ed memory is `⟨false, false, none⟩`. -/
structure Slot (α : Type) where
  occ : Bool
  del : Bool
  val : Option α
  deriving DecidableEq, Repr

/-- `struct Set<T>` (std/set.zc:18-24). -/
structure Tab (α : Type) where
  slots : List (Slot α)
  len : Nat
  cap : Nat
  deriving DecidableEq, Repr

variable {α : Type} [DecidableEq α] (hash : α → Nat)

/-- `Set::new` (std/set.zc:27-29), also the state after `free` (129-140). -/
def new : Tab α := ⟨[], 0, 0⟩

/-- Loop of `contains` (std/set.zc:88-98). -/
def containsLoop (t : Tab α) (v : α) (start : Nat) : Nat → Nat → Run Bool
  | 0, _ => .hang
  | f + 1, idx =>
    match t.slots[idx]? with
    | none => .ub
    | some s =>
      if s.occ then
        if !s.del && s.val == some v then .ok true
        else
          let idx := (idx + 1) % t.cap
          if idx = start then .ok false else containsLoop t v start f idx
      else .ok false

/-- `Set::contains` (std/set.zc:79-99). -/
def contains (f : Nat) (t : Tab α) (v : α) : Run Bool :=
  if t.cap = 0 then .ok false
  else
    let idx := hash v % t.cap
    containsLoop t v idx f idx

/-- Slot search of `add` (std/set.zc:68-70). -/
def addLoop (t : Tab α) : Nat → Nat → Run Nat
  | 0, _ => .hang
  | f + 1, idx =>
    match t.slots[idx]? with
    | none => .ub
    | some s => if s.occ && !s.del then addLoop t f ((idx + 1) % t.cap) else .ok idx

/-- Re-insertion loop of `_resize` (std/set.zc:43-47) with `add` as a parameter. -/
def readd (add : Tab α → α → Run (Tab α × Bool)) (t : Tab α) : List (Slot α) → Run (Tab α)
  | [] => .ok t
  | s :: ss =>
    if s.occ && !s.del then
      match s.val with
      | none => .ub
      | some v => do
          let (t, _) ← add t v
          readd add t ss
    else readd add t ss

/-- `Set::_resize` (std/set.zc:31-52). -/
def resize (add : Tab α → α → Run (Tab α × Bool)) (t : Tab α) (newCap : Nat) : Run (Tab α) :=
  readd add ⟨List.replicate newCap ⟨false, false, none⟩, 0, newCap⟩ t.slots

/-- `Set::add` (std/set.zc:54-77). -/
def add : Nat → Tab α → α → Run (Tab α × Bool)
  | 0, _, _ => .hang
  | f + 1, t, v => do
    let c ← contains hash f t v
    if c then pure (t, false)
    else do
      let t ← if 4 * t.len ≥ 3 * t.cap then
          resize (add f) t (if t.cap * 2 < 8 then 8 else t.cap * 2)
        else pure t
      let idx ← addLoop t f (hash v % t.cap)
      pure (⟨t.slots.set idx ⟨true, false, some v⟩, t.len + 1, t.cap⟩, true)

/-- Loop of `remove` (std/set.zc:108-118). -/
def removeLoop (t : Tab α) (v : α) (start : Nat) : Nat → Nat → Run (Tab α × Bool)
  | 0, _ => .hang
  | f + 1, idx =>
    match t.slots[idx]? with
    | none => .ub
    | some s =>
      if s.occ then
        if !s.del && s.val == some v then
          .ok (⟨t.slots.set idx ⟨true, true, s.val⟩, t.len - 1, t.cap⟩, true)
        else
          let idx := (idx + 1) % t.cap
          if idx = start then .ok (t, false) else removeLoop t v start f idx
      else .ok (t, false)

/-- `Set::remove` (std/set.zc:101-119). -/
def remove (f : Nat) (t : Tab α) (v : α) : Run (Tab α × Bool) :=
  if t.cap = 0 then .ok (t, false)
  else
    let idx := hash v % t.cap
    removeLoop t v idx f idx

/-- `Set::clear` (std/set.zc:157-163). -/
def clear (t : Tab α) : Tab α :=
  ⟨t.slots.map fun s => ⟨false, false, s.val⟩, 0, t.cap⟩

/-- Client calls. -/
inductive Op (α : Type) where
  | add (v : α)
  | remove (v : α)
  | contains (v : α)
  | length
  | isEmpty
  | clear
  | free

/-- Values returned to the client. -/
inductive Ret where
  | unit
  | bool (b : Bool)
  | nat (n : Nat)
  deriving DecidableEq, Repr

/-- One client call with step budget `f` for each loop. -/
def step (f : Nat) (t : Tab α) : Op α → Run (Tab α × Ret)
  | .add v => do let (t, b) ← add hash f t v; pure (t, .bool b)
  | .remove v => do let (t, b) ← remove hash f t v; pure (t, .bool b)
  | .contains v => do let b ← contains hash f t v; pure (t, .bool b)
  | .length => .ok (t, .nat t.len)
  | .isEmpty => .ok (t, .bool (t.len == 0))
  | .clear => .ok (clear t, .unit)
  | .free => .ok (new, .unit)

/-- A history of calls. -/
def run (f : Nat) (t : Tab α) : List (Op α) → Run (List Ret)
  | [] => .ok []
  | op :: ops => do
      let (t, r) ← step hash f t op
      let rs ← run f t ops
      pure (r :: rs)

namespace Spec

/-- The same calls on a finite set, written as a duplicate-free list of its members. -/
def step (s : List α) : Op α → List α × Ret
  | .add v => if v ∈ s then (s, .bool false) else (v :: s, .bool true)
  | .remove v => (s.filter (· ≠ v), .bool (decide (v ∈ s)))
  | .contains v => (s, .bool (decide (v ∈ s)))
  | .length => (s, .nat s.length)
  | .isEmpty => (s, .bool s.isEmpty)
  | .clear => ([], .unit)
  | .free => ([], .unit)

/-- Returned values of a history. -/
def run (s : List α) : List (Op α) → List Ret
  | [] => []
  | op :: ops => (step s op).2 :: run (step s op).1 ops

end Spec
end Verif.HashSet
