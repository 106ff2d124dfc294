import Verif.Str.Model

/-!
# `std/arena.zc` — bump allocator

`usize` is a natural number below 2^64 and sums and products are reduced modulo 2^64 as in the
emitted C.  A pointer is an offset into the block obtained from `malloc`; that block itself is
assumed to be suitably aligned and `malloc` to succeed.
-/

namespace Verif.StdArena
open Verif Verif.Str

/-- 2^64 -/
abbrev W : Nat := 2 ^ 64

/-- `struct Arena` (std/arena.zc:6-10) together with the bytes of its block. -/
structure Arena where
  mem : Mem Byte
  capacity : Nat
  used : Nat

/-- `Arena::new` (std/arena.zc:13-16). -/
def new (cap : Nat) : Arena := ⟨Mem.malloc cap, cap, 0⟩

/-- C `memset(m + off, v, n)`. -/
def memset (m : Mem Byte) (off n : Nat) (v : Byte) : Res (Mem Byte) :=
  if n = 0 then .ok m
  else if off + n ≤ m.length then .ok (m.take off ++ List.replicate n (some v) ++ m.drop (off + n))
  else .ub

/-- `(self.used + 7) & ~7` (std/arena.zc:19). -/
def alignUp (n : Nat) : Nat := ((n + 7) % W) &&& (W - 8)

/-- `Arena::alloc_bytes` (std/arena.zc:18-26); `none` is the null pointer. -/
def allocBytes (a : Arena) (size : Nat) : Option Nat × Arena :=
  let aligned := alignUp a.used
  if (aligned + size) % W > a.capacity then (none, a)
  else (some aligned, ⟨a.mem, a.capacity, (aligned + size) % W⟩)

/-- `Arena::alloc_n<T>` (std/arena.zc:36-43) for `sizeof(T) = sz`; `alloc<T>`
(std/arena.zc:28-34) is `count = 1`. -/
def allocN (a : Arena) (sz count : Nat) : Res (Option Nat × Arena) :=
  let size := sz * count % W
  match allocBytes a size with
  | (none, a) => .ok (none, a)
  | (some p, a) => do
    let mem ← memset a.mem p size 0
    .ok (some p, ⟨mem, a.capacity, a.used⟩)

/-- `Arena::dup_str` (std/arena.zc:45-52). -/
def dupStr (a : Arena) (src : Mem Byte) : Res (Option Nat × Arena) := do
  let len ← Str.strlen src
  match allocBytes a ((len + 1) % W) with
  | (none, a) => .ok (none, a)
  | (some p, a) => do
    let mem ← Mem.memcpy a.mem p src 0 (len + 1)
    .ok (some p, ⟨mem, a.capacity, a.used⟩)

/-- `Arena::restore` (std/arena.zc:66-70). -/
def restore (a : Arena) (mark : Nat) : Arena :=
  if mark ≤ a.used then ⟨a.mem, a.capacity, mark⟩ else a

/-- `Arena::reset` (std/arena.zc:72-74). -/
def reset (a : Arena) : Arena := ⟨a.mem, a.capacity, 0⟩

/-- Client calls.  `write p bs` is the client storing bytes through a pointer. -/
inductive Op where
  | allocBytes (size : Nat)
  | allocN (sz count : Nat)
  | dupStr (bs : List Byte)
  | write (p : Nat) (bs : List Byte)
  | restore (mark : Nat)
  | reset

/-- A block handed out: offset and requested size. -/
structure Block where
  start : Nat
  size : Nat
  deriving DecidableEq, Repr

/-- The arena and the blocks the client still holds (newest first). -/
structure St where
  arena : Arena
  live : List Block

/-- One call; the list of live blocks is bookkeeping of the client: a successful allocation of
`size` bytes adds a block, `restore(mark)` gives up the blocks not entirely below the mark, `reset`
gives up all. -/
def step (s : St) : Op → Res (Option Nat × St)
  | .allocBytes size =>
    match allocBytes s.arena size with
    | (none, a) => .ok (none, ⟨a, s.live⟩)
    | (some p, a) => .ok (some p, ⟨a, ⟨p, size⟩ :: s.live⟩)
  | .allocN sz count => do
    match ← allocN s.arena sz count with
    | (none, a) => .ok (none, ⟨a, s.live⟩)
    | (some p, a) => .ok (some p, ⟨a, ⟨p, sz * count⟩ :: s.live⟩)
  | .dupStr bs => do
    match ← dupStr s.arena (cmem bs) with
    | (none, a) => .ok (none, ⟨a, s.live⟩)
    | (some p, a) => .ok (some p, ⟨a, ⟨p, (Str.Spec.lit bs).length + 1⟩ :: s.live⟩)
  | .write p bs => do
    let mem ← Mem.memcpy s.arena.mem p (bs.map some) 0 bs.length
    .ok (none, ⟨⟨mem, s.arena.capacity, s.arena.used⟩, s.live⟩)
  | .restore mark =>
    if mark ≤ s.arena.used then
      .ok (none, ⟨restore s.arena mark, s.live.filter fun b => b.start + b.size ≤ mark⟩)
    else .ok (none, ⟨restore s.arena mark, s.live⟩)
  | .reset => .ok (none, ⟨reset s.arena, []⟩)

/-- A history. -/
def run (s : St) : List Op → Res St
  | [] => .ok s
  | op :: ops => do
    let (_, s) ← step s op
    run s ops

namespace Spec

/-- Two blocks share no byte. -/
def Disjoint (a b : Block) : Prop := a.start + a.size ≤ b.start ∨ b.start + b.size ≤ a.start

/-- What a client relies on for the blocks it holds. -/
def Safe (cap : Nat) (live : List Block) : Prop :=
  (∀ b ∈ live, b.start % 8 = 0 ∧ b.start + b.size ≤ cap) ∧ live.Pairwise Disjoint

/-- Sizes requested are real object sizes (no wrap-around of `usize`), and the client writes only
inside a block it holds. -/
def Guard1 (live : List Block) : Op → Prop
  | .allocBytes size => size < 2 ^ 63
  | .allocN sz count => sz * count < 2 ^ 63
  | .dupStr bs => bs.length < 2 ^ 62
  | .write p bs => ∃ b ∈ live, b.start ≤ p ∧ p + bs.length ≤ b.start + b.size
  | _ => True

end Spec

/-- `Guard1` at every call. -/
def Guard (s : St) : List Op → Prop
  | [] => True
  | op :: ops => Spec.Guard1 s.live op ∧ ∀ r s', step s op = .ok (r, s') → Guard s' ops

end Verif.StdArena
